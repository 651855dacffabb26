import Verif.Model.Lex

/-!
# The parser: jsonutils.go:256-296, 424-564, 616-716, parse_session.go
-/

namespace Jsonutils

/-- parse_session.go:26-28 `sJsonParseSession`.  `objectMap` is represented by the ids that already have a node
and the ids referenced by pointers so far; the pointers themselves are never resolved by the code. -/
structure Sess where
  saved : List Int := []
  refs : List Int := []
  deriving Repr, DecidableEq, Inhabited

/-- parse_session.go:36-44 `saveReferer`. -/
def Sess.saveReferer (s : Sess) (id : Int) : Sess := { s with refs := s.refs ++ [id] }

/-- parse_session.go:46-59 `saveNode`; `none` = panic. -/
def Sess.saveNode (s : Sess) (id : Int) : Option Sess :=
  if s.saved.contains id then none else some { s with saved := s.saved ++ [id] }

/-- jsonutils.go:276-294: meaning of a non-empty unquoted token that is not a pointer.
`strings.ToLower` is modelled by ASCII lower-casing: the words compared against are ASCII and contain neither `i`
nor `k`, the only ASCII letters that are lower cases of non-ASCII runes. -/
def scalarOf (val : Bytes) : J :=
  let lval := lowerBytes val
  if lval = [] ∨ lval = b!"null" ∨ lval = b!"none" then .null
  else if lval = b!"true" ∨ lval = b!"yes" then .bool true
  else if lval = b!"false" ∨ lval = b!"no" then .bool false
  else match parseInt val with
    | some n => .int n
    | none => match parseFloat val with
      | some x => .float x 0
      | none => .str val

/-- jsonutils.go:256-296 `parseJSONValue`. -/
def parseJSONValue (s : Sess) (rest : Bytes) : PR (J × Sess) :=
  match parseString rest with
  | .err e r => .err e r
  | .panic p => .panic p
  | .fuel => .fuel
  | .ok (val, true) r => .ok (.str val, s) r
  | .ok (val, false) r =>
    match val with
    | [] => .panic .index                                    -- val[0]
    | c :: cs =>
      if c = 60 ∧ val.getLast? = some 62 then
        match parseInt cs.dropLast with
        | none => .err .invalidNodeId r
        | some id => .ok (.ptr id, s.saveReferer id) r
      else .ok (scalarOf val, s) r

mutual
/-- The `switch str[i]` on the first byte of a value: jsonutils.go:464-473, 516-529, 668-678. -/
def parseVal : Nat → Sess → Bytes → PR (J × Sess)
  | 0, _, _ => .fuel
  | f + 1, s, rest =>
    match rest with
    | 91 :: r => match parseArr f s r [] with
      | .ok (xs, s') r' => .ok (.arr xs, s') r'
      | .err e r' => .err e r'
      | .panic p => .panic p
      | .fuel => .fuel
    | 123 :: r => match parseDict f s r [] 0 with
      | .ok (kvs, id, s') r' =>
        -- jsonutils.go:554-565 JSONDict.parse
        if 0 < id then match s'.saveNode id with
          | none => .panic .dupNode
          | some s'' => .ok (.dict id kvs, s'') r'
        else .ok (.dict id kvs, s') r'
      | .err e r' => .err e r'
      | .panic p => .panic p
      | .fuel => .fuel
    | _ => parseJSONValue s rest

/-- jsonutils.go:424-498 `parseDict`, the loop after the opening brace. -/
def parseDict : Nat → Sess → Bytes → SMap J → Int → PR (SMap J × Int × Sess)
  | 0, _, _, _, _ => .fuel
  | f + 1, s, rest, acc, id =>
    match rest with
    | [] => .ok (acc, id, s) []                              -- loop condition i < len(str) fails
    | _ :: _ =>
      match skipEmpty rest with
      | [] => .err .truncated []
      | 125 :: r => .ok (acc, id, s) r
      | r0 => match parseString r0 with
        | .err e r => .err e r
        | .panic p => .panic p
        | .fuel => .fuel
        | .ok (key, _) r1 =>
          match skipEmpty r1 with
          | [] => .err .truncated []
          | c :: r2 =>
            if c = 58 then
              match skipEmpty r2 with
              | [] => .err .truncated []
              | c3 :: r3 =>
                match parseVal f s (c3 :: r3) with
                | .err e r => .err e r
                | .panic p => .panic p
                | .fuel => .fuel
                | .ok (v, s') r4 =>
                  -- jsonutils.go:477-482
                  match (if key = jsonPointerKey then
                      match v with
                      | .int n => some (acc, n)
                      | _ => none
                    else some (smAdd acc key v, id)) with
                  | none => .panic .typeAssert
                  | some (acc', id') =>
                    match skipEmpty r4 with
                    | [] => .err .truncated []
                    | c5 :: r5 =>
                      if c5 = 44 then parseDict f s' r5 acc' id'
                      else if c5 = 125 then .ok (acc', id', s') r5
                      else .err .unexpected (c5 :: r5)
            else .err .noColon (c :: r2)

/-- jsonutils.go:500-552 `parseArray`, the loop after the opening bracket. -/
def parseArr : Nat → Sess → Bytes → List J → PR (List J × Sess)
  | 0, _, _, _ => .fuel
  | f + 1, s, rest, acc =>
    match rest with
    | [] => .ok (acc, s) []
    | _ :: _ =>
      match skipEmpty rest with
      | [] => .err .truncated []
      | 93 :: r => .ok (acc, s) r
      | r0 => match parseVal f s r0 with
        | .err e r => .err e r
        | .panic p => .panic p
        | .fuel => .fuel
        | .ok (v, s') r4 =>
          match skipEmpty r4 with
          | [] => .err .truncated []
          | c5 :: r5 =>
            if c5 = 44 then parseArr f s' r5 (acc ++ [v])
            else if c5 = 93 then .ok (acc ++ [v], s') r5
            else .err .unexpected (c5 :: r5)
end

/-- Enough fuel for an input (proved in `Proofs/ParseFuel`). -/
def parseFuel (rest : Bytes) : Nat := 2 * rest.length + 2

/-- Outcome of `ParseStream`: value or error with the returned index. -/
inductive SR where
  | ok (v : J) (off : Nat)
  | err (e : PErr) (off : Nat)
  | panic (p : PPanic)
  | diverge
  deriving Repr

/-- jsonutils.go:661-687 `ParseStream(str, offset)`, offset ≥ 0. -/
def parseStream (str : Bytes) (offset : Nat) : SR :=
  match skipEmpty (str.drop offset) with
  | [] => .err .empty (max offset str.length)
  | rest => match parseVal (parseFuel rest) {} rest with
    | .ok (v, _) r => .ok v (str.length - r.length)
    | .err e r => .err e (str.length - r.length)
    | .panic p => .panic p
    | .fuel => .diverge

/-- Outcome of `Parse`. -/
inductive ParseOut where
  | ok (v : J)
  | err (e : PErr)
  | panic (p : PPanic)
  | diverge
  deriving Repr

/-- jsonutils.go:652-659 `Parse`, `ParseString`. -/
def parse (str : Bytes) : ParseOut :=
  match parseStream str 0 with
  | .ok v _ => .ok v
  | .err e _ => .err e
  | .panic p => .panic p
  | .diverge => .diverge

/-- Outcome of `ParseJsonStreams`: `err` carries the number of collected errors. -/
inductive StreamsOut where
  | ok (vs : List J)
  | err (n : Nat)
  | panic (p : PPanic)
  | diverge
  deriving Repr

/-- jsonutils.go:693-708: the scanning loop on the remaining stream. -/
def streamsLoop : Nat → Bytes → List J → Nat → StreamsOut
  | 0, _, _, _ => .diverge
  | f + 1, stream, ret, errs =>
    match stream.dropWhile (fun c => c != 91 && c != 123) with
    | [] => if errs > 0 ∧ ret = [] then .err errs else .ok ret     -- jsonutils.go:709-715
    | c :: cs =>
      match parseStream (c :: cs) 0 with
      | .ok v off => streamsLoop f ((c :: cs).drop off) (ret ++ [v]) errs
      | .err _ _ => streamsLoop f cs ret (errs + 1)
      | .panic p => .panic p
      | .diverge => .diverge

/-- jsonutils.go:689-716 `ParseJsonStreams`. `ParseStream(stream, offset)` is `parseStream` on the suffix: the code
reads nothing before `offset` except for error texts. -/
def parseJsonStreams (stream : Bytes) : StreamsOut := streamsLoop (stream.length + 1) stream [] 0

end Jsonutils
