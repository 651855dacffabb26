import Verif.Model.Value

/-!
# RFC 8259: grammar and meaning

Concrete syntax trees of the RFC 8259 grammar.  `text` is the byte sequence a tree derives, `val` the document it
denotes.  A byte sequence is a JSON text iff it is `ws ++ t.text ++ ws'` for some tree `t`.

The grammar is taken at byte level: `raw` admits any byte from 0x20 on except quote and backslash, which covers the
UTF-8 encoding of every code point the RFC admits (and, in addition, ill-formed UTF-8).
-/

namespace Jsonutils.Rfc

/-- `ws = *( %x20 / %x09 / %x0A / %x0D )` -/
inductive WsChar where
  | space | tab | lf | cr
  deriving DecidableEq, Repr

def WsChar.byte : WsChar → UInt8
  | .space => 0x20
  | .tab => 0x09
  | .lf => 0x0A
  | .cr => 0x0D

abbrev Ws := List WsChar

def wsText (w : Ws) : Bytes := w.map WsChar.byte

/-- `HEXDIG` in either case. -/
structure HexDigit where
  val : Fin 16
  upper : Bool
  deriving DecidableEq, Repr

def HexDigit.byte (h : HexDigit) : UInt8 :=
  if h.val.val < 10 then UInt8.ofNat (0x30 + h.val.val)
  else if h.upper then UInt8.ofNat (0x41 + (h.val.val - 10)) else UInt8.ofNat (0x61 + (h.val.val - 10))

/-- Two-character escapes. -/
inductive Escape where
  | quote | backslash | slash | backspace | formfeed | lf | cr | tab
  deriving DecidableEq, Repr

/-- The letter after the backslash. -/
def Escape.letter : Escape → UInt8
  | .quote => 0x22
  | .backslash => 0x5C
  | .slash => 0x2F
  | .backspace => 0x62
  | .formfeed => 0x66
  | .lf => 0x6E
  | .cr => 0x72
  | .tab => 0x74

/-- The character denoted. -/
def Escape.meaning : Escape → UInt8
  | .quote => 0x22
  | .backslash => 0x5C
  | .slash => 0x2F
  | .backspace => 0x08
  | .formfeed => 0x0C
  | .lf => 0x0A
  | .cr => 0x0D
  | .tab => 0x09

/-- `char` of the RFC, at byte level. -/
inductive StrItem where
  | raw (c : UInt8) (h1 : 0x20 ≤ c) (h2 : c ≠ 0x22) (h3 : c ≠ 0x5C)
  | esc (e : Escape)
  | unicode (a b c d : HexDigit)

def StrItem.text : StrItem → Bytes
  | .raw c _ _ _ => [c]
  | .esc e => [0x5C, e.letter]
  | .unicode a b c d => [0x5C, 0x75, a.byte, b.byte, c.byte, d.byte]

/-- The code unit of `\uXXXX`. -/
def unitOf (a b c d : HexDigit) : Nat :=
  a.val.val * 4096 + b.val.val * 256 + c.val.val * 16 + d.val.val

/-- Is a code unit a surrogate? -/
def isSurrogate (n : Nat) : Prop := 0xD800 ≤ n ∧ n ≤ 0xDFFF

/-- Bytes denoted by one item; the UTF-8 encoding is the one of the Lean standard library. -/
def StrItem.meaning : StrItem → Bytes
  | .raw c _ _ _ => [c]
  | .esc e => [e.meaning]
  | .unicode a b c d => String.utf8EncodeChar (Char.ofNat (unitOf a b c d))

/-- No `\u` escape in the surrogate range. -/
def StrItem.NoSurrogate : StrItem → Prop
  | .unicode a b c d => ¬ isSurrogate (unitOf a b c d)
  | _ => True

abbrev Str := List StrItem

def strBody (s : Str) : Bytes := s.flatMap StrItem.text
/-- `string = quotation-mark *char quotation-mark` -/
def strText (s : Str) : Bytes := 0x22 :: (strBody s ++ [0x22])
def strMeaning (s : Str) : Bytes := s.flatMap StrItem.meaning
def StrOk (s : Str) : Prop := ∀ i ∈ s, i.NoSurrogate

/-- Digits and their value. -/
abbrev Digits := List (Fin 10)
def digitsText (d : Digits) : Bytes := d.map fun x => UInt8.ofNat (0x30 + x.val)
def digitsNat (d : Digits) : Nat := d.foldl (fun a x => a * 10 + x.val) 0

/-- `exp = e [ minus / plus ] 1*DIGIT` -/
structure Exponent where
  upper : Bool
  sign : Option Bool        -- some true = minus, some false = plus
  digits : Digits
  ne : digits ≠ []

/-- `number = [ minus ] int [ frac ] [ exp ]` -/
structure Number where
  neg : Bool
  int : Digits
  frac : Option Digits
  exp : Option Exponent
  int_ne : int ≠ []
  /-- `int = zero / ( digit1-9 *DIGIT )` -/
  no_leading_zero : int.head? = some 0 → int.length = 1
  frac_ne : frac ≠ some []

def Exponent.text (e : Exponent) : Bytes :=
  (if e.upper then 0x45 else 0x65) ::
    ((match e.sign with
      | none => []
      | some true => [0x2D]
      | some false => [0x2B]) ++ digitsText e.digits)

def Exponent.value (e : Exponent) : Int :=
  if e.sign = some true then -(digitsNat e.digits : Int) else digitsNat e.digits

def Number.text (n : Number) : Bytes :=
  (if n.neg then [0x2D] else []) ++ digitsText n.int ++
    ((match n.frac with
      | none => []
      | some f => 0x2E :: digitsText f) ++
     (match n.exp with
      | none => []
      | some e => e.text))

/-- All significant digits. -/
def Number.mant (n : Number) : Nat := digitsNat (n.int ++ n.frac.getD [])
/-- Power of ten of the last digit. -/
def Number.power (n : Number) : Int :=
  (match n.exp with | none => 0 | some e => e.value) - (n.frac.getD []).length

/-- The integer denoted by a number without fraction and exponent. -/
def Number.intValue (n : Number) : Int := if n.neg then -(digitsNat n.int : Int) else digitsNat n.int

/-- The double nearest to the number; `none` when it is out of range. -/
def Number.double (n : Number) : Option GoFloat :=
  if 0 ≤ n.power then mkFloat n.neg (n.mant * 10 ^ n.power.toNat) 1
  else mkFloat n.neg n.mant (10 ^ (-n.power).toNat)

/-- Exponents of more than five digits are outside what Go's number reader resolves exactly. -/
def Number.Ok (n : Number) : Prop := ∀ e, n.exp = some e → digitsNat e.digits < 100000

/-- An integer literal within int64 denotes an integer, every other number a double.  (A number beyond the double range
is kept as its text, see the findings.) -/
def Number.val (n : Number) : J :=
  if n.frac = none ∧ n.exp.isNone ∧ InI64 n.intValue then .int n.intValue
  else match n.double with
    | some x => .float x 0
    | none => .str n.text

mutual
/-- `value`, with `array` and `object` unfolded. -/
inductive Tree where
  | null
  | tt
  | ff
  | num (n : Number)
  | str (s : Str)
  | arr0 (w : Ws)
  | arr (es : Elems)
  | obj0 (w : Ws)
  | obj (ms : Members)
/-- `value *( value-separator value )` with the whitespace around each value. -/
inductive Elems where
  | one (w : Ws) (v : Tree) (w' : Ws)
  | more (w : Ws) (v : Tree) (w' : Ws) (rest : Elems)
/-- `member *( value-separator member )` with `member = string name-separator value`. -/
inductive Members where
  | one (w : Ws) (k : Str) (w1 w2 : Ws) (v : Tree) (w' : Ws)
  | more (w : Ws) (k : Str) (w1 w2 : Ws) (v : Tree) (w' : Ws) (rest : Members)
end

mutual
def Tree.text : Tree → Bytes
  | .null => b!"null"
  | .tt => b!"true"
  | .ff => b!"false"
  | .num n => n.text
  | .str s => strText s
  | .arr0 w => 0x5B :: (wsText w ++ [0x5D])
  | .arr es => 0x5B :: (es.text ++ [0x5D])
  | .obj0 w => 0x7B :: (wsText w ++ [0x7D])
  | .obj ms => 0x7B :: (ms.text ++ [0x7D])
def Elems.text : Elems → Bytes
  | .one w v w' => wsText w ++ v.text ++ wsText w'
  | .more w v w' rest => wsText w ++ v.text ++ wsText w' ++ 0x2C :: rest.text
def Members.text : Members → Bytes
  | .one w k w1 w2 v w' => wsText w ++ strText k ++ wsText w1 ++ 0x3A :: (wsText w2 ++ v.text ++ wsText w')
  | .more w k w1 w2 v w' rest =>
    wsText w ++ strText k ++ wsText w1 ++ 0x3A :: (wsText w2 ++ v.text ++ wsText w' ++ 0x2C :: rest.text)
end

mutual
/-- The document denoted; an object is the dictionary obtained by setting its members in order. -/
def Tree.val : Tree → J
  | .null => .null
  | .tt => .bool true
  | .ff => .bool false
  | .num n => n.val
  | .str s => .str (strMeaning s)
  | .arr0 _ => .arr []
  | .arr es => .arr es.vals
  | .obj0 _ => .dict 0 []
  | .obj ms => newDict ms.entries
def Elems.vals : Elems → List J
  | .one _ v _ => [v.val]
  | .more _ v _ rest => v.val :: rest.vals
def Members.entries : Members → List (Bytes × J)
  | .one _ k _ _ v _ => [(strMeaning k, v.val)]
  | .more _ k _ _ v _ rest => (strMeaning k, v.val) :: rest.entries
end

mutual
/-- Side conditions under which the meaning is claimed: no surrogate escapes, exponents below 100000, the reserved
key is not used. -/
def Tree.Ok : Tree → Prop
  | .num n => n.Ok
  | .str s => StrOk s
  | .arr es => es.Ok
  | .obj ms => ms.Ok
  | _ => True
def Elems.Ok : Elems → Prop
  | .one _ v _ => v.Ok
  | .more _ v _ rest => v.Ok ∧ rest.Ok
def Members.Ok : Members → Prop
  | .one _ k _ _ v _ => StrOk k ∧ strMeaning k ≠ jsonPointerKey ∧ v.Ok
  | .more _ k _ _ v _ rest => (StrOk k ∧ strMeaning k ≠ jsonPointerKey ∧ v.Ok) ∧ rest.Ok
end

/-- `JSON-text = ws value ws` -/
def IsJsonText (s : Bytes) : Prop := ∃ w t w', s = wsText w ++ Tree.text t ++ wsText w'

end Jsonutils.Rfc
