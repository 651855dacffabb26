import Verif.Model.Value

/-!
# Lexical level of the parser and the string quoting

The Go functions take `(str, offset)` and return a new index `i`.  Here the input is the remaining suffix
`str[offset:]` and the result carries the remaining suffix `str[i:]`; `i` is `len(str) - len(rest)`.
-/

namespace Jsonutils

/-- Parse errors; each is one `NewJSONError`/sentinel of the parser. -/
inductive PErr where
  | incompleteUnicode   -- jsonutils.go:180
  | incompleteHex       -- jsonutils.go:192
  | incompleteEscape    -- jsonutils.go:223
  | invalidChar         -- jsonutils.go:129 via 184, 196
  | truncated           -- "Truncated"
  | noBrace             -- jsonutils.go:428
  | noColon             -- jsonutils.go:456
  | noBracket           -- jsonutils.go:502
  | unexpected          -- "Unexpected char"
  | invalidNodeId       -- jsonutils.go:267
  | empty               -- jsonutils.go:685
  deriving DecidableEq, Repr, Inhabited

/-- Run-time panics of the parser. -/
inductive PPanic where
  | index               -- index out of range
  | typeAssert          -- jsonutils.go:479 `val.(*JSONInt)`
  | dupNode             -- parse_session.go:49
  deriving DecidableEq, Repr, Inhabited

/-- Outcome of a parsing function: value and remaining input, error and the input at the error position, panic,
or (model only) fuel exhausted. -/
inductive PR (α : Type) where
  | ok (a : α) (rest : Bytes)
  | err (e : PErr) (rest : Bytes)
  | panic (p : PPanic)
  | fuel
  deriving Repr, DecidableEq

/-- jsonutils.go:111 whitespace set. -/
def isWS (c : UInt8) : Bool := c == 32 || c == 9 || c == 10 || c == 13

/-- jsonutils.go:107-118 `skipEmpty`. -/
def skipEmpty : Bytes → Bytes
  | [] => []
  | c :: cs => if isWS c then skipEmpty cs else c :: cs

/-- jsonutils.go:120-131 `hexchar2num`. -/
def hexchar2num (v : UInt8) : Option UInt8 :=
  if 48 ≤ v && v ≤ 57 then some (v - 48)
  else if 97 ≤ v && v ≤ 102 then some (v - 97 + 10)
  else if 65 ≤ v && v ≤ 70 then some (v - 65 + 10)
  else none

/-- jsonutils.go:133-146 `hexstr2byte` on its two bytes (the length guard cannot fail at the call sites). -/
def hexstr2byte (a b : UInt8) : Option UInt8 :=
  match hexchar2num a, hexchar2num b with
  | some v1, some v2 => some (v1 * 16 + v2)
  | _, _ => none

/-- jsonutils.go:148-161 `hexstr2rune` on its four bytes. -/
def hexstr2rune (a b c d : UInt8) : Option Nat :=
  match hexstr2byte a b, hexstr2byte c d with
  | some v1, some v2 => some (v1.toNat * 256 + v2.toNat)
  | _, _ => none

/-- `utf8.EncodeRune` (Go standard library) for runes below 0x10000: surrogates become U+FFFD. -/
def encodeRune (r : Nat) : Bytes :=
  if r < 0x80 then [UInt8.ofNat r]
  else if r < 0x800 then [UInt8.ofNat (0xC0 + r / 64), UInt8.ofNat (0x80 + r % 64)]
  else if 0xD800 ≤ r ∧ r ≤ 0xDFFF then [0xEF, 0xBF, 0xBD]
  else [UInt8.ofNat (0xE0 + r / 4096), UInt8.ofNat (0x80 + r / 64 % 64), UInt8.ofNat (0x80 + r % 64)]

/-- jsonutils.go:200-220: the byte a one-character escape stands for. -/
def simpleEscape (c : UInt8) : UInt8 :=
  if c = 110 then 10        -- \n
  else if c = 114 then 13   -- \r
  else if c = 116 then 9    -- \t
  else if c = 98 then 8     -- \b
  else if c = 102 then 12   -- \f
  else c                    -- `\\` and every other character stand for themselves

/-- jsonutils.go:163-234 `parseQuoteString`; input starts after the opening quote. An unterminated string is
accepted (loop ends at the end of input). -/
def parseQuote (q : UInt8) : Bytes → Bytes → PR Bytes
  | [], buf => .ok buf []
  | c :: cs, buf =>
    if c = 92 then
      match cs with
      | [] => .err .incompleteEscape (c :: cs)
      | d :: ds =>
        if d = 117 then
          match ds with
          | h1 :: h2 :: h3 :: h4 :: r =>
            if r.isEmpty then .err .incompleteUnicode ds    -- i+4 >= len(str)
            else match hexstr2rune h1 h2 h3 h4 with
              | none => .err .invalidChar ds
              | some v => parseQuote q r (buf ++ encodeRune v)
          | _ => .err .incompleteUnicode ds
        else if d = 120 then
          match ds with
          | h1 :: h2 :: r =>
            if r.isEmpty then .err .incompleteHex ds        -- i+2 >= len(str)
            else match hexstr2byte h1 h2 with
              | none => .err .invalidChar ds
              | some b => parseQuote q r (buf ++ [b])
          | _ => .err .incompleteHex ds
        else parseQuote q ds (buf ++ [simpleEscape d])
    else if c = q then .ok buf cs
    else parseQuote q cs (buf ++ [c])

/-- jsonutils.go:247 delimiters that end an unquoted token. -/
def isDelim (c : UInt8) : Bool :=
  c == 32 || c == 58 || c == 44 || c == 9 || c == 13 || c == 10 || c == 125 || c == 93

/-- jsonutils.go:236-254 `parseString`: (text, was it quoted). `str[i]` on an empty rest would panic. -/
def parseString : Bytes → PR (Bytes × Bool)
  | [] => .panic .index
  | c :: cs =>
    if c = 34 ∨ c = 39 then
      match parseQuote c cs [] with
      | .ok s r => .ok (s, true) r
      | .err e r => .err e r
      | .panic p => .panic p
      | .fuel => .fuel
    else
      .ok ((c :: cs).takeWhile (fun x => !isDelim x), false) ((c :: cs).dropWhile (fun x => !isDelim x))

/-- jsonutils.go:338 `hexdigits`. -/
def hexLower (n : Nat) : UInt8 := if n < 10 then UInt8.ofNat (48 + n) else UInt8.ofNat (87 + n)

/-- jsonutils.go:319-358 `escapeJsonChar`. -/
def escapeJsonChar (ch : UInt8) : Bytes :=
  if ch = 34 then [92, 34]
  else if ch = 92 then [92, 92]
  else if ch = 8 then [92, 98]
  else if ch = 12 then [92, 102]
  else if ch = 10 then [92, 110]
  else if ch = 13 then [92, 114]
  else if ch = 9 then [92, 116]
  else if ch < 32 then [92, 117, 48, 48, hexLower (ch.toNat / 16), hexLower (ch.toNat % 16)]
  else [ch]

/-- jsonutils.go:360-369 `quoteString`. -/
def quoteString (s : Bytes) : Bytes := 34 :: (s.flatMap escapeJsonChar ++ [34])

end Jsonutils
