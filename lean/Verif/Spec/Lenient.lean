import Verif.Spec.Parse
import Verif.Spec.Panic
import Verif.Model.SortedMap
import Verif.Spec.Numeral

/-!
# The language `Parse` accepts

A grammar, with meanings, of what `Parse` reads, written without reference to the parsing functions.  It extends JSON by:
bare words as keys and values, single-quoted strings, `\xHH`, any other escaped byte standing for itself, a missing closing
quote or bracket at the very end of the text, a comma before a closing bracket, references `<n>` and the reserved member
that declares a node id.  Numerals are defined in `Spec/Numeral`; `lowerBytes` is ASCII lower-casing.
-/

namespace Jsonutils.Lenient
open Rfc

/-- Space, tab, newline, carriage return. -/
def Blank (c : UInt8) : Prop := c = 32 ∨ c = 9 ∨ c = 10 ∨ c = 13
def Blanks (w : Bytes) : Prop := ∀ c ∈ w, Blank c
/-- What ends a bare word: a blank or one of `,` `:` `]` `}`. -/
def Delim (c : UInt8) : Prop := Blank c ∨ c = 44 ∨ c = 58 ∨ c = 93 ∨ c = 125
def Word (w : Bytes) : Prop := ∀ c ∈ w, ¬ Delim c
/-- A bare word may end in front of `r`. -/
def Ends (r : Bytes) : Prop := ∀ c, r.head? = some c → Delim c
/-- There is a byte, and it is not a blank. -/
def Starts (u : Bytes) : Prop := ∃ c r, u = c :: r ∧ ¬ Blank c

/-- The byte that `\c` stands for. -/
def escMeaning (c : UInt8) : UInt8 :=
  if c = 110 then 10 else if c = 114 then 13 else if c = 116 then 9 else if c = 98 then 8 else if c = 102 then 12 else c

/-- `Quoted q t s r`: behind an opening quote `q`, the text `t` starts with the rest of a quoted string that denotes `s`;
the input behind it is `r`.  A `\u` or `\x` escape must not be the very end of the text. -/
inductive Quoted (q : UInt8) : Bytes → Bytes → Bytes → Prop where
  | eof : Quoted q [] [] []
  | close {r : Bytes} : Quoted q (q :: r) [] r
  | raw {c : UInt8} {t s r : Bytes} : c ≠ q → c ≠ 92 → Quoted q t s r → Quoted q (c :: t) (c :: s) r
  | esc {c : UInt8} {t s r : Bytes} : c ≠ 117 → c ≠ 120 → Quoted q t s r → Quoted q (92 :: c :: t) (escMeaning c :: s) r
  | unicode {a b c d : HexDigit} {t s r : Bytes} : t ≠ [] → Quoted q t s r →
      Quoted q (92 :: 117 :: a.byte :: b.byte :: c.byte :: d.byte :: t) ((StrItem.unicode a b c d).decoded ++ s) r
  | hex {a b : HexDigit} {t s r : Bytes} : t ≠ [] → Quoted q t s r →
      Quoted q (92 :: 120 :: a.byte :: b.byte :: t) (UInt8.ofNat (a.val.val * 16 + b.val.val) :: s) r

def Quote (q : UInt8) : Prop := q = 34 ∨ q = 39

/-- `Key t k r`: `t` starts with the key `k`, followed by `r`.  A bare key can be empty (in front of the colon). -/
inductive Key : Bytes → Bytes → Bytes → Prop where
  | quoted {q : UInt8} {t k r : Bytes} : Quote q → Quoted q t k r → Key (q :: t) k r
  | bare {k r : Bytes} : Word k → (∀ c, k.head? = some c → ¬ Quote c) → Ends r → (k = [] → ∀ c, r.head? = some c → ¬ Blank c) →
      Key (k ++ r) k r

/-- The bare words with a meaning of their own, in any letter case. -/
inductive Keyword : Bytes → J → Prop where
  | null {w : Bytes} : lowerBytes w = b!"null" ∨ lowerBytes w = b!"none" → Keyword w .null
  | true {w : Bytes} : lowerBytes w = b!"true" ∨ lowerBytes w = b!"yes" → Keyword w (.bool true)
  | false {w : Bytes} : lowerBytes w = b!"false" ∨ lowerBytes w = b!"no" → Keyword w (.bool false)

/-- What a (non-empty) bare word means: a keyword, else an integer, else a double, else the text itself. -/
inductive Means : Bytes → J → Prop where
  | keyword {w : Bytes} {j : J} : Keyword w j → Means w j
  | int {w : Bytes} {n : Int} : (∀ j, ¬ Keyword w j) → Numeral.IsInt64 w n → Means w (.int n)
  | float {w : Bytes} {x : GoFloat} : (∀ j, ¬ Keyword w j) → (∀ n, ¬ Numeral.IsInt64 w n) → Numeral.Denotes w x → Means w (.float x 0)
  | str {w : Bytes} : (∀ j, ¬ Keyword w j) → (∀ n, ¬ Numeral.IsInt64 w n) → (∀ x, ¬ Numeral.Denotes w x) → Means w (.str w)

def IsInt (v : J) : Prop := ∃ n, v = .int n

/-- The node id a list of members declares: the last reserved member, 0 if there is none. -/
def nodeId (ms : List (Bytes × J)) : Int :=
  match lastValue ms jsonPointerKey with
  | some (.int n) => n
  | _ => 0

/-- The entries a list of members makes: the last value of every key, without the reserved one. -/
def Entries (ms : List (Bytes × J)) (m : SMap J) : Prop :=
  SMap.Sorted m ∧ ∀ k, smGet m k = if k = jsonPointerKey then none else lastValue ms k

mutual
/-- `Value t v ids r`: `t` starts with a text of `v`, followed by `r`; `ids` are the (positive) node ids declared in it,
in the order in which their dictionaries end. -/
inductive Value : Bytes → J → List Int → Bytes → Prop where
  | text {q : UInt8} {t s r : Bytes} : Quote q → Quoted q t s r → Value (q :: t) (.str s) [] r
  | ref {d r : Bytes} {n : Int} : Word d → Numeral.IsInt64 d n → Ends r → Value (60 :: (d ++ 62 :: r)) (.ptr n) [] r
  | word {w r : Bytes} {j : J} : w ≠ [] → Word w → Ends r → (∀ c, w.head? = some c → ¬ Quote c ∧ c ≠ 91 ∧ c ≠ 123) →
      (∀ d, w ≠ 60 :: (d ++ [62])) → Means w j → Value (w ++ r) j [] r
  | array {t r : Bytes} {vs : List J} {ids : List Int} : Elements t vs ids r → Value (91 :: t) (.arr vs) ids r
  | dict {t r : Bytes} {ms : List (Bytes × J)} {m : SMap J} {ids : List Int} : Members t ms ids r → Entries ms m →
      Value (123 :: t) (.dict (nodeId ms) m) (ids ++ if 0 < nodeId ms then [nodeId ms] else []) r
/-- The text behind `[`. -/
inductive Elements : Bytes → List J → List Int → Bytes → Prop where
  | eof : Elements [] [] [] []
  | close {w r : Bytes} : Blanks w → Elements (w ++ 93 :: r) [] [] r
  | last {w u w' r : Bytes} {v : J} {ids : List Int} : Blanks w → Value u v ids (w' ++ 93 :: r) → Blanks w' →
      Elements (w ++ u) [v] ids r
  | more {w u w' t r : Bytes} {v : J} {vs : List J} {ids ids' : List Int} : Blanks w → Value u v ids (w' ++ 44 :: t) → Blanks w' →
      Elements t vs ids' r → Elements (w ++ u) (v :: vs) (ids ++ ids') r
/-- The text behind `{`. -/
inductive Members : Bytes → List (Bytes × J) → List Int → Bytes → Prop where
  | eof : Members [] [] [] []
  | close {w r : Bytes} : Blanks w → Members (w ++ 125 :: r) [] [] r
  | last {w x w1 w2 u w' r k : Bytes} {v : J} {ids : List Int} : Blanks w → Key x k (w1 ++ 58 :: (w2 ++ u)) → Blanks w1 → Blanks w2 →
      Value u v ids (w' ++ 125 :: r) → Blanks w' → (k = jsonPointerKey → IsInt v) → Members (w ++ x) [(k, v)] ids r
  | more {w x w1 w2 u w' t r k : Bytes} {v : J} {ms : List (Bytes × J)} {ids ids' : List Int} : Blanks w →
      Key x k (w1 ++ 58 :: (w2 ++ u)) → Blanks w1 → Blanks w2 →
      Value u v ids (w' ++ 44 :: t) → Blanks w' → (k = jsonPointerKey → IsInt v) →
      Members t ms ids' r → Members (w ++ x) ((k, v) :: ms) (ids ++ ids') r
end

/-! ### The positions a reading from the left arrives at -/

/-- What is expected at a position: a value, the elements behind `[` or a comma, the members behind `{` or a comma. -/
inductive Pos where
  | value | elements | members

/-- `Reach t p ids u`: reading `t` from the left arrives at its suffix `u`, where `p` is expected; `ids` are the node ids
declared by the dictionaries that ended before. -/
inductive Reach (t : Bytes) : Pos → List Int → Bytes → Prop where
  | start {w u : Bytes} : t = w ++ u → Blanks w → Starts u → Reach t .value [] u
  | array {ids : List Int} {u : Bytes} : Reach t .value ids (91 :: u) → Reach t .elements ids u
  | dict {ids : List Int} {u : Bytes} : Reach t .value ids (123 :: u) → Reach t .members ids u
  | elem {ids : List Int} {w u : Bytes} : Reach t .elements ids (w ++ u) → Blanks w → Starts u → u.head? ≠ some 93 →
      Reach t .value ids u
  | elemNext {ids ids' : List Int} {w u w' x : Bytes} {v : J} : Reach t .elements ids (w ++ u) → Blanks w →
      Value u v ids' (w' ++ 44 :: x) → Blanks w' → Reach t .elements (ids ++ ids') x
  | mem {ids : List Int} {w x k w1 w2 u : Bytes} : Reach t .members ids (w ++ x) → Blanks w → Key x k (w1 ++ 58 :: (w2 ++ u)) →
      Blanks w1 → Blanks w2 → Starts u → Reach t .value ids u
  | memNext {ids ids' : List Int} {w x k w1 w2 u w' y : Bytes} {v : J} : Reach t .members ids (w ++ x) → Blanks w →
      Key x k (w1 ++ 58 :: (w2 ++ u)) → Blanks w1 → Blanks w2 → Value u v ids' (w' ++ 44 :: y) → Blanks w' →
      (k = jsonPointerKey → IsInt v) → Reach t .members (ids ++ ids') y

/-- A value is expected, and `,` `:` `]` or `}` is found. -/
def NoValue (t : Bytes) : Prop := ∃ ids c r, Reach t .value ids (c :: r) ∧ ids.Nodup ∧ StopByte c

/-- A reserved member has a value that is not an integer. -/
def BadNodeId (t : Bytes) : Prop :=
  ∃ ids ids' w x w1 w2 u v r, Reach t .members ids (w ++ x) ∧ Blanks w ∧ Key x jsonPointerKey (w1 ++ 58 :: (w2 ++ u)) ∧
    Blanks w1 ∧ Blanks w2 ∧ Value u v ids' r ∧ (ids ++ ids').Nodup ∧ ¬ IsInt v

/-- A node id is declared twice. -/
def SameNodeId (t : Bytes) : Prop :=
  ∃ ids ids' u v r, Reach t .value ids u ∧ Value u v ids' r ∧ ids.Nodup ∧ ¬ (ids ++ ids').Nodup

end Jsonutils.Lenient
