import Lean

/-!
# Shared vocabulary: bytes, byte order, small helpers

Go `string` and `[]byte` are both modelled as lists of bytes.  Go compares strings bytewise
(`<` on `string`), which is `blt` here.
-/

namespace Jsonutils

/-- A Go `string` / `[]byte`. -/
abbrev Bytes := List UInt8

open Lean in
/-- `b!"text"` is the list of the UTF-8 bytes of a string literal, expanded at elaboration time. -/
macro:max "b!" s:str : term => do
  let elems ← s.getString.toUTF8.toList.mapM fun c => `(($(quote c.toNat) : UInt8))
  let arr := elems.toArray
  `(([ $arr,* ] : Bytes))

/-- Go's `<` on strings: bytewise lexicographic order. -/
def blt : Bytes → Bytes → Bool
  | _, [] => false
  | [], _ :: _ => true
  | a :: as, b :: bs => a < b || (a == b && blt as bs)

/-- ASCII digit test `'0' <= c && c <= '9'`. -/
def isDigit (c : UInt8) : Bool := 48 ≤ c && c ≤ 57

/-- ASCII lower-casing of one byte. -/
def lowerByte (c : UInt8) : UInt8 := if 65 ≤ c && c ≤ 90 then c + 32 else c

/-- ASCII lower-casing. -/
def lowerBytes (s : Bytes) : Bytes := s.map lowerByte

/-- Readable rendering, used only in comments/evaluation. -/
def showBytes (s : Bytes) : String := String.fromUTF8! ⟨s.toArray⟩

end Jsonutils
