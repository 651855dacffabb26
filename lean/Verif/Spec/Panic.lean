import Verif.Model.Lex

/-! Shapes of texts on which `Parse` can panic. -/

namespace Jsonutils

/-- A byte at which no value can start although a token ends there: `,` `:` `]` `}`. -/
def StopByte (c : UInt8) : Prop := c = 44 ∨ c = 58 ∨ c = 93 ∨ c = 125

/-- An opener of a value position: `,` `:` `[`. -/
def Opener (d : UInt8) : Prop := d = 44 ∨ d = 58 ∨ d = 91

/-- Somewhere in the text an opener is followed, up to whitespace, by a stop byte: as in `{"a":}` or `[1,,2]`. -/
def EmptyValueInside (t : Bytes) : Prop :=
  ∃ a d w c post, t = a ++ d :: (w ++ c :: post) ∧ Opener d ∧ (∀ x ∈ w, isWS x = true) ∧ StopByte c

/-- The text starts, up to whitespace, with a stop byte. -/
def EmptyValueFirst (t : Bytes) : Prop :=
  ∃ w c post, t = w ++ c :: post ∧ (∀ x ∈ w, isWS x = true) ∧ StopByte c

/-- At some position a (bare or quoted) token spells the reserved key. -/
def SpellsReserved (t : Bytes) : Prop := ∃ u q r, u <:+ t ∧ parseString u = .ok (jsonPointerKey, q) r

end Jsonutils
