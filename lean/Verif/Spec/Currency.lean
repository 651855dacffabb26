import Verif.Prelude

/-! Amounts with grouped digits, stated without reference to the code. -/

namespace Jsonutils

/-- Only ASCII digits. -/
def Digits (s : Bytes) : Prop := ∀ c ∈ s, isDigit c = true

/-- Optional sign. -/
def SignText (s : Bytes) : Prop := s = [] ∨ s = [43] ∨ s = [45]

/-- Groups written with the separator after every group but the last. -/
def grouped (sep : UInt8) (gs : List Bytes) (last : Bytes) : Bytes := gs.flatMap (fun g => g ++ [sep]) ++ last

/-- Optional fraction: the point and any number of digits. -/
def FracText (pt : UInt8) (s : Bytes) : Prop := s = [] ∨ ∃ ds, s = pt :: ds ∧ Digits ds

/-- `[+-]?(\d{0,3}|((\d{1,3}<sep>)+\d{3}))(<pt>\d*)?`: the amounts recognised as currency texts.
US: `sep` is a comma and `pt` a dot; EU: the other way round. -/
def CurrencyText (sep pt : UInt8) (s : Bytes) : Prop :=
  ∃ sign gs last frac, s = sign ++ grouped sep gs last ++ frac ∧ SignText sign ∧ FracText pt frac ∧ Digits last ∧
    ((gs = [] ∧ last.length ≤ 3) ∨ (gs ≠ [] ∧ last.length = 3 ∧ ∀ g ∈ gs, Digits g ∧ 1 ≤ g.length ∧ g.length ≤ 3))

end Jsonutils
