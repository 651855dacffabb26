import Verif.Model.Currency
import Verif.Spec.Currency

namespace Jsonutils

theorem removeByte_append (c : UInt8) (a b : Bytes) : removeByte c (a ++ b) = removeByte c a ++ removeByte c b := by
  simp [removeByte]

theorem removeByte_id {c : UInt8} {s : Bytes} (h : c ∉ s) : removeByte c s = s := by
  unfold removeByte
  rw [List.filter_eq_self]
  intro d hd
  simp only [bne_iff_ne, ne_eq]
  rintro rfl
  exact h hd

theorem digits_not_mem {s : Bytes} (h : Digits s) {c : UInt8} (hc : isDigit c = false) : c ∉ s := by
  intro hm
  rw [h c hm] at hc; cases hc

theorem sign_not_mem {s : Bytes} (h : SignText s) {c : UInt8} (h1 : c ≠ 43) (h2 : c ≠ 45) : c ∉ s := by
  rcases h with rfl | rfl | rfl <;> simp [h1, h2]

theorem removeByte_grouped {sep : UInt8} (hs : isDigit sep = false) {gs : List Bytes} {last : Bytes} (hg : ∀ g ∈ gs, Digits g)
    (hl : Digits last) : removeByte sep (grouped sep gs last) = gs.flatten ++ last := by
  unfold grouped
  rw [removeByte_append, removeByte_id (digits_not_mem hl hs)]
  congr 1
  induction gs with
  | nil => rfl
  | cons g gs ih =>
    simp only [List.flatMap_cons, List.flatten_cons]
    rw [removeByte_append, removeByte_append, removeByte_id (digits_not_mem (hg g (by simp)) hs), ih fun x hx => hg x (by simp [hx])]
    simp [removeByte]

theorem grouped_not_mem {sep c : UInt8} (hcs : c ≠ sep) (hc : isDigit c = false) {gs : List Bytes} {last : Bytes} (hg : ∀ g ∈ gs, Digits g)
    (hl : Digits last) : c ∉ grouped sep gs last := by
  unfold grouped
  simp only [List.mem_append, List.mem_flatMap, not_or, not_exists, not_and]
  refine ⟨fun g hgm => ⟨digits_not_mem (hg g hgm) hc, by simpa using hcs⟩, digits_not_mem hl hc⟩

theorem groups_digits {gs : List Bytes} {last : Bytes} (hor : (gs = [] ∧ last.length ≤ 3) ∨ (gs ≠ [] ∧ last.length = 3 ∧ ∀ g ∈ gs, Digits g ∧ 1 ≤ g.length ∧ g.length ≤ 3)) :
    ∀ g ∈ gs, Digits g := by
  rcases hor with ⟨rfl, _⟩ | ⟨_, _, h⟩
  · simp
  · exact fun g hg => (h g hg).1

theorem cutAt_append (c : UInt8) (a b : Bytes) (h : c ∉ a) : cutAt c (a ++ c :: b) = (a, some b) := by
  induction a with
  | nil => simp [cutAt]
  | cons d a ih =>
    simp only [List.mem_cons, not_or] at h
    rw [List.cons_append, cutAt, if_neg (fun e => h.1 e.symm), ih h.2]

theorem cutAt_none (c : UInt8) (a : Bytes) (h : c ∉ a) : cutAt c a = (a, none) := by
  induction a with
  | nil => rfl
  | cons d a ih =>
    simp only [List.mem_cons, not_or] at h
    rw [cutAt, if_neg (fun e => h.1 e.symm), ih h.2]

theorem normalizeUS_text {sign last frac : Bytes} {gs : List Bytes} (hs : SignText sign) (hf : FracText 46 frac) (hl : Digits last)
    (hg : ∀ g ∈ gs, Digits g) : normalizeUS (sign ++ grouped 44 gs last ++ frac) = sign ++ (gs.flatten ++ last) ++ frac := by
  unfold normalizeUS
  rw [removeByte_append, removeByte_append, removeByte_id (sign_not_mem hs (by decide) (by decide)),
    removeByte_grouped (by decide) hg hl]
  congr 1
  apply removeByte_id
  rcases hf with rfl | ⟨ds, rfl, hd⟩
  · simp
  · simp only [List.mem_cons, not_or]
    exact ⟨by decide, digits_not_mem hd (by decide)⟩

theorem normalizeEU_text {sign last : Bytes} {gs : List Bytes} (hs : SignText sign) (hl : Digits last)
    (hg : ∀ g ∈ gs, Digits g) :
    normalizeEU (sign ++ grouped 46 gs last) = sign ++ (gs.flatten ++ last) ∧
    ∀ ds, normalizeEU (sign ++ grouped 46 gs last ++ 44 :: ds) = sign ++ (gs.flatten ++ last) ++ 46 :: ds := by
  have hn : (44 : UInt8) ∉ sign ++ grouped 46 gs last := by
    simp only [List.mem_append, not_or]
    exact ⟨sign_not_mem hs (by decide) (by decide), grouped_not_mem (by decide) (by decide) hg hl⟩
  have hr : removeByte 46 (sign ++ grouped 46 gs last) = sign ++ (gs.flatten ++ last) := by
    rw [removeByte_append, removeByte_id (sign_not_mem hs (by decide) (by decide)), removeByte_grouped (by decide) hg hl]
  refine ⟨?_, fun ds => ?_⟩
  · unfold normalizeEU
    rw [cutAt_none _ _ hn]
    exact hr
  · unfold normalizeEU
    rw [cutAt_append _ _ _ hn]
    simp only
    rw [hr, List.append_assoc]
    rfl

/-- What normalisation of a recognised text looks like. -/
def PlainForm (s : Bytes) : Prop := ∃ sign ds frac, s = sign ++ ds ++ frac ∧ SignText sign ∧ Digits ds ∧ FracText 46 frac

theorem plainForm_of {sign last frac : Bytes} {gs : List Bytes} (hs : SignText sign) (hl : Digits last) (hg : ∀ g ∈ gs, Digits g)
    (hf : FracText 46 frac) : PlainForm (sign ++ (gs.flatten ++ last) ++ frac) := by
  refine ⟨sign, gs.flatten ++ last, frac, rfl, hs, ?_, hf⟩
  intro c hc
  simp only [List.mem_append, List.mem_flatten] at hc
  rcases hc with ⟨g, hg', hc⟩ | hc
  · exact hg g hg' c hc
  · exact hl c hc

theorem count_digits {s : Bytes} (h : Digits s) : s.count 46 = 0 :=
  List.count_eq_zero.2 (digits_not_mem h (by decide))

theorem plainForm_dots {s : Bytes} (h : PlainForm s) : s.count 46 ≤ 1 ∧ (44 : UInt8) ∉ s := by
  obtain ⟨sign, ds, frac, rfl, hs, hd, hf⟩ := h
  constructor
  · rw [List.count_append, List.count_append, count_digits hd, List.count_eq_zero.2 (sign_not_mem hs (c := 46) (by decide) (by decide))]
    rcases hf with rfl | ⟨ds', rfl, hd'⟩
    · simp
    · simp [count_digits hd']
  · simp only [List.mem_append, not_or]
    refine ⟨⟨sign_not_mem hs (by decide) (by decide), digits_not_mem hd (by decide)⟩, ?_⟩
    rcases hf with rfl | ⟨ds', rfl, hd'⟩
    · simp
    · simp only [List.mem_cons, not_or]; exact ⟨by decide, digits_not_mem hd' (by decide)⟩

/-- A text of plain form is left alone. -/
theorem normalize_plain {us eu : Bytes → Bool} (hus : ∀ s, us s = true ↔ CurrencyText 44 46 s) (heu : ∀ s, eu s = true ↔ CurrencyText 46 44 s)
    {s : Bytes} (h : PlainForm s) : normalizeCurrency us eu s = s := by
  obtain ⟨hdots, hcomma⟩ := plainForm_dots h
  unfold normalizeCurrency
  split
  · exact removeByte_id hcomma
  · rename_i hnus
    split
    · rename_i heus
      obtain ⟨sign, gs, last, frac, rfl, hs, hf, hl, hor⟩ := (heu s).1 heus
      have hfr : frac = [] := by
        rcases hf with rfl | ⟨ds, rfl, _⟩
        · rfl
        · exact absurd (by simp : (44 : UInt8) ∈ _) hcomma
      subst hfr
      rw [List.append_nil] at *
      rw [(normalizeEU_text hs hl (groups_digits hor)).1]
      rcases hor with ⟨rfl, _⟩ | ⟨hne, hlen, hg⟩
      · simp [grouped]
      · -- one group separated by one dot: also a US text
        exfalso
        apply hnus
        cases gs with
        | nil => exact absurd rfl hne
        | cons g gs =>
          cases gs with
          | cons g' gs' =>
            simp [grouped, List.count_append] at hdots
            omega
          | nil =>
            rw [hus]
            refine ⟨sign, [], g, 46 :: last, ?_, hs, Or.inr ⟨last, rfl, hl⟩, (hg g (by simp)).1, Or.inl ⟨rfl, (hg g (by simp)).2.2⟩⟩
            simp [grouped]
    · rfl

theorem normalize_cases {us eu : Bytes → Bool} (hus : ∀ s, us s = true ↔ CurrencyText 44 46 s) (heu : ∀ s, eu s = true ↔ CurrencyText 46 44 s)
    (s : Bytes) : normalizeCurrency us eu s = s ∨ PlainForm (normalizeCurrency us eu s) := by
  unfold normalizeCurrency
  split
  · rename_i h
    obtain ⟨sign, gs, last, frac, rfl, hs, hf, hl, hor⟩ := (hus s).1 h
    right
    rw [normalizeUS_text hs hf hl (groups_digits hor)]
    exact plainForm_of hs hl (groups_digits hor) hf
  · split
    · rename_i h
      obtain ⟨sign, gs, last, frac, rfl, hs, hf, hl, hor⟩ := (heu s).1 h
      right
      have := normalizeEU_text hs hl (groups_digits hor)
      rcases hf with rfl | ⟨ds, rfl, hd⟩
      · rw [List.append_nil, this.1]
        have := plainForm_of hs hl (groups_digits hor) (Or.inl rfl)
        simpa using this
      · rw [this.2]
        exact plainForm_of hs hl (groups_digits hor) (Or.inr ⟨ds, rfl, hd⟩)
    · exact Or.inl rfl

end Jsonutils
