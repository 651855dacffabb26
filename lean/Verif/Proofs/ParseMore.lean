import Verif.Proofs.RfcPrint
import Verif.Proofs.Streams
import Verif.Proofs.ParseWF
import Verif.Proofs.Panic
import Verif.Spec.Parse

/-! Facts behind C04, C06, C08–C11. -/

set_option linter.unusedSimpArgs false

namespace Jsonutils
open Rfc

/-! ### Last value per key -/

theorem sorted_foldl_smAdd {α} (ps : List (Bytes × α)) (m : SMap α) (h : SMap.Sorted m) :
    SMap.Sorted (ps.foldl (fun m p => smAdd m p.1 p.2) m) := by
  induction ps generalizing m with
  | nil => exact h
  | cons p ps ih => exact ih _ (sorted_smAdd h _ _)

theorem smGet_foldl_smAdd {α} (ps : List (Bytes × α)) (m : SMap α) (h : SMap.Sorted m) (k : Bytes) :
    smGet (ps.foldl (fun m p => smAdd m p.1 p.2) m) k = (lastValue ps k).or (smGet m k) := by
  induction ps generalizing m with
  | nil => simp [lastValue]
  | cons p ps ih =>
    rw [List.foldl_cons, ih _ (sorted_smAdd h _ _), smGet_smAdd _ h]
    have e : lastValue (p :: ps) k = (lastValue ps k).or (if p.1 = k then some p.2 else none) := by
      unfold lastValue
      rw [List.reverse_cons, List.find?_append]
      cases hf : List.find? (fun p => decide (p.1 = k)) ps.reverse with
      | some q => simp
      | none =>
        simp only [Option.none_or, Option.map_none, List.find?_cons, List.find?_nil]
        by_cases hk : p.1 = k <;> simp [hk]
    rw [e]
    by_cases hk : k = p.1
    · subst hk; simp [Option.or_assoc]
    · have : ¬ p.1 = k := fun h => hk h.symm
      simp [hk, this, Option.or_assoc]

theorem foldl_smAdd_canonical {α} (ps qs : List (Bytes × α)) (h : ∀ k, lastValue ps k = lastValue qs k) :
    ps.foldl (fun m p => smAdd m p.1 p.2) [] = qs.foldl (fun m p => smAdd m p.1 p.2) [] := by
  apply sorted_ext (sorted_foldl_smAdd _ _ sorted_nil) (sorted_foldl_smAdd _ _ sorted_nil)
  intro k
  rw [smGet_foldl_smAdd _ _ sorted_nil, smGet_foldl_smAdd _ _ sorted_nil, h]

/-! ### Prefixes are not read -/

theorem parseStream_shift (p t u : Bytes) (h : skipEmpty ((p ++ t).drop u.length) = skipEmpty t)
    (hu : u.length ≤ p.length) : parseStream (p ++ t) u.length = (parseStream t 0).shift p.length := by
  unfold parseStream
  rw [h, List.drop_zero]
  cases hs : skipEmpty t with
  | nil => simp [SR.shift]; omega
  | cons c w =>
    simp only
    have hst := parseVal_strict {} (c :: w)
    have hle := (skipEmpty_suffix t).length_le
    rw [hs] at hle
    cases hp : parseVal (parseFuel (c :: w)) {} (c :: w) with
    | ok a r =>
      obtain ⟨v', s'⟩ := a
      rw [hp] at hst
      have h2 := hst.1.length_le
      simp only [SR.shift, List.length_append, SR.ok.injEq, true_and]
      omega
    | err e r =>
      rw [hp] at hst
      have h2 := List.IsSuffix.length_le hst
      simp only [SR.shift, List.length_append, SR.err.injEq, true_and]
      omega
    | panic p => rfl
    | fuel => rfl

/-! ### Strings -/

theorem parseQuote_item' (i : StrItem) (t buf : Bytes) (ht : t ≠ []) :
    parseQuote 34 (i.text ++ t) buf = parseQuote 34 t (buf ++ i.decoded) := by
  cases i with
  | raw c h1 h2 h3 => exact parseQuote_item (.raw c h1 h2 h3) t buf ht trivial
  | esc e => exact parseQuote_item (.esc e) t buf ht trivial
  | unicode a b c d =>
    simp only [StrItem.text, List.cons_append, List.nil_append, StrItem.decoded]
    rw [parseQuote_unicode _ _ _ _ _ _ _ _ ht (hexstr2rune_bytes a b c d)]
    have hlt := unitOf_lt a b c d
    by_cases hs : 0xD800 ≤ unitOf a b c d ∧ unitOf a b c d ≤ 0xDFFF
    · rw [if_pos hs]
      have : encodeRune (unitOf a b c d) = [0xEF, 0xBF, 0xBD] := by
        unfold encodeRune
        rw [if_neg (by omega), if_neg (by omega), if_pos hs]
      rw [this]
    · rw [if_neg hs, encodeRune_utf8 hlt hs]

theorem parseQuote_items' (s : Str) (t buf : Bytes) (ht : t ≠ []) :
    parseQuote 34 (strBody s ++ t) buf = parseQuote 34 t (buf ++ s.flatMap StrItem.decoded) := by
  induction s generalizing buf with
  | nil => simp [strBody]
  | cons i s ih =>
    have hne : strBody s ++ t ≠ [] := by simp [ht]
    have e : strBody (i :: s) = i.text ++ strBody s := by simp [strBody]
    rw [e, List.append_assoc, parseQuote_item' i _ buf hne, ih]
    simp

theorem parseStream_strText (s : Str) (rest : Bytes) :
    parseStream (strText s ++ rest) 0 = .ok (.str (s.flatMap StrItem.decoded)) (strText s).length := by
  have h1 : parseVal 1 {} (strText s ++ rest) = .ok (.str (s.flatMap StrItem.decoded), {}) rest := by
    have h1 : parseVal 1 {} (strText s ++ rest) = parseJSONValue {} (strText s ++ rest) := by
      unfold strText
      rw [parseVal.eq_def]; simp
    rw [h1]
    unfold parseJSONValue strText
    simp only [List.cons_append, List.append_assoc, parseString, true_or, if_true]
    rw [parseQuote_items' s _ [] (by simp)]
    simp [parseQuote_end]
  rw [parseStream_of (t := strText s ++ rest) (by
    rw [List.drop_zero]; exact skipEmpty_starts ((strText_starts s).append _)) h1]
  simp

theorem meaning_escape (c : UInt8) : ∃ i : StrItem, escapeJsonChar c = i.text ∧ i.meaning = [c] ∧ i.NoSurrogate := by
  have key : ∀ n : Fin 32, n.val ≠ 8 → n.val ≠ 12 → n.val ≠ 10 → n.val ≠ 13 → n.val ≠ 9 →
      escapeJsonChar (UInt8.ofNat n.val) = StrItem.text (.unicode ⟨0, false⟩ ⟨0, false⟩
        ⟨⟨n.val / 16, by omega⟩, false⟩ ⟨⟨n.val % 16, by omega⟩, false⟩) ∧
      StrItem.meaning (.unicode ⟨0, false⟩ ⟨0, false⟩
        ⟨⟨n.val / 16, by omega⟩, false⟩ ⟨⟨n.val % 16, by omega⟩, false⟩) = [UInt8.ofNat n.val] ∧
      ¬ (0xD800 ≤ unitOf ⟨0, false⟩ ⟨0, false⟩
        ⟨⟨n.val / 16, by omega⟩, false⟩ ⟨⟨n.val % 16, by omega⟩, false⟩) := by
    decide +kernel
  by_cases h1 : c = 34
  · exact ⟨.esc .quote, by subst h1; decide, by subst h1; decide, trivial⟩
  by_cases h2 : c = 92
  · exact ⟨.esc .backslash, by subst h2; decide, by subst h2; decide, trivial⟩
  by_cases h3 : c = 8
  · exact ⟨.esc .backspace, by subst h3; decide, by subst h3; decide, trivial⟩
  by_cases h4 : c = 12
  · exact ⟨.esc .formfeed, by subst h4; decide, by subst h4; decide, trivial⟩
  by_cases h5 : c = 10
  · exact ⟨.esc .lf, by subst h5; decide, by subst h5; decide, trivial⟩
  by_cases h6 : c = 13
  · exact ⟨.esc .cr, by subst h6; decide, by subst h6; decide, trivial⟩
  by_cases h7 : c = 9
  · exact ⟨.esc .tab, by subst h7; decide, by subst h7; decide, trivial⟩
  by_cases h8 : c < 32
  · have h9 : c.toNat < 32 := by rw [UInt8.lt_iff_toNat_lt] at h8; exact h8
    have ne : ∀ d : UInt8, c ≠ d → c.toNat ≠ d.toNat := fun d h h' => h (UInt8.toNat.inj h')
    have := key ⟨c.toNat, h9⟩ (ne 8 h3) (ne 12 h4) (ne 10 h5) (ne 13 h6) (ne 9 h7)
    have hc : UInt8.ofNat c.toNat = c := by simp
    simp only [hc] at this
    exact ⟨_, this.1, this.2.1, fun hs => this.2.2 hs.1⟩
  · have h9 : (0x20 : UInt8) ≤ c := by
      rw [UInt8.lt_iff_toNat_lt] at h8
      rw [UInt8.le_iff_toNat_le]
      omega
    refine ⟨.raw c h9 h1 h2, ?_, rfl, trivial⟩
    unfold escapeJsonChar
    simp [h1, h2, h3, h4, h5, h6, h7, h8, StrItem.text]

/-- A quoted string is an RFC string that means the original. -/
theorem quote_meaning (s : Bytes) : ∃ t : Str, quoteString s = strText t ∧ strMeaning t = s ∧ StrOk t := by
  have : ∃ t : Str, s.flatMap escapeJsonChar = strBody t ∧ strMeaning t = s ∧ StrOk t := by
    induction s with
    | nil => exact ⟨[], rfl, rfl, fun _ h => by simp at h⟩
    | cons c s ih =>
      obtain ⟨t, h1, h2, h3⟩ := ih
      obtain ⟨i, h4, h5, h6⟩ := meaning_escape c
      refine ⟨i :: t, by simp [strBody, h1, h4], ?_, ?_⟩
      · simp only [strMeaning, List.flatMap_cons, h5] at h2 ⊢
        rw [h2]; rfl
      · intro j hj
        rcases List.mem_cons.1 hj with rfl | hj
        · exact h6
        · exact h3 j hj
  obtain ⟨t, h1, h2, h3⟩ := this
  exact ⟨t, by simp [quoteString, strText, h1], h2, h3⟩

theorem strText_no_control (t : Str) : ∀ c ∈ strText t, (0x20 : UInt8) ≤ c := by
  have hx : ∀ h : HexDigit, (0x20 : UInt8) ≤ h.byte := by
    rintro ⟨v, u⟩; revert v u; decide
  have hi : ∀ i : StrItem, ∀ c ∈ i.text, (0x20 : UInt8) ≤ c := by
    intro i c hc
    cases i with
    | raw d h1 h2 h3 => simp [StrItem.text] at hc; subst hc; exact h1
    | esc e =>
      simp [StrItem.text] at hc
      rcases hc with rfl | rfl
      · decide
      · cases e <;> decide
    | unicode a b d e =>
      simp [StrItem.text] at hc
      rcases hc with rfl | rfl | rfl | rfl | rfl | rfl
      · decide
      · decide
      all_goals apply hx
  intro c hc
  unfold strText at hc
  simp only [List.mem_cons, List.mem_append, List.not_mem_nil, or_false] at hc
  rcases hc with rfl | hc | rfl
  · decide
  · obtain ⟨i, _, h⟩ := List.mem_flatMap.1 hc
    exact hi i c h
  · decide

/-! ### The reserved key without escapes -/

theorem parseQuote_infix (q : UInt8) (s buf k r : Bytes) (hb : (92 : UInt8) ∉ s) (h : parseQuote q s buf = .ok k r) :
    ∃ u v, k = buf ++ u ∧ s = u ++ v := by
  induction s generalizing buf with
  | nil =>
    rw [parseQuote.eq_def] at h
    simp at h
    exact ⟨[], [], by simp [h.1], rfl⟩
  | cons c s ih =>
    have hc : c ≠ 92 := by rintro rfl; simp at hb
    rw [parseQuote.eq_def] at h
    simp only [hc, if_false] at h
    split at h
    · simp at h
      exact ⟨[], c :: s, by simp [h.1], rfl⟩
    · obtain ⟨u, v, h1, h2⟩ := ih (buf ++ [c]) (by simp at hb; exact hb.2) h
      exact ⟨c :: u, v, by simp [h1], by simp [h2]⟩

/-- Without a backslash the reserved key can only be spelled literally. -/
theorem spells_literal {t : Bytes} (hb : (92 : UInt8) ∉ t) (h : SpellsReserved t) : jsonPointerKey <:+: t := by
  obtain ⟨u, q, r, ⟨p, rfl⟩, h⟩ := h
  have hbu : (92 : UInt8) ∉ u := fun h => hb (by simp [h])
  cases q with
  | false =>
    have := (parseString_token _ _ _ h).1
    exact ⟨p, r, by rw [this]; simp⟩
  | true =>
    cases u with
    | nil => simp [parseString] at h
    | cons c cs =>
      simp only [parseString] at h
      split at h
      · have hbc : (92 : UInt8) ∉ cs := fun h => hbu (by simp [h])
        cases h' : parseQuote c cs [] with
        | ok a r' =>
          rw [h'] at h
          simp at h
          obtain ⟨x, y, h1, h2⟩ := parseQuote_infix c cs [] a r' hbc h'
          rw [List.nil_append] at h1
          refine ⟨p ++ [c], y, ?_⟩
          rw [h2, ← h1, h.1]; simp
        | err e r' => rw [h'] at h; simp at h
        | panic e => rw [h'] at h; simp at h
        | fuel => rw [h'] at h; simp at h
      · simp at h

end Jsonutils
