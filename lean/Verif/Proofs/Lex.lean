import Verif.Model.Parse

/-! Lemmas about the lexical level. -/

set_option linter.unusedSimpArgs false

namespace Jsonutils

theorem parseQuote_nil (q : UInt8) (buf : Bytes) : parseQuote q [] buf = .ok buf [] := by
  rw [parseQuote.eq_def]

theorem parseQuote_plain {q c : UInt8} (cs buf : Bytes) (h1 : c ≠ 92) (h2 : c ≠ q) :
    parseQuote q (c :: cs) buf = parseQuote q cs (buf ++ [c]) := by
  rw [parseQuote.eq_def]; simp [h1, h2]

theorem parseQuote_end {q : UInt8} (cs buf : Bytes) (h1 : q ≠ 92) :
    parseQuote q (q :: cs) buf = .ok buf cs := by
  rw [parseQuote.eq_def]; simp [h1]

theorem parseQuote_simple (q d : UInt8) (ds buf : Bytes) (h1 : d ≠ 117) (h2 : d ≠ 120) :
    parseQuote q (92 :: d :: ds) buf = parseQuote q ds (buf ++ [simpleEscape d]) := by
  rw [parseQuote.eq_def]; simp [h1, h2]

theorem parseQuote_unicode (q h1 h2 h3 h4 : UInt8) (t buf : Bytes) (n : Nat) (ht : t ≠ [])
    (hn : hexstr2rune h1 h2 h3 h4 = some n) :
    parseQuote q (92 :: 117 :: h1 :: h2 :: h3 :: h4 :: t) buf = parseQuote q t (buf ++ encodeRune n) := by
  rw [parseQuote.eq_def]; simp [hn, ht]

theorem hexstr2rune_low : ∀ n : Fin 32,
    hexstr2rune 48 48 (hexLower (n.val / 16)) (hexLower (n.val % 16)) = some n.val := by decide

theorem encodeRune_low (n : Nat) (h : n < 32) : encodeRune n = [UInt8.ofNat n] := by
  unfold encodeRune; simp; intro; omega

/-- One escaped byte is read back as that byte. -/
theorem parseQuote_escape (c : UInt8) (t buf : Bytes) (ht : t ≠ []) :
    parseQuote 34 (escapeJsonChar c ++ t) buf = parseQuote 34 t (buf ++ [c]) := by
  unfold escapeJsonChar
  split
  · subst_vars; exact parseQuote_simple _ _ _ _ (by decide) (by decide)
  split
  · subst_vars; exact parseQuote_simple _ _ _ _ (by decide) (by decide)
  split
  · subst_vars; exact parseQuote_simple _ _ _ _ (by decide) (by decide)
  split
  · subst_vars; exact parseQuote_simple _ _ _ _ (by decide) (by decide)
  split
  · subst_vars; exact parseQuote_simple _ _ _ _ (by decide) (by decide)
  split
  · subst_vars; exact parseQuote_simple _ _ _ _ (by decide) (by decide)
  split
  · subst_vars; exact parseQuote_simple _ _ _ _ (by decide) (by decide)
  split
  · rename_i h
    have hlt : c.toNat < 32 := by simpa [UInt8.lt_iff_toNat_lt] using h
    have h1 := hexstr2rune_low ⟨c.toNat, hlt⟩
    simp only at h1
    have h2 := encodeRune_low c.toNat hlt
    simp only [List.cons_append, List.nil_append]
    rw [parseQuote_unicode _ _ _ _ _ _ _ _ ht h1, h2]; simp
  · rename_i h1 h2 _ _ _ _ _ _
    exact parseQuote_plain _ _ h2 h1

theorem parseQuote_body (s t buf : Bytes) (ht : t ≠ []) :
    parseQuote 34 (s.flatMap escapeJsonChar ++ t) buf = parseQuote 34 t (buf ++ s) := by
  induction s generalizing buf with
  | nil => simp
  | cons c s ih =>
    have hne : s.flatMap escapeJsonChar ++ t ≠ [] := by simp [ht]
    simp only [List.flatMap_cons, List.append_assoc]
    rw [parseQuote_escape c _ buf hne, ih]
    simp

theorem parseString_quote (s rest : Bytes) :
    parseString (quoteString s ++ rest) = .ok (s, true) rest := by
  unfold quoteString parseString
  simp only [List.cons_append, List.append_assoc]
  rw [parseQuote_body s _ [] (by simp)]
  simp [parseQuote_end]

theorem parseJSONValue_quote (st : Sess) (s rest : Bytes) :
    parseJSONValue st (quoteString s ++ rest) = .ok (.str s, st) rest := by
  unfold parseJSONValue; rw [parseString_quote]

/-! ### Remaining input -/

theorem skipEmpty_le (s : Bytes) : (skipEmpty s).length ≤ s.length := by
  induction s with
  | nil => simp [skipEmpty]
  | cons c cs ih => unfold skipEmpty; split <;> simp <;> omega

theorem skipEmpty_suffix (s : Bytes) : skipEmpty s <:+ s := by
  induction s with
  | nil => simp [skipEmpty]
  | cons c cs ih =>
    unfold skipEmpty; split
    · exact ih.trans (List.suffix_cons c cs)
    · exact List.suffix_refl _

theorem skipEmpty_ws (w s : Bytes) (h : ∀ c ∈ w, isWS c = true) : skipEmpty (w ++ s) = skipEmpty s := by
  induction w with
  | nil => rfl
  | cons c w ih =>
    simp only [List.cons_append]
    rw [skipEmpty, if_pos (h c (by simp))]
    exact ih (fun d hd => h d (by simp [hd]))

theorem skipEmpty_cons {c : UInt8} {s : Bytes} (h : isWS c = false) : skipEmpty (c :: s) = c :: s := by
  simp [skipEmpty, h]

theorem skipEmpty_head {s t : Bytes} {c : UInt8} (h : skipEmpty s = c :: t) : isWS c = false := by
  induction s with
  | nil => simp [skipEmpty] at h
  | cons d s ih =>
    unfold skipEmpty at h
    split at h
    · exact ih h
    · simp_all

/-- The outcome is a value or an error and the reported remaining input is a suffix of `s`. -/
def PR.clean {α} (s : Bytes) : PR α → Prop
  | .ok _ r => r <:+ s
  | .err _ r => r <:+ s
  | .panic _ => False
  | .fuel => False

theorem PR.clean_mono {α} {s t : Bytes} (h : s <:+ t) {x : PR α} (hx : x.clean s) : x.clean t := by
  cases x <;> simp_all [PR.clean]
  · exact hx.trans h
  · exact hx.trans h

theorem suffix_cons_of {a : UInt8} {s t : Bytes} (h : s <:+ t) : s <:+ a :: t := h.trans (List.suffix_cons a t)

theorem parseQuote_clean (q : UInt8) (s buf : Bytes) : (parseQuote q s buf).clean s := by
  fun_induction parseQuote q s buf
  case case1 => simp [PR.clean]
  case case2 => simp [PR.clean]
  case case3 => exact suffix_cons_of (suffix_cons_of (List.suffix_refl _))
  case case4 => exact suffix_cons_of (suffix_cons_of (List.suffix_refl _))
  case case5 ih =>
    exact PR.clean_mono (suffix_cons_of (suffix_cons_of (suffix_cons_of (suffix_cons_of
      (suffix_cons_of (suffix_cons_of (List.suffix_refl _))))))) ih
  case case6 => exact suffix_cons_of (suffix_cons_of (List.suffix_refl _))
  case case7 => exact suffix_cons_of (suffix_cons_of (List.suffix_refl _))
  case case8 => exact suffix_cons_of (suffix_cons_of (List.suffix_refl _))
  case case9 ih =>
    exact PR.clean_mono (suffix_cons_of (suffix_cons_of (suffix_cons_of (suffix_cons_of (List.suffix_refl _))))) ih
  case case10 => exact suffix_cons_of (suffix_cons_of (List.suffix_refl _))
  case case11 ih => exact PR.clean_mono (suffix_cons_of (suffix_cons_of (List.suffix_refl _))) ih
  case case12 => exact suffix_cons_of (List.suffix_refl _)
  case case13 ih => exact PR.clean_mono (suffix_cons_of (List.suffix_refl _)) ih

/-- The outcome leaves a suffix of `s`; fuel exhaustion is excluded, panics are allowed. -/
def PR.inside {α} (s : Bytes) : PR α → Prop
  | .ok _ r => r <:+ s
  | .err _ r => r <:+ s
  | .panic _ => True
  | .fuel => False

/-- As `inside`, and a success consumes at least one byte. -/
def PR.strict {α} (s : Bytes) : PR α → Prop
  | .ok _ r => r <:+ s ∧ r.length < s.length
  | .err _ r => r <:+ s
  | .panic _ => True
  | .fuel => False

theorem PR.inside_mono {α} {s t : Bytes} (h : s <:+ t) {x : PR α} (hx : x.inside s) : x.inside t := by
  cases x <;> simp_all [PR.inside]
  · exact hx.trans h
  · exact hx.trans h

theorem parseString_inside (s : Bytes) (hs : s ≠ []) : (parseString s).clean s := by
  cases s with
  | nil => exact absurd rfl hs
  | cons c cs =>
    simp only [parseString]
    split
    · have := parseQuote_clean c cs []
      cases h : parseQuote c cs [] with
      | ok a r => rw [h] at this; exact suffix_cons_of this
      | err e r => rw [h] at this; exact suffix_cons_of this
      | panic p => rw [h] at this; exact this.elim
      | fuel => rw [h] at this; exact this.elim
    · exact List.dropWhile_suffix _

theorem parseString_quoted_strict (s v r : Bytes) (h : parseString s = .ok (v, true) r) : r.length < s.length := by
  cases s with
  | nil => simp [parseString] at h
  | cons c cs =>
    simp only [parseString] at h
    split at h
    · have := parseQuote_clean c cs []
      cases h' : parseQuote c cs [] with
      | ok a r' =>
        rw [h'] at this h
        simp at h
        have := List.IsSuffix.length_le this
        simp [← h.2]; omega
      | err e r' => rw [h'] at h; simp at h
      | panic p => rw [h'] at h; simp at h
      | fuel => rw [h'] at h; simp at h
    · simp at h

theorem mem_takeWhile_imp' {p : UInt8 → Bool} {l : Bytes} {x : UInt8} (h : x ∈ l.takeWhile p) : p x = true := by
  induction l with
  | nil => simp at h
  | cons a l ih =>
    rw [List.takeWhile_cons] at h
    split at h
    · rcases List.mem_cons.1 h with rfl | h
      · assumption
      · exact ih h
    · simp at h

theorem parseString_token (s v r : Bytes) (h : parseString s = .ok (v, false) r) :
    s = v ++ r ∧ (∀ c ∈ v, isDelim c = false) ∧ (∀ c t, r = c :: t → isDelim c = true) := by
  cases s with
  | nil => simp [parseString] at h
  | cons c cs =>
    simp only [parseString] at h
    split at h
    · cases h' : parseQuote c cs [] <;> rw [h'] at h <;> simp at h
    · simp only [PR.ok.injEq, Prod.mk.injEq, and_true] at h
      obtain ⟨rfl, rfl⟩ := h
      refine ⟨(List.takeWhile_append_dropWhile).symm, ?_, ?_⟩
      · intro d hd
        have := mem_takeWhile_imp' hd
        simpa using this
      · intro d t hd
        have := List.head?_dropWhile_not (fun x => !isDelim x) (c :: cs)
        rw [hd] at this
        simpa using this

theorem parseJSONValue_strict (st : Sess) (s : Bytes) : (parseJSONValue st s).strict s := by
  unfold parseJSONValue
  cases s with
  | nil => simp [parseString, PR.strict]
  | cons c cs =>
    have hin := parseString_inside (c :: cs) (by simp)
    cases h : parseString (c :: cs) with
    | err e r => rw [h] at hin; exact hin
    | panic p => trivial
    | fuel => rw [h] at hin; exact hin.elim
    | ok a r =>
      rw [h] at hin
      obtain ⟨v, q⟩ := a
      cases q with
      | true => exact ⟨hin, parseString_quoted_strict _ _ _ h⟩
      | false =>
        have ht := (parseString_token _ _ _ h).1
        cases v with
        | nil => trivial
        | cons d ds =>
          have hl : r.length < (c :: cs).length := by rw [ht]; simp; omega
          simp only
          split
          · split
            · exact hin
            · exact ⟨hin, hl⟩
          · exact ⟨hin, hl⟩

end Jsonutils
