import Verif.Proofs.Rfc

/-! `String()` produces RFC 8259 texts. -/

set_option linter.unusedSimpArgs false

namespace Jsonutils
open Rfc

/-! ### Strings -/

theorem hexLower_item (n : Nat) (h : n < 16) : hexLower n = HexDigit.byte ⟨⟨n, h⟩, false⟩ := by
  have : ∀ k : Fin 16, hexLower k.val = HexDigit.byte ⟨k, false⟩ := by decide
  exact this ⟨n, h⟩

theorem escape_item (c : UInt8) : ∃ i : StrItem, escapeJsonChar c = i.text := by
  unfold escapeJsonChar
  by_cases h1 : c = 34
  · exact ⟨.esc .quote, by simp [h1, StrItem.text, Escape.letter]⟩
  by_cases h2 : c = 92
  · exact ⟨.esc .backslash, by simp [h2, StrItem.text, Escape.letter]⟩
  by_cases h3 : c = 8
  · exact ⟨.esc .backspace, by simp [h3, StrItem.text, Escape.letter]⟩
  by_cases h4 : c = 12
  · exact ⟨.esc .formfeed, by simp [h4, StrItem.text, Escape.letter]⟩
  by_cases h5 : c = 10
  · exact ⟨.esc .lf, by simp [h5, StrItem.text, Escape.letter]⟩
  by_cases h6 : c = 13
  · exact ⟨.esc .cr, by simp [h6, StrItem.text, Escape.letter]⟩
  by_cases h7 : c = 9
  · exact ⟨.esc .tab, by simp [h7, StrItem.text, Escape.letter]⟩
  by_cases h8 : c < 32
  · have h9 : c.toNat < 32 := by rw [UInt8.lt_iff_toNat_lt] at h8; exact h8
    refine ⟨.unicode ⟨0, false⟩ ⟨0, false⟩ ⟨⟨c.toNat / 16, by omega⟩, false⟩ ⟨⟨c.toNat % 16, by omega⟩, false⟩, ?_⟩
    simp only [h1, h2, h3, h4, h5, h6, h7, h8, if_false, if_true, StrItem.text]
    rw [hexLower_item _ (by omega : c.toNat / 16 < 16), hexLower_item _ (by omega : c.toNat % 16 < 16)]
    rfl
  · have h9 : (0x20 : UInt8) ≤ c := by
      rw [UInt8.lt_iff_toNat_lt] at h8
      rw [UInt8.le_iff_toNat_le]
      omega
    exact ⟨.raw c h9 h1 h2, by simp [h1, h2, h3, h4, h5, h6, h7, h8, StrItem.text]⟩

theorem quote_str (s : Bytes) : ∃ t : Str, quoteString s = strText t := by
  have : ∃ t : Str, s.flatMap escapeJsonChar = strBody t := by
    induction s with
    | nil => exact ⟨[], rfl⟩
    | cons c s ih =>
      obtain ⟨t, ht⟩ := ih
      obtain ⟨i, hi⟩ := escape_item c
      exact ⟨i :: t, by simp [strBody, hi, ht]⟩
  obtain ⟨t, ht⟩ := this
  exact ⟨t, by simp [quoteString, strText, ht]⟩

/-! ### Numbers -/

theorem digits_of (s : Bytes) (h : ∀ c ∈ s, isDigit c = true) : ∃ d : Digits, digitsText d = s := by
  induction s with
  | nil => exact ⟨[], rfl⟩
  | cons c s ih =>
    obtain ⟨d, hd⟩ := ih (fun x hx => h x (by simp [hx]))
    have hc := (isDigit_iff c).1 (h c (by simp))
    refine ⟨⟨c.toNat - 48, by omega⟩ :: d, ?_⟩
    have : UInt8.ofNat (48 + (c.toNat - 48)) = c := by
      rw [show 48 + (c.toNat - 48) = c.toNat by omega]; simp
    simp only [digitsText, List.map_cons] at hd ⊢
    rw [this, hd]

theorem digitsText_head0 {d : Digits} {c : UInt8} {t : Bytes} (h : digitsText d = c :: t) (hc : c ≠ 48) :
    d.head? ≠ some 0 := by
  cases d with
  | nil => simp
  | cons x d =>
    simp only [List.head?_cons, ne_eq, Option.some.injEq]
    rintro rfl
    simp only [digitsText, List.map_cons, List.cons.injEq] at h
    exact hc h.1.symm

theorem natDec_head_pos (n : Nat) (h : 0 < n) : ∃ c t, natDec n = c :: t ∧ c ≠ 48 := by
  induction n using Nat.strongRecOn with
  | _ n ih =>
    by_cases hn : n < 10
    · refine ⟨_, _, natDec_lt hn, ?_⟩
      intro h48
      have := digitByte_toNat hn
      rw [h48] at this
      have h2 : (48 : UInt8).toNat = 48 := rfl
      omega
    · obtain ⟨c, t, h1, h2⟩ := ih (n / 10) (by omega) (by omega)
      exact ⟨c, t ++ [digitByte (n % 10)], by rw [natDec_ge (by omega), h1]; rfl, h2⟩

/-- Digits without a superfluous leading zero form the integer part of an RFC number. -/
theorem number_of (neg : Bool) (a : Bytes) (f : Option Bytes) (ha : ∀ c ∈ a, isDigit c = true) (hne : a ≠ [])
    (hz : a.length = 1 ∨ ∃ c t, a = c :: t ∧ c ≠ 48)
    (hf : ∀ b, f = some b → b ≠ [] ∧ ∀ c ∈ b, isDigit c = true) :
    ∃ n : Number, n.text = signBytes neg ++ (a ++ match f with | none => [] | some b => 46 :: b) ∧ n.exp = none := by
  obtain ⟨d, hd⟩ := digits_of a ha
  have hdl : d.length = a.length := by rw [← hd, digitsText_length]
  have h0 : d.head? = some 0 → d.length = 1 := by
    intro h
    rcases hz with hz | ⟨c, t, h1, h2⟩
    · omega
    · rw [h1] at hd; exact absurd h (digitsText_head0 hd h2)
  have hdne : d ≠ [] := by
    rintro rfl
    exact hne (by rw [← hd]; rfl)
  cases f with
  | none =>
    refine ⟨⟨neg, d, none, none, hdne, h0, by simp⟩, ?_, rfl⟩
    rw [number_text]; simp [fracText, expText, hd]
  | some b =>
    obtain ⟨hb1, hb2⟩ := hf b rfl
    obtain ⟨e, he⟩ := digits_of b hb2
    refine ⟨⟨neg, d, some e, none, hdne, h0, ?_⟩, ?_, rfl⟩
    · intro h
      simp only [Option.some.injEq] at h
      subst h
      exact hb1 (by rw [← he]; rfl)
    · rw [number_text]; simp [fracText, expText, hd, he]

theorem natDec_number (neg : Bool) (n : Nat) : ∃ x : Number, x.text = signBytes neg ++ natDec n ∧ x.exp = none := by
  have := number_of neg (natDec n) none (natDec_digits n) (natDec_ne_nil n) (by
    by_cases h : n < 10
    · left; rw [natDec_lt h]; rfl
    · right; exact natDec_head_pos n (by omega)) (by simp)
  simpa using this

theorem intDec_number (n : Int) : ∃ x : Number, x.text = intDec n ∧ x.exp = none := by
  unfold intDec
  split
  · exact natDec_number true n.natAbs
  · exact natDec_number false n.natAbs

theorem decText_number (neg : Bool) (c : Nat) (k : Int) (hc : 0 < c) :
    ∃ x : Number, x.text = signBytes neg ++ decText c k ∧ x.exp = none := by
  obtain ⟨h, t, hht, hh⟩ := natDec_head_pos c hc
  unfold decText
  by_cases hk : 0 ≤ k
  · rw [if_pos hk]
    have := number_of neg (natDec c ++ List.replicate k.toNat 48) none (by
      intro x hx
      rcases List.mem_append.1 hx with hx | hx
      · exact natDec_digits c x hx
      · rw [(List.mem_replicate.1 hx).2]; decide) (by simp [natDec_ne_nil])
      (Or.inr ⟨h, t ++ List.replicate k.toNat 48, by rw [hht]; rfl, hh⟩) (by simp)
    simpa using this
  · rw [if_neg hk]
    simp only
    generalize hd : (-k).toNat = d
    have hd0 : 0 < d := by omega
    generalize hs : List.replicate (d + 1 - (natDec c).length) (48 : UInt8) ++ natDec c = s
    have hlen : s.length = (d + 1 - (natDec c).length) + (natDec c).length := by rw [← hs]; simp
    have hdig : ∀ x ∈ s, isDigit x = true := by
      intro x hx
      rw [← hs] at hx
      rcases List.mem_append.1 hx with hx | hx
      · rw [(List.mem_replicate.1 hx).2]; decide
      · exact natDec_digits c x hx
    refine number_of neg (s.take (s.length - d)) (some (s.drop (s.length - d)))
      (fun x hx => hdig x (List.mem_of_mem_take hx)) ?_ ?_ ?_
    · intro h0
      have := congrArg List.length h0
      simp at this
      omega
    · by_cases hl : (natDec c).length ≤ d
      · left; simp; omega
      · right
        have h0 : d + 1 - (natDec c).length = 0 := by omega
        rw [h0] at hs
        simp only [List.replicate_zero, List.nil_append] at hs
        obtain ⟨j, hj⟩ : ∃ j, s.length - d = j + 1 := ⟨s.length - d - 1, by omega⟩
        rw [hj]
        exact ⟨h, t.take j, by rw [← hs, hht]; rfl, hh⟩
    · intro b hb
      simp only [Option.some.injEq] at hb
      subst hb
      refine ⟨?_, fun x hx => hdig x (List.mem_of_mem_drop hx)⟩
      intro h0
      have := congrArg List.length h0
      simp at this
      omega

theorem roundPos_zero (f : FFmt) (hf : f.prec = 24 ∨ f.prec = 53) (d : Nat) : roundPos f 0 d = some (0, 0) := by
  have h2 : (0 : Nat) ≠ 2 ^ f.prec := Nat.ne_of_lt (Nat.pow_pos (by omega))
  have hl : Nat.log2 0 = 0 := by decide
  have he : (0 + 1) - f.prec = 0 := by omega
  have hr : ∀ b, roundDiv 0 b = 0 := by
    intro b
    unfold roundDiv
    simp only [Nat.zero_div, Nat.zero_mod]
    rw [if_neg]
    omega
  unfold roundPos
  simp only [Nat.zero_mul, Nat.zero_div, hl, he, hr, h2, if_false]
  rw [if_neg (by omega)]

theorem shortest_pos (f : FFmt) (hf : f.prec = 24 ∨ f.prec = 53) (m e : Nat) (hc : Canon f m e) (h0 : 0 < m) :
    0 < (shortest f m e).1 := by
  have h := shortest_rounds f m e (by omega) hc h0
  rcases Nat.eq_zero_or_pos (shortest f m e).1 with hz | hz
  · exfalso
    rw [hz] at h
    unfold roundsTo at h
    split at h
    all_goals
      simp only [Nat.zero_mul, roundPos_zero f hf] at h
      simp at h
      omega
  · exact hz

theorem fmtMag_number (neg : Bool) (f : FFmt) (hf : f.prec = 24 ∨ f.prec = 53) (m e : Nat) (hc : Canon f m e) :
    ∃ x : Number, x.text = signBytes neg ++ fmtMag f m e ∧ x.exp = none := by
  by_cases h : m = 0
  · have := natDec_number neg 0
    rw [show natDec 0 = [48] from rfl] at this
    unfold fmtMag
    rw [if_pos h]
    exact this
  · have hm : 0 < m := by omega
    have := decText_number neg (shortest f m e).1 (shortest f m e).2 (shortest_pos f hf m e hc hm)
    unfold fmtMag
    rw [if_neg h]
    exact this

theorem roundPos32_canon {m e m' e' : Nat} (hc : Canon f32 m' e')
    (h : m * 2 ^ e * 2 ^ f32.bias = m' * 2 ^ e' * 2 ^ f64.bias) :
    ∃ m'' e'', roundPos f32 (m * 2 ^ e) (2 ^ f64.bias) = some (m'', e'') ∧ Canon f32 m'' e'' := by
  by_cases h0 : m' = 0
  · subst h0
    have hp : 0 < 2 ^ f32.bias := Nat.pow_pos (by omega)
    have hz : m * 2 ^ e = 0 := by
      rw [Nat.zero_mul, Nat.zero_mul] at h
      rcases Nat.mul_eq_zero.1 h with h | h
      · exact h
      · omega
    rw [hz]
    exact ⟨0, 0, roundPos_zero f32 (Or.inl rfl) _, by decide⟩
  · exact ⟨m', e', roundPos_exact f32 m' e' _ _ (by decide) hc (by omega) (Nat.pow_pos (by omega)) h, hc⟩

theorem float_number (x : GoFloat) (bit : Nat) (hw : x.Canonical) (hf : x.Finite) (h32 : bit = 32 → IsFloat32 x) :
    ∃ n : Number, n.text = formatFloat x (floatBits bit) ∧ n.exp = none := by
  cases x with
  | nan => exact hf.elim
  | inf => exact hf.elim
  | fin neg m e =>
    by_cases hb : bit = 32
    · obtain ⟨m', e', h1, h2⟩ := h32 hb
      obtain ⟨m'', e'', h3, h4⟩ := roundPos32_canon h1 h2
      have : formatFloat (.fin neg m e) (floatBits bit) = signBytes neg ++ fmtMag f32 m'' e'' := by
        have hbits : floatBits bit = 32 := by rw [hb]; rfl
        unfold formatFloat
        rw [hbits]
        simp only [if_true]
        rw [h3]
      rw [this]
      exact fmtMag_number neg f32 (Or.inl rfl) m'' e'' h4
    · have : formatFloat (.fin neg m e) (floatBits bit) = signBytes neg ++ fmtMag f64 m e := by
        have hbits : floatBits bit ≠ 32 := by unfold floatBits; split <;> omega
        unfold formatFloat
        simp only [hbits, if_false]
      rw [this]
      exact fmtMag_number neg f64 (Or.inr rfl) m e hw

/-! ### Documents -/

mutual
theorem print_tree : (v : J) → v.WF → v.NoPtr → v.FiniteFloats → ∃ t : Tree, v.toBytes = t.text
  | .null, _, _, _ => ⟨.null, rfl⟩
  | .bool true, _, _, _ => ⟨.tt, rfl⟩
  | .bool false, _, _, _ => ⟨.ff, rfl⟩
  | .int n, _, _, _ => by
      obtain ⟨x, hx, _⟩ := intDec_number n
      exact ⟨.num x, by rw [J.toBytes, Tree.text, hx]⟩
  | .float y b, hw, _, hf => by
      obtain ⟨x, hx, _⟩ := float_number y b hw hf.1 hf.2
      exact ⟨.num x, by rw [J.toBytes, Tree.text, hx]⟩
  | .str s, _, _, _ => by
      obtain ⟨t, ht⟩ := quote_str s
      exact ⟨.str t, by rw [J.toBytes, Tree.text, ht]⟩
  | .ptr _, _, hp, _ => hp.elim
  | .arr [], _, _, _ => ⟨.arr0 [], rfl⟩
  | .arr (x :: xs), hw, hp, hf => by
      obtain ⟨es, h⟩ := print_elems (x :: xs) (by simp) hw hp hf
      exact ⟨.arr es, by rw [J.toBytes, Tree.text, h]⟩
  | .dict id [], _, _, _ => by
      by_cases hi : 0 < id
      · obtain ⟨k, hk⟩ := quote_str jsonPointerKey
        obtain ⟨n, hn, _⟩ := intDec_number id
        refine ⟨.obj (.one [] k [] [] (.num n) []), ?_⟩
        simp [J.toBytes, hi, J.dictBytes, Tree.text, Members.text, wsText, hk, hn]
      · exact ⟨.obj0 [], by simp [J.toBytes, hi, J.dictBytes, Tree.text, wsText]⟩
  | .dict id (kv :: kvs), hw, hp, hf => by
      obtain ⟨ms, h⟩ := print_members (kv :: kvs) (by simp) hw.2 hp hf
      by_cases hi : 0 < id
      · obtain ⟨k, hk⟩ := quote_str jsonPointerKey
        obtain ⟨n, hn, _⟩ := intDec_number id
        refine ⟨.obj (.more [] k [] [] (.num n) [] ms), ?_⟩
        rw [J.toBytes, if_pos hi, dictBytes_false]
        simp [Tree.text, Members.text, wsText, hk, hn, h]
      · exact ⟨.obj ms, by rw [J.toBytes, if_neg hi, Tree.text, h]⟩

theorem print_elems : (xs : List J) → xs ≠ [] → J.WFs xs → J.NoPtrs xs →
    J.FloatsSats (fun x bit => x.Finite ∧ (bit = 32 → IsFloat32 x)) xs →
    ∃ es : Elems, J.arrBytes xs true = es.text
  | [], hne, _, _, _ => absurd rfl hne
  | x :: xs, _, hw, hp, hf => by
      obtain ⟨t, ht⟩ := print_tree x hw.1 hp.1 hf.1
      by_cases he : xs = []
      · subst he
        exact ⟨.one [] t [], by simp [J.arrBytes, Elems.text, wsText, ht]⟩
      · obtain ⟨es, h⟩ := print_elems xs he hw.2 hp.2 hf.2
        refine ⟨.more [] t [] es, ?_⟩
        rw [J.arrBytes, arrBytes_false]
        simp [Elems.text, wsText, ht, h, he]

theorem print_members : (kvs : List (Bytes × J)) → kvs ≠ [] → J.WFf kvs → J.NoPtrf kvs →
    J.FloatsSatf (fun x bit => x.Finite ∧ (bit = 32 → IsFloat32 x)) kvs →
    ∃ ms : Members, J.dictBytes kvs true = ms.text
  | [], hne, _, _, _ => absurd rfl hne
  | (k, x) :: kvs, _, hw, hp, hf => by
      obtain ⟨t, ht⟩ := print_tree x hw.1 hp.1 hf.1
      obtain ⟨q, hq⟩ := quote_str k
      by_cases he : kvs = []
      · subst he
        exact ⟨.one [] q [] [] t [], by simp [J.dictBytes, Members.text, wsText, ht, hq]⟩
      · obtain ⟨ms, h⟩ := print_members kvs he hw.2 hp.2 hf.2
        refine ⟨.more [] q [] [] t [] ms, ?_⟩
        rw [J.dictBytes, dictBytes_false]
        simp [Members.text, wsText, ht, hq, h, he]
end

end Jsonutils
