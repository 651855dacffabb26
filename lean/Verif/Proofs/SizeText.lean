import Verif.Proofs.Size
import Verif.Proofs.FloatText

/-! # The length of what `String` writes -/

namespace Jsonutils

theorem natDec_len {n k : Nat} (h : n < 10 ^ k) (hk : 0 < k) : (natDec n).length ≤ k := by
  induction k generalizing n with
  | zero => omega
  | succ k ih =>
    by_cases h1 : n < 10
    · rw [natDec_lt h1]; simp
    · rw [natDec_ge (by omega), List.length_append]
      rw [Nat.pow_succ] at h
      have hk0 : 0 < k := by
        rcases Nat.eq_zero_or_pos k with h0 | h0
        · subst h0; simp at h; omega
        · exact h0
      have := ih (n := n / 10) (by omega) hk0
      simp only [List.length_cons, List.length_nil]; omega

theorem intDec_len {n : Int} (h : InI64 n) : (intDec n).length ≤ 20 := by
  unfold InI64 i64min i64max at h
  unfold intDec
  split
  · have := natDec_len (n := n.natAbs) (k := 19) (by omega) (by omega)
    simp only [List.length_cons]; omega
  · have := natDec_len (n := n.natAbs) (k := 19) (by omega) (by omega)
    omega

/-- The decimal number at which the format can no longer tell apart. -/
theorem reads_floor {f : FFmt} (hp : 0 < f.prec) {m e : Nat} (hc : Canon f m e) (D g : Nat) (hD : 2 * 2 ^ f.bias ≤ g * 10 ^ D)
    (hg : ∀ m' e', Canon f m' e' → m' * 2 ^ e' ≠ m * 2 ^ e → g ≤ absDiff (m' * 2 ^ e') (m * 2 ^ e)) :
    ReadsAs f (m * 2 ^ e * 10 ^ D / 2 ^ f.bias) (-(D : Int)) m e := by
  have e1 : (-(D : Int)).toNat = 0 := by omega
  have e2 : (- -(D : Int)).toNat = D := by omega
  unfold ReadsAs
  rw [e1, e2, Nat.pow_zero, Nat.mul_one]
  have hb : 0 < 2 ^ f.bias := Nat.pow_pos (by decide)
  have hfl := Nat.div_mul_le_self (m * 2 ^ e * 10 ^ D) (2 ^ f.bias)
  have hlt := Nat.lt_div_mul_add (a := m * 2 ^ e * 10 ^ D) hb
  generalize hcc : m * 2 ^ e * 10 ^ D / 2 ^ f.bias = c at *
  have hgap : gap f c (10 ^ D) m e < 2 ^ f.bias := by
    unfold gap absDiff
    omega
  have hfar : ∀ m' e', Canon f m' e' → m' * 2 ^ e' ≠ m * 2 ^ e → gap f c (10 ^ D) m e < gap f c (10 ^ D) m' e' := by
    intro m' e' h' hne
    have h1 := hg m' e' h' hne
    have h2 : g * 10 ^ D ≤ absDiff (m' * 2 ^ e') (m * 2 ^ e) * 10 ^ D := Nat.mul_le_mul_right _ h1
    have h3 : absDiff (m' * 2 ^ e') (m * 2 ^ e) * 10 ^ D = absDiff (m' * 2 ^ e' * 10 ^ D) (m * 2 ^ e * 10 ^ D) := by
      unfold absDiff; rw [Nat.add_mul, Nat.sub_mul, Nat.sub_mul]
    rw [h3] at h2
    unfold gap absDiff at *
    omega
  refine ⟨⟨hc, ?_, ?_⟩, canon_not_tooBig (Nat.pow_pos (by decide)) hc hfl⟩
  · intro m' e' h'
    by_cases hne : m' * 2 ^ e' = m * 2 ^ e
    · unfold gap; rw [hne]; exact Nat.le_refl _
    · exact Nat.le_of_lt (hfar m' e' h' hne)
  · intro m' e' h' heq
    by_cases hne : m' * 2 ^ e' = m * 2 ^ e
    · exact Or.inl (canon_inj hp hc h' hne)
    · have := hfar m' e' h' hne; omega

theorem absDiff_ne {a b : Nat} (h : a ≠ b) : 1 ≤ absDiff a b := by unfold absDiff; omega

theorem decText_len_neg {c d : Nat} (hd : 0 < d) : (decText c (-(d : Int))).length = max (d + 1) (natDec c).length + 1 := by
  unfold decText
  rw [if_neg (by omega)]
  have e2 : (- -(d : Int)).toNat = d := by omega
  simp only [e2, List.length_append, List.length_cons, List.length_take, List.length_drop, List.length_replicate]
  omega

theorem decText_len_pos {c : Nat} {k : Int} (hk : 0 ≤ k) : (decText c k).length = (natDec c).length + k.toNat := by
  unfold decText
  rw [if_pos hk]; simp

theorem gap_neighbours {f : FFmt} (hp : 0 < f.prec) {m e s : Nat} (hc : Canon f m e) (he : s + 1 ≤ e) :
    ∀ m' e', Canon f m' e' → m' * 2 ^ e' ≠ m * 2 ^ e → 2 ^ s ≤ absDiff (m' * 2 ^ e') (m * 2 ^ e) := by
  intro m' e' h' hne
  by_cases hs : s ≤ e'
  · obtain ⟨a, rfl⟩ := Nat.exists_eq_add_of_le hs
    obtain ⟨b, rfl⟩ := Nat.exists_eq_add_of_le (Nat.le_of_succ_le he)
    rw [Nat.pow_add, Nat.pow_add] at *
    have e1 : m' * (2 ^ s * 2 ^ a) = (m' * 2 ^ a) * 2 ^ s := by ac_rfl
    have e2 : m * (2 ^ s * 2 ^ b) = (m * 2 ^ b) * 2 ^ s := by ac_rfl
    rw [e1, e2]
    have h3 : absDiff (m' * 2 ^ a * 2 ^ s) (m * 2 ^ b * 2 ^ s) = absDiff (m' * 2 ^ a) (m * 2 ^ b) * 2 ^ s := by
      unfold absDiff; rw [Nat.add_mul, Nat.sub_mul, Nat.sub_mul]
    rw [h3]
    have : m' * 2 ^ a ≠ m * 2 ^ b := fun h => hne (by rw [e1, e2, h])
    have := Nat.mul_le_mul_right (2 ^ s) (absDiff_ne this)
    omega
  · have hm : 2 ^ (f.prec - 1) ≤ m := by rcases hc.2.2 with h | h <;> omega
    have hpp := two_pow_pred (p := f.prec) hp
    have h1 : 2 ^ (f.prec - 1) * 2 ^ (s + 1) ≤ m * 2 ^ e := Nat.mul_le_mul hm (Nat.pow_le_pow_right (by decide) he)
    have h2 : m' * 2 ^ (e' + 1) ≤ 2 ^ f.prec * 2 ^ s := Nat.mul_le_mul (Nat.le_of_lt h'.1) (Nat.pow_le_pow_right (by decide) (by omega))
    rw [Nat.pow_succ] at h1 h2
    have h3 : 2 ^ (f.prec - 1) * (2 ^ s * 2) = 2 ^ f.prec * 2 ^ s := by rw [hpp]; ac_rfl
    have h4 : m' * (2 ^ e' * 2) = 2 * (m' * 2 ^ e') := by ac_rfl
    have h5 : 2 * 2 ^ s ≤ 2 ^ f.prec * 2 ^ s := Nat.mul_le_mul_right _ (by rw [hpp]; have : 0 < 2 ^ (f.prec - 1) := Nat.pow_pos (by decide); omega)
    unfold absDiff
    omega

theorem digits_bound {c V d q x B : Nat} (hB : 0 < B) (hbd : c * B ≤ 4 * (V * 10 ^ d)) (hq : 0 < q) (h1 : V ≤ x * B) (h2 : 4 * x < 10 ^ q) :
    (natDec c).length ≤ d + q := by
  refine natDec_len ?_ (by omega)
  have h3 : V * 10 ^ d ≤ x * B * 10 ^ d := Nat.mul_le_mul_right _ h1
  have h4 : c * B ≤ 4 * x * 10 ^ d * B := by
    have : 4 * x * 10 ^ d * B = 4 * (x * B * 10 ^ d) := by ac_rfl
    omega
  have h5 := Nat.le_of_mul_le_mul_right h4 hB
  have h6 : 4 * x * 10 ^ d < 10 ^ q * 10 ^ d := Nat.mul_lt_mul_of_pos_right h2 (ten_pos _)
  rw [← Nat.pow_add, Nat.add_comm q d] at h6
  omega

theorem fmt64_len {m e : Nat} (hc : Canon f64 m e) : (fmtMag f64 m e).length ≤ 326 := by
  unfold fmtMag
  split
  · simp
  rename_i hm
  have hm : 0 < m := by omega
  have S := shortest_shortest (f := f64) (by decide) hc hm
  generalize hsh : shortest f64 m e = ck at *
  obtain ⟨c, k⟩ := ck
  simp only at S ⊢
  have hcpos := reads_pos S.reads hm
  have hbd := reads_bound (by decide) S.reads hm
  by_cases hk : 0 ≤ k
  · rw [decText_len_pos hk]
    have h1 : (natDec c).length + k.toNat = (natDec (c * 10 ^ k.toNat)).length := by rw [natDec_mul_pow (hc := hcpos)]; simp
    rw [h1]
    have h2 := S.reads.2
    unfold TooBig at h2
    have h3 : (-k).toNat = 0 := by omega
    rw [h3, Nat.pow_zero, Nat.mul_one] at h2
    have h4 : c * 10 ^ k.toNat < 10 ^ 309 := by
      refine Nat.lt_of_not_le fun h5 => h2 ?_
      have h6 : 10 ^ 309 * 2 ^ f64.bias ≤ c * 10 ^ k.toNat * 2 ^ f64.bias := Nat.mul_le_mul_right _ h5
      have h7 : (2 * 2 ^ f64.prec - 1) * 2 ^ f64.maxE ≤ 2 * (10 ^ 309 * 2 ^ f64.bias) := by decide +kernel
      exact Nat.le_trans h7 (Nat.mul_le_mul_left 2 h6)
    have := natDec_len h4 (by decide)
    omega
  · obtain ⟨d, rfl⟩ : ∃ d : Nat, k = -(d : Int) := ⟨(-k).toNat, by omega⟩
    have hd : 0 < d := by omega
    rw [decText_len_neg hd]
    have e1 : (-(d : Int)).toNat = 0 := by omega
    have e2 : (- -(d : Int)).toNat = d := by omega
    rw [e1, e2, Nat.pow_zero, Nat.mul_one] at hbd
    have hb0 : 0 < 2 ^ f64.bias := Nat.pow_pos (by decide)
    have digits := fun q x => digits_bound (q := q) (x := x) hb0 hbd
    by_cases hv : m * 2 ^ e ≤ 1 * 2 ^ f64.bias
    · have h1 := S.fewest _ _ (reads_floor (by decide) hc 324 1 (by decide +kernel) fun m' e' _ h => absDiff_ne h)
      have := digits 1 1 (by decide) hv (by decide)
      omega
    · have he : 1022 ≤ e := by
        refine Nat.le_of_not_lt fun h => hv ?_
        have h1 : m * 2 ^ e ≤ 2 ^ 53 * 2 ^ 1021 := Nat.mul_le_mul (Nat.le_of_lt hc.1) (Nat.pow_le_pow_right (by decide) (by omega))
        exact Nat.le_trans h1 (by decide +kernel)
      have h17 := S.fewest _ _ (reads_floor (by decide) hc 17 (2 ^ 1021) (by decide +kernel) (gap_neighbours (by decide) hc (by omega)))
      by_cases he2 : 1076 ≤ e
      · have := S.fewest _ _ (reads_floor (by decide) hc 0 (2 ^ 1075) (by decide +kernel) (gap_neighbours (by decide) hc (by omega)))
        omega
      · have h1 : m * 2 ^ e ≤ 2 ^ 53 * 2 ^ 1075 := Nat.mul_le_mul (Nat.le_of_lt hc.1) (Nat.pow_le_pow_right (by decide) (by omega))
        have := digits 17 (2 ^ 54) (by decide) (Nat.le_trans h1 (by decide +kernel)) (by decide)
        omega

theorem fmt32_len {m e : Nat} (hc : Canon f32 m e) : (fmtMag f32 m e).length ≤ 60 := by
  unfold fmtMag
  split
  · simp
  rename_i hm
  have hm : 0 < m := by omega
  have S := shortest_shortest (f := f32) (by decide) hc hm
  generalize hsh : shortest f32 m e = ck at *
  obtain ⟨c, k⟩ := ck
  simp only at S ⊢
  have hcpos := reads_pos S.reads hm
  have hbd := reads_bound (by decide) S.reads hm
  by_cases hk : 0 ≤ k
  · rw [decText_len_pos hk]
    have h1 : (natDec c).length + k.toNat = (natDec (c * 10 ^ k.toNat)).length := by rw [natDec_mul_pow (hc := hcpos)]; simp
    rw [h1]
    have h2 := S.reads.2
    unfold TooBig at h2
    have h3 : (-k).toNat = 0 := by omega
    rw [h3, Nat.pow_zero, Nat.mul_one] at h2
    have h4 : c * 10 ^ k.toNat < 10 ^ 39 := by
      refine Nat.lt_of_not_le fun h5 => h2 ?_
      have h6 : 10 ^ 39 * 2 ^ f32.bias ≤ c * 10 ^ k.toNat * 2 ^ f32.bias := Nat.mul_le_mul_right _ h5
      have h7 : (2 * 2 ^ f32.prec - 1) * 2 ^ f32.maxE ≤ 2 * (10 ^ 39 * 2 ^ f32.bias) := by decide +kernel
      exact Nat.le_trans h7 (Nat.mul_le_mul_left 2 h6)
    have := natDec_len h4 (by decide)
    omega
  · obtain ⟨d, rfl⟩ : ∃ d : Nat, k = -(d : Int) := ⟨(-k).toNat, by omega⟩
    have hd : 0 < d := by omega
    rw [decText_len_neg hd]
    have e1 : (-(d : Int)).toNat = 0 := by omega
    have e2 : (- -(d : Int)).toNat = d := by omega
    rw [e1, e2, Nat.pow_zero, Nat.mul_one] at hbd
    have hb0 : 0 < 2 ^ f32.bias := Nat.pow_pos (by decide)
    have digits := fun q x => digits_bound (q := q) (x := x) hb0 hbd
    have h1 := S.fewest _ _ (reads_floor (by decide) hc 46 1 (by decide +kernel) fun m' e' _ h => absDiff_ne h)
    by_cases he2 : 151 ≤ e
    · have := S.fewest _ _ (reads_floor (by decide) hc 0 (2 ^ 150) (by decide +kernel) (gap_neighbours (by decide) hc (by omega)))
      omega
    · have h1 : m * 2 ^ e ≤ 2 ^ 24 * 2 ^ 150 := Nat.mul_le_mul (Nat.le_of_lt hc.1) (Nat.pow_le_pow_right (by decide) (by omega))
      have := digits 9 (2 ^ 25) (by decide) (Nat.le_trans h1 (by decide +kernel)) (by decide)
      omega


theorem signBytes_len (neg : Bool) : (signBytes neg).length ≤ 1 := by cases neg <;> simp [signBytes]

theorem formatFloat_len {x : GoFloat} (hx : x.Canonical) (bits : Nat) : (formatFloat x bits).length ≤ 327 := by
  unfold formatFloat
  cases x with
  | nan => exact (by decide : (b!"NaN").length ≤ 327)
  | inf neg =>
    cases neg
    · exact (by decide : (b!"+Inf").length ≤ 327)
    · exact (by decide : (b!"-Inf").length ≤ 327)
  | fin neg m e =>
    have h1 := signBytes_len neg
    simp only
    split
    · split
      · cases neg <;> decide
      · rename_i m' e' h
        have h2 := (roundPos_iff (f := f32) (by decide) (Nat.pow_pos (by decide))).1 h
        have := fmt32_len h2.1.inFormat
        simp only [List.length_append]; omega
    · have := fmt64_len hx
      simp only [List.length_append]; omega

theorem escape_len (c : UInt8) : (escapeJsonChar c).length ≤ 6 := by
  unfold escapeJsonChar
  repeat' split
  all_goals simp

theorem quoteString_len (s : Bytes) : (quoteString s).length ≤ 6 * s.length + 2 := by
  have : ∀ s : Bytes, (s.flatMap escapeJsonChar).length ≤ 6 * s.length := by
    intro s
    induction s with
    | nil => simp
    | cons c s ih =>
      have := escape_len c
      simp only [List.flatMap_cons, List.length_append, List.length_cons]; omega
  have := this s
  unfold quoteString
  simp only [List.length_append, List.length_cons, List.length_nil]; omega

theorem pointerKey_len : (quoteString jsonPointerKey).length = 10 := by decide

section
variable (C : Nat) (hC : 37 ≤ C)

/-- Every float takes at most `C - 4` bytes. -/
def Short : J → Prop := J.FloatsSat fun x bit => (formatFloat x (floatBits bit)).length + 4 ≤ C

set_option linter.unusedSectionVars false in
include hC in
mutual
theorem toBytes_len : ∀ v : J, v.WF → v.Refable → Short C v → v.toBytes.length + 4 ≤ 6 * v.letters + C * v.nodes
  | .null, _, _, _ => by simp [J.toBytes, J.nodes]; omega
  | .bool b, _, _, _ => by cases b <;> simp [J.toBytes, J.nodes] <;> omega
  | .int n, h, _, _ => by
    have := intDec_len h
    simp [J.toBytes, J.nodes]; omega
  | .float x bit, _, _, h => by
    unfold Short J.FloatsSat at h
    simp [J.toBytes, J.nodes]; omega
  | .str s, _, _, _ => by
    have := quoteString_len s
    simp [J.toBytes, J.nodes, J.letters]; omega
  | .ptr n, _, h, _ => by
    unfold J.Refable at h
    have := intDec_len h
    simp [J.toBytes, J.nodes]; omega
  | .arr xs, hw, hr, hs => by
    have := arrBytes_len xs true hw hr hs
    simp only [J.toBytes, J.nodes, J.letters, List.length_cons, List.length_append, List.length_nil, Nat.mul_add, Nat.mul_one]; omega
  | .dict id kvs, hw, hr, hs => by
    unfold J.WF at hw
    unfold J.Refable at hr
    have h1 := dictBytes_len kvs true hw.2 hr.2 hs
    have h2 := dictBytes_len kvs false hw.2 hr.2 hs
    simp only [J.toBytes, J.nodes, J.letters, Nat.mul_add, Nat.mul_one]
    split
    · have := intDec_len (n := id) hr.1
      have := pointerKey_len
      simp only [List.length_cons, List.length_append, List.length_nil]; omega
    · simp only [List.length_cons, List.length_append, List.length_nil]; omega
theorem arrBytes_len : ∀ (xs : List J) (first : Bool), J.WFs xs → J.Refables xs → J.FloatsSats (fun x bit => (formatFloat x (floatBits bit)).length + 4 ≤ C) xs →
    (J.arrBytes xs first).length ≤ 6 * J.letterss xs + C * J.nodess xs
  | [], _, _, _, _ => by simp [J.arrBytes]
  | x :: xs, first, hw, hr, hs => by
    have := toBytes_len x hw.1 hr.1 hs.1
    have := arrBytes_len xs false hw.2 hr.2 hs.2
    cases first <;>
    simp only [J.arrBytes, J.nodess, J.letterss, List.length_cons, List.length_append, List.length_nil, Nat.mul_add, if_true, if_false, Bool.false_eq_true] <;> omega
theorem dictBytes_len : ∀ (kvs : List (Bytes × J)) (first : Bool), J.WFf kvs → J.Refablef kvs → J.FloatsSatf (fun x bit => (formatFloat x (floatBits bit)).length + 4 ≤ C) kvs →
    (J.dictBytes kvs first).length ≤ 6 * J.lettersf kvs + C * J.nodesf kvs
  | [], _, _, _, _ => by simp [J.dictBytes]
  | (k, x) :: kvs, first, hw, hr, hs => by
    unfold J.Refablef at hr
    have := toBytes_len x hw.1 hr.2.1 hs.1
    have := dictBytes_len kvs false hw.2 hr.2.2 hs.2
    have := quoteString_len k
    cases first <;>
    simp only [J.dictBytes, J.nodesf, J.lettersf, List.length_cons, List.length_append, List.length_nil, Nat.mul_add, if_true, if_false, Bool.false_eq_true] <;> omega
end

theorem indent_len (l : Nat) : (indent l).length = 2 * l := by simp [indent]

theorem depth_pos (v : J) : 1 ≤ v.depth := by cases v <;> simp [J.depth]

/-- `n * (a + 6 * b)` grows with `b`. -/
theorem cost_mono {n C b b' : Nat} (h : b ≤ b') : n * (C + 6 * b) ≤ n * (C + 6 * b') := Nat.mul_le_mul_left _ (by omega)

theorem cost_ge {n C b : Nat} (h : 1 ≤ n) : C * n + 6 * b ≤ n * (C + 6 * b) := by
  rw [Nat.mul_add, Nat.mul_comm C n]
  have := Nat.mul_le_mul_right (6 * b) h
  omega

set_option linter.unusedSectionVars false in
include hC in
mutual
theorem pretty_len : ∀ (v : J) (L : Nat), v.WF → v.Refable → Short C v →
    (v.pretty L).length + 2 * L + 10 ≤ 6 * v.letters + v.nodes * (C + 6 * (L + 2 * v.depth))
  | .null, L, hw, hr, hs => by
    have h1 := toBytes_len C hC _ hw hr hs
    simp only [J.pretty, J.nodes, J.depth, List.length_append, indent_len] at *; omega
  | .bool b, L, hw, hr, hs => by
    have h1 := toBytes_len C hC _ hw hr hs
    simp only [J.pretty, J.nodes, J.depth, List.length_append, indent_len] at *; omega
  | .int n, L, hw, hr, hs => by
    have h1 := toBytes_len C hC _ hw hr hs
    simp only [J.pretty, J.nodes, J.depth, List.length_append, indent_len] at *; omega
  | .float x bit, L, hw, hr, hs => by
    have h1 := toBytes_len C hC _ hw hr hs
    simp only [J.pretty, J.nodes, J.depth, List.length_append, indent_len] at *; omega
  | .str s, L, hw, hr, hs => by
    have h1 := toBytes_len C hC _ hw hr hs
    simp only [J.pretty, J.nodes, J.depth, List.length_append, indent_len] at *; omega
  | .ptr n, L, hw, hr, hs => by
    have h1 := toBytes_len C hC _ hw hr hs
    simp only [J.pretty, J.nodes, J.depth, List.length_append, indent_len] at *; omega
  | .arr [], L, _, _, _ => by
    simp [J.pretty, J.nodes, J.nodess, J.depth, J.depths, indent_len, J.letters, J.letterss]; omega
  | .arr (x :: xs), L, hw, hr, hs => by
    have h1 := prettyArr_len (x :: xs) L true (J.depths (x :: xs)) (Nat.le_refl _) hw hr hs
    simp only [J.pretty, J.nodes, J.depth, J.letters, List.length_append, List.length_cons, List.length_nil, indent_len, Nat.add_mul, Nat.one_mul] at *
    have := cost_mono (n := J.nodess (x :: xs)) (C := C) (b := L + 1 + 2 * J.depths (x :: xs)) (b' := L + 2 * (1 + J.depths (x :: xs))) (by omega)
    omega
  | .dict _ [], L, _, _, _ => by
    simp [J.pretty, J.nodes, J.nodesf, J.depth, J.depthf, indent_len, J.letters, J.lettersf]; omega
  | .dict _ (kv :: kvs), L, hw, hr, hs => by
    have h1 := prettyDict_len (kv :: kvs) L true (J.depthf (kv :: kvs)) (Nat.le_refl _) hw.2 hr.2 hs
    simp only [J.pretty, J.nodes, J.depth, J.letters, List.length_append, List.length_cons, List.length_nil, indent_len, Nat.add_mul, Nat.one_mul] at *
    have := cost_mono (n := J.nodesf (kv :: kvs)) (C := C) (b := L + 2 + 2 * J.depthf (kv :: kvs)) (b' := L + 2 * (1 + J.depthf (kv :: kvs))) (by omega)
    omega
theorem prettyArr_len : ∀ (xs : List J) (L : Nat) (first : Bool) (d : Nat), J.depths xs ≤ d → J.WFs xs → J.Refables xs →
    J.FloatsSats (fun x bit => (formatFloat x (floatBits bit)).length + 4 ≤ C) xs →
    (J.prettyArr xs L first).length ≤ 6 * J.letterss xs + J.nodess xs * (C + 6 * (L + 1 + 2 * d))
  | [], _, _, _, _, _, _, _ => by simp [J.prettyArr]
  | x :: xs, L, first, d, hd, hw, hr, hs => by
    unfold J.depths at hd
    have h1 := pretty_len x (L + 1) hw.1 hr.1 hs.1
    have h2 := prettyArr_len xs L false d (by omega) hw.2 hr.2 hs.2
    have h3 := cost_mono (n := x.nodes) (C := C) (b := L + 1 + 2 * x.depth) (b' := L + 1 + 2 * d) (by omega)
    cases first <;>
    simp only [J.prettyArr, J.nodess, J.letterss, List.length_cons, List.length_append, List.length_nil, Nat.add_mul, if_true, if_false, Bool.false_eq_true] <;> omega
theorem prettyDict_len : ∀ (kvs : List (Bytes × J)) (L : Nat) (first : Bool) (d : Nat), J.depthf kvs ≤ d → J.WFf kvs → J.Refablef kvs →
    J.FloatsSatf (fun x bit => (formatFloat x (floatBits bit)).length + 4 ≤ C) kvs →
    (J.prettyDict kvs L first).length ≤ 6 * J.lettersf kvs + J.nodesf kvs * (C + 6 * (L + 2 + 2 * d))
  | [], _, _, _, _, _, _, _ => by simp [J.prettyDict]
  | (k, x) :: kvs, L, first, d, hd, hw, hr, hs => by
    unfold J.depthf at hd
    unfold J.Refablef at hr
    have h1 := pretty_len x (L + 2) hw.1 hr.2.1 hs.1
    have h2 := prettyDict_len kvs L false d (by omega) hw.2 hr.2.2 hs.2
    have h3 := cost_mono (n := x.nodes) (C := C) (b := L + 2 + 2 * x.depth) (b' := L + 2 + 2 * d) (by omega)
    have h4 := toBytes_len C hC x hw.1 hr.2.1 hs.1
    have h5 := cost_ge (n := x.nodes) (C := C) (b := L + 2 + 2 * d) (nodes_pos x)
    have h6 := depth_pos x
    simp only [J.prettyDict, J.nodesf, J.lettersf, List.length_cons, List.length_append, List.length_nil, Nat.add_mul, indent_len]
    cases hx : x.isDictOrArr <;> cases first <;>
      simp only [List.length_cons, List.length_nil, if_true, if_false, Bool.false_eq_true] <;> omega
end
end

mutual
theorem wf_canonical : ∀ v : J, v.WF → v.FloatsSat fun x _ => x.Canonical
  | .null, _ => trivial
  | .bool _, _ => trivial
  | .int _, _ => trivial
  | .float _ _, h => h
  | .str _, _ => trivial
  | .ptr _, _ => trivial
  | .arr xs, h => wfs_canonical xs h
  | .dict _ kvs, h => wff_canonical kvs h.2
theorem wfs_canonical : ∀ xs : List J, J.WFs xs → J.FloatsSats (fun x _ => x.Canonical) xs
  | [], _ => trivial
  | x :: xs, h => ⟨wf_canonical x h.1, wfs_canonical xs h.2⟩
theorem wff_canonical : ∀ kvs : List (Bytes × J), J.WFf kvs → J.FloatsSatf (fun x _ => x.Canonical) kvs
  | [], _ => trivial
  | (_, x) :: kvs, h => ⟨wf_canonical x h.1, wff_canonical kvs h.2⟩
end

theorem shortOfWF (v : J) (h : v.WF) : Short 331 v :=
  floatsSat_mono (fun x b hx => by have := formatFloat_len hx (floatBits b); omega) v (wf_canonical v h)

theorem shortOfNoFloat (C : Nat) (v : J) (h : v.NoFloat) : Short C v := floatsSat_mono (fun _ _ hx => hx.elim) v h

end Jsonutils
