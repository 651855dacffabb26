import Verif.Proofs.Dict

/-! Lemmas about `Equals`, `Diff` and copies. -/

namespace Jsonutils

theorem feq_symm (x y : GoFloat) : x.feq y = y.feq x := by
  cases x <;> cases y <;> simp [GoFloat.feq, Bool.beq_comm, Bool.and_comm]

theorem feq_refl {x : GoFloat} (h : x ≠ .nan) : x.feq x = true := by
  cases x <;> simp_all [GoFloat.feq]

theorem feq_trans {x y z : GoFloat} (h1 : x.feq y = true) (h2 : y.feq z = true) : x.feq z = true := by
  cases x <;> cases y <;> cases z <;> simp_all [GoFloat.feq]
  rcases h1 with ⟨h1, h1'⟩ | ⟨⟨h1, h1'⟩, h1''⟩ <;> rcases h2 with ⟨h2, h2'⟩ | ⟨⟨h2, h2'⟩, h2''⟩ <;> simp_all

/-- The tests at equals.go:26-32 say: same key set. -/
theorem split_tests {a b : SMap J} (hb : SMap.Sorted b) :
    ((smSplit a b).1.length == 0 && (smSplit a b).2.2.2.length == 0) = true ↔
    ∀ k, (smGet a k).isSome = (smGet b k).isSome := by
  simp only [smSplit, Bool.and_eq_true, beq_iff_eq, List.length_eq_zero_iff, List.filter_eq_nil_iff, Option.isNone_iff_eq_none]
  constructor
  · rintro ⟨h1, h2⟩ k
    rw [Bool.eq_iff_iff]
    constructor
    · intro h
      obtain ⟨v, hv⟩ := Option.isSome_iff_exists.1 h
      have := h1 _ (smGet_mem hv)
      simpa [Option.isSome_iff_ne_none] using this
    · intro h
      obtain ⟨v, hv⟩ := Option.isSome_iff_exists.1 h
      have := h2 _ (smGet_mem hv)
      simpa [Option.isSome_iff_ne_none] using this
  · intro h
    refine ⟨fun e he hn => ?_, fun e he hn => ?_⟩
    · have := h e.1
      rw [hn] at this
      simp at this
      have h3 : (smGet a e.1).isSome = true := (smGet_isSome_iff a e.1).2 (List.mem_map_of_mem he)
      rw [this] at h3; simp at h3
    · have := h e.1
      rw [hn] at this
      have h3 := smGet_of_mem hb he
      rw [h3] at this
      simp at this

theorem sorted_keys_nodup {α} {m : SMap α} (h : SMap.Sorted m) : (smKeys m).Nodup := by
  unfold smKeys List.Nodup
  rw [List.pairwise_map]
  exact h.imp fun hab => blt_ne hab

theorem length_eq_of_keys {α} {a b : SMap α} (ha : SMap.Sorted a) (hb : SMap.Sorted b)
    (h : ∀ k, (smGet a k).isSome = (smGet b k).isSome) : a.length = b.length := by
  have hk : ∀ k, k ∈ smKeys a ↔ k ∈ smKeys b := fun k => by
    rw [← smGet_isSome_iff, ← smGet_isSome_iff, h]
  have := (List.perm_ext_iff_of_nodup (sorted_keys_nodup ha) (sorted_keys_nodup hb)).2 hk
  have := this.length_eq
  simpa [smKeys] using this

theorem equalsf_iff (a m : SMap J) : J.equalsf a m = true ↔
    ∀ k x y, (k, x) ∈ a → smGet m k = some y → x.equals y = true := by
  induction a with
  | nil => simp [J.equalsf]
  | cons e a ih =>
    obtain ⟨k, x⟩ := e
    simp only [J.equalsf, Bool.and_eq_true, ih]
    constructor
    · rintro ⟨h1, h2⟩ k' x' y hm hg
      rcases List.mem_cons.1 hm with h | h
      · obtain ⟨rfl, rfl⟩ := Prod.mk.inj h
        rw [hg] at h1
        exact h1
      · exact h2 k' x' y h hg
    · intro h
      refine ⟨?_, fun k' x' y hm hg => h k' x' y (List.mem_cons_of_mem _ hm) hg⟩
      split
      · rename_i y hg; exact h k x y (by simp) hg
      · rfl

theorem equals_dict_iff {i j : Int} {a b : SMap J} (ha : SMap.Sorted a) (hb : SMap.Sorted b) :
    (J.dict i a).equals (.dict j b) = true ↔ (∀ k, (smGet a k).isSome = (smGet b k).isSome) ∧
      ∀ k x y, smGet a k = some x → smGet b k = some y → x.equals y = true := by
  rw [J.equals.eq_def]
  simp only [Bool.and_eq_true, beq_iff_eq]
  constructor
  · rintro ⟨⟨⟨h1, h2⟩, h3⟩, h4⟩
    refine ⟨(split_tests hb).1 (by simp [h2, h3]), fun k x y hx hy => ?_⟩
    exact (equalsf_iff a b).1 h4 k x y (smGet_mem hx) hy
  · rintro ⟨h1, h2⟩
    have h3 := (split_tests hb).2 h1
    simp only [Bool.and_eq_true, beq_iff_eq] at h3
    refine ⟨⟨⟨length_eq_of_keys ha hb h1, h3.1⟩, h3.2⟩, ?_⟩
    exact (equalsf_iff a b).2 fun k x y hm hy => h2 k x y (smGet_of_mem ha hm) hy

theorem equalss_iff (xs ys : List J) (h : xs.length = ys.length) : J.equalss xs ys = true ↔
    ∀ (i : Nat) (x y : J), xs[i]? = some x → ys[i]? = some y → x.equals y = true := by
  induction xs generalizing ys with
  | nil => simp [J.equalss]
  | cons x xs ih =>
    cases ys with
    | nil => simp at h
    | cons y ys =>
      simp only [J.equalss, Bool.and_eq_true]
      rw [ih ys (by simpa using h)]
      constructor
      · rintro ⟨h1, h2⟩ i x' y' hx hy
        cases i with
        | zero => simp at hx hy; subst hx; subst hy; exact h1
        | succ i => exact h2 i x' y' (by simpa using hx) (by simpa using hy)
      · intro h'
        exact ⟨h' 0 x y rfl rfl, fun i x' y' hx hy => h' (i + 1) x' y' (by simpa using hx) (by simpa using hy)⟩

theorem equals_arr_iff {xs ys : List J} : (J.arr xs).equals (.arr ys) = true ↔ xs.length = ys.length ∧
    ∀ (i : Nat) (x y : J), xs[i]? = some x → ys[i]? = some y → x.equals y = true := by
  rw [J.equals.eq_def]
  simp only [Bool.and_eq_true, beq_iff_eq]
  constructor
  · rintro ⟨h1, h2⟩; exact ⟨h1, (equalss_iff xs ys h1).1 h2⟩
  · rintro ⟨h1, h2⟩; exact ⟨h1, (equalss_iff xs ys h1).2 h2⟩

/-! ### element access of the recursive predicates -/

theorem wfs_get {xs : List J} (h : J.WFs xs) {i : Nat} {x : J} (hx : xs[i]? = some x) : x.WF := by
  induction xs generalizing i with
  | nil => simp at hx
  | cons y ys ih =>
    simp only [J.WFs] at h
    cases i with
    | zero => simp at hx; subst hx; exact h.1
    | succ i => exact ih h.2 (by simpa using hx)

theorem noPtrs_get {xs : List J} (h : J.NoPtrs xs) {i : Nat} {x : J} (hx : xs[i]? = some x) : x.NoPtr := by
  induction xs generalizing i with
  | nil => simp at hx
  | cons y ys ih =>
    simp only [J.NoPtrs] at h
    cases i with
    | zero => simp at hx; subst hx; exact h.1
    | succ i => exact ih h.2 (by simpa using hx)

theorem noPtrf_get {kvs : List (Bytes × J)} (h : J.NoPtrf kvs) {k : Bytes} {x : J} (hx : (k, x) ∈ kvs) : x.NoPtr := by
  induction kvs with
  | nil => simp at hx
  | cons y ys ih =>
    obtain ⟨k', y⟩ := y
    simp only [J.NoPtrf] at h
    rcases List.mem_cons.1 hx with h' | h'
    · obtain ⟨rfl, rfl⟩ := Prod.mk.inj h'; exact h.1
    · exact ih h.2 h'

theorem floatsSats_get {P} {xs : List J} (h : J.FloatsSats P xs) {i : Nat} {x : J} (hx : xs[i]? = some x) : x.FloatsSat P := by
  induction xs generalizing i with
  | nil => simp at hx
  | cons y ys ih =>
    simp only [J.FloatsSats] at h
    cases i with
    | zero => simp at hx; subst hx; exact h.1
    | succ i => exact ih h.2 (by simpa using hx)

theorem floatsSatf_get {P} {kvs : List (Bytes × J)} (h : J.FloatsSatf P kvs) {k : Bytes} {x : J} (hx : (k, x) ∈ kvs) :
    x.FloatsSat P := by
  induction kvs with
  | nil => simp at hx
  | cons y ys ih =>
    obtain ⟨k', y⟩ := y
    simp only [J.FloatsSatf] at h
    rcases List.mem_cons.1 hx with h' | h'
    · obtain ⟨rfl, rfl⟩ := Prod.mk.inj h'; exact h.1
    · exact ih h.2 h'

/-! ### size induction -/

mutual
def J.size : J → Nat
  | .arr xs => 1 + J.sizes xs
  | .dict _ kvs => 1 + J.sizef kvs
  | _ => 1
def J.sizes : List J → Nat
  | [] => 0
  | x :: xs => 1 + x.size + J.sizes xs
def J.sizef : List (Bytes × J) → Nat
  | [] => 0
  | (_, x) :: xs => 1 + x.size + J.sizef xs
end

theorem size_get {xs : List J} {i : Nat} {x : J} (hx : xs[i]? = some x) : x.size < J.sizes xs := by
  induction xs generalizing i with
  | nil => simp at hx
  | cons y ys ih =>
    simp only [J.sizes]
    cases i with
    | zero => simp at hx; subst hx; omega
    | succ i => have := ih (i := i) (by simpa using hx); omega

theorem size_mem {kvs : List (Bytes × J)} {k : Bytes} {x : J} (hx : (k, x) ∈ kvs) : x.size < J.sizef kvs := by
  induction kvs with
  | nil => simp at hx
  | cons y ys ih =>
    obtain ⟨k', y⟩ := y
    simp only [J.sizef]
    rcases List.mem_cons.1 hx with h' | h'
    · obtain ⟨rfl, rfl⟩ := Prod.mk.inj h'; omega
    · have := ih h'; omega

/-- Induction over documents with direct access to elements and entries. -/
theorem J.ind {P : J → Prop} (null : P .null) (bool : ∀ b, P (.bool b)) (int : ∀ n, P (.int n))
    (float : ∀ x b, P (.float x b)) (str : ∀ s, P (.str s))
    (arr : ∀ xs, (∀ (i : Nat) (x : J), xs[i]? = some x → P x) → P (.arr xs))
    (dict : ∀ i kvs, (∀ k x, (k, x) ∈ kvs → P x) → P (.dict i kvs)) (ptr : ∀ i, P (.ptr i)) : ∀ v, P v := by
  intro v
  generalize hn : v.size = n
  induction n using Nat.strongRecOn generalizing v with
  | _ n ih =>
    cases v with
    | null => exact null
    | bool b => exact bool b
    | int n => exact int n
    | float x b => exact float x b
    | str s => exact str s
    | ptr i => exact ptr i
    | arr xs =>
      refine arr xs fun i x hx => ih x.size ?_ x rfl
      have := size_get hx
      simp only [J.size] at hn; omega
    | dict i kvs =>
      refine dict i kvs fun k x hx => ih x.size ?_ x rfl
      have := size_mem hx
      simp only [J.size] at hn; omega

theorem equals_iff_alike (v : J) : ∀ w, v.WF → w.WF → v.NoPtr → (v.equals w = true ↔ Alike v w) := by
  induction v using J.ind with
  | null => intro w _ _ _; cases w <;> simp [J.equals] <;> first | exact .null | (intro h; cases h)
  | bool b =>
    intro w _ _ _
    cases w with
    | bool c =>
      simp only [J.equals, beq_iff_eq]
      exact ⟨fun h => h ▸ .bool b, fun h => by cases h; rfl⟩
    | _ => simp [J.equals]; intro h; cases h
  | int b =>
    intro w _ _ _
    cases w with
    | int c =>
      simp only [J.equals, beq_iff_eq]
      exact ⟨fun h => h ▸ .int b, fun h => by cases h; rfl⟩
    | _ => simp [J.equals]; intro h; cases h
  | str b =>
    intro w _ _ _
    cases w with
    | str c =>
      simp only [J.equals, beq_iff_eq]
      exact ⟨fun h => h ▸ .str b, fun h => by cases h; rfl⟩
    | _ => simp [J.equals]; intro h; cases h
  | float x b =>
    intro w _ _ _
    cases w with
    | float y c =>
      simp only [J.equals]
      exact ⟨fun h => .float b c h, fun h => by cases h; assumption⟩
    | _ => simp [J.equals]; intro h; cases h
  | ptr i => intro w _ _ h; simp [J.NoPtr] at h
  | arr xs ih =>
    intro w hv hw hp
    cases w with
    | arr ys =>
      simp only [J.WF] at hv hw
      simp only [J.NoPtr] at hp
      rw [equals_arr_iff]
      constructor
      · rintro ⟨h1, h2⟩
        exact .arr h1 fun i x y hx hy => (ih i x hx y (wfs_get hv hx) (wfs_get hw hy) (noPtrs_get hp hx)).1 (h2 i x y hx hy)
      · intro h
        cases h with
        | arr h1 h2 =>
          exact ⟨h1, fun i x y hx hy =>
            (ih i x hx y (wfs_get hv hx) (wfs_get hw hy) (noPtrs_get hp hx)).2 (h2 i x y hx hy)⟩
    | _ => simp [J.equals]; intro h; cases h
  | dict i kvs ih =>
    intro w hv hw hp
    cases w with
    | dict j kvs2 =>
      rw [equals_dict_iff (WF_dict_sorted hv) (WF_dict_sorted hw)]
      simp only [J.NoPtr] at hp
      constructor
      · rintro ⟨h1, h2⟩
        exact .dict h1 fun k x y hx hy =>
          (ih k x (smGet_mem hx) y (wf_smGet hv hx) (wf_smGet hw hy) (noPtrf_get hp (smGet_mem hx))).1 (h2 k x y hx hy)
      · intro h
        cases h with
        | dict h1 h2 =>
          exact ⟨h1, fun k x y hx hy =>
            (ih k x (smGet_mem hx) y (wf_smGet hv hx) (wf_smGet hw hy) (noPtrf_get hp (smGet_mem hx))).2 (h2 k x y hx hy)⟩
    | _ => simp [J.equals]; intro h; cases h

theorem Alike.symm {v w : J} (h : Alike v w) : Alike w v := by
  induction h with
  | null => exact .null
  | bool b => exact .bool b
  | int n => exact .int n
  | float b c h => exact .float c b (feq_symm _ _ ▸ h)
  | str s => exact .str s
  | arr h1 _ ih => exact .arr h1.symm fun i x y hx hy => ih i y x hy hx
  | dict h1 _ ih => exact .dict (fun k => (h1 k).symm) fun k x y hx hy => ih k y x hy hx

theorem Alike.trans {v w u : J} (h : Alike v w) : Alike w u → Alike v u := by
  intro h'
  induction h generalizing u with
  | null => exact h'
  | bool b => exact h'
  | int n => exact h'
  | str s => exact h'
  | float b c h =>
    cases h' with
    | float b' c' h2 => exact .float _ _ (feq_trans h h2)
  | @arr xs ys h1 _ ih =>
    cases h' with
    | @arr _ zs h1' h2' =>
      refine .arr (h1.trans h1') fun i x z hx hz => ?_
      have hi : i < ys.length := by
        have := (List.getElem?_eq_some_iff.1 hx).1; omega
      exact ih i x ys[i] hx (List.getElem?_eq_getElem hi) (h2' i _ z (List.getElem?_eq_getElem hi) hz)
  | @dict i j a b h1 _ ih =>
    cases h' with
    | @dict _ _ _ c h1' h2' =>
      refine .dict (fun k => (h1 k).trans (h1' k)) fun k x z hx hz => ?_
      have hb : (smGet b k).isSome = true := by rw [← h1 k, hx]; rfl
      obtain ⟨y, hy⟩ := Option.isSome_iff_exists.1 hb
      exact ih k x y hx hy (h2' k y z hy hz)

theorem Alike.refl (v : J) (hp : v.NoPtr) (hn : v.NoNaN) : Alike v v := by
  induction v using J.ind with
  | null => exact .null
  | bool b => exact .bool b
  | int b => exact .int b
  | str b => exact .str b
  | float x b => exact .float b b (feq_refl (by simpa [J.NoNaN, J.FloatsSat] using hn))
  | ptr i => simp [J.NoPtr] at hp
  | arr xs ih =>
    simp only [J.NoPtr] at hp
    simp only [J.NoNaN, J.FloatsSat] at hn
    refine .arr rfl fun i x y hx hy => ?_
    rw [hx] at hy; cases hy
    exact ih i x hx (noPtrs_get hp hx) (floatsSats_get hn hx)
  | dict i kvs ih =>
    simp only [J.NoPtr] at hp
    simp only [J.NoNaN, J.FloatsSat] at hn
    refine .dict (fun _ => rfl) fun k x y hx hy => ?_
    rw [hx] at hy; cases hy
    exact ih k x (smGet_mem hx) (noPtrf_get hp (smGet_mem hx)) (floatsSatf_get hn (smGet_mem hx))

theorem plains_get {xs : List J} (h : J.Plains xs) {i : Nat} {x : J} (hx : xs[i]? = some x) : x.Plain := by
  induction xs generalizing i with
  | nil => simp at hx
  | cons y ys ih =>
    simp only [J.Plains] at h
    cases i with
    | zero => simp at hx; subst hx; exact h.1
    | succ i => exact ih h.2 (by simpa using hx)

theorem plainf_get {kvs : List (Bytes × J)} (h : J.Plainf kvs) {k : Bytes} {x : J} (hx : (k, x) ∈ kvs) : x.Plain := by
  induction kvs with
  | nil => simp at hx
  | cons y ys ih =>
    obtain ⟨k', y⟩ := y
    simp only [J.Plainf] at h
    rcases List.mem_cons.1 hx with h' | h'
    · obtain ⟨rfl, rfl⟩ := Prod.mk.inj h'; exact h.2.1
    · exact ih h.2.2 h'

theorem alike_noFloat {v w : J} (h : Alike v w) (hv : v.WF) (hw : w.WF) (hpv : v.Plain) (hpw : w.Plain) (hf : v.NoFloat) :
    v = w := by
  induction h with
  | null => rfl
  | bool b => rfl
  | int n => rfl
  | str s => rfl
  | float b c h => simp [J.NoFloat, J.FloatsSat] at hf
  | @arr xs ys h1 _ ih =>
    simp only [J.WF] at hv hw
    simp only [J.Plain] at hpv hpw
    simp only [J.NoFloat, J.FloatsSat] at hf
    congr 1
    refine List.ext_getElem h1 fun i hx hy => ?_
    have hx' := List.getElem?_eq_getElem hx
    have hy' := List.getElem?_eq_getElem hy
    exact ih i _ _ hx' hy' (wfs_get hv hx') (wfs_get hw hy') (plains_get hpv hx') (plains_get hpw hy') (floatsSats_get hf hx')
  | @dict i j a b h1 _ ih =>
    have hsa := WF_dict_sorted hv
    have hsb := WF_dict_sorted hw
    simp only [J.Plain] at hpv hpw
    simp only [J.NoFloat, J.FloatsSat] at hf
    rw [hpv.1, hpw.1]
    congr 1
    refine sorted_ext hsa hsb fun k => ?_
    have h1k := h1 k
    cases hx : smGet a k with
    | none => rw [hx] at h1k; simp at h1k; simp [h1k]
    | some x =>
      rw [hx] at h1k
      obtain ⟨y, hy⟩ := Option.isSome_iff_exists.1 h1k.symm
      rw [hy]
      congr 1
      exact ih k x y hx hy (wf_smGet hv hx) (wf_smGet hw hy) (plainf_get hpv.2 (smGet_mem hx)) (plainf_get hpw.2 (smGet_mem hy))
        (floatsSatf_get hf (smGet_mem hx))

theorem plain_noPtr (v : J) (h : v.Plain) : v.NoPtr := by
  have key : ∀ (xs : List J), (∀ (i : Nat) x, xs[i]? = some x → x.NoPtr) → J.NoPtrs xs := by
    intro xs
    induction xs with
    | nil => intro _; trivial
    | cons x xs ih => intro h; exact ⟨h 0 x rfl, ih fun i y hy => h (i + 1) y (by simpa using hy)⟩
  have key2 : ∀ (kvs : List (Bytes × J)), (∀ k x, (k, x) ∈ kvs → x.NoPtr) → J.NoPtrf kvs := by
    intro kvs
    induction kvs with
    | nil => intro _; trivial
    | cons e kvs ih => intro h; exact ⟨h e.1 e.2 (by simp), ih fun k x hx => h k x (by simp [hx])⟩
  induction v using J.ind with
  | arr xs ih =>
    simp only [J.Plain] at h
    simp only [J.NoPtr]
    exact key xs fun i x hx => ih i x hx (plains_get h hx)
  | dict i kvs ih =>
    simp only [J.Plain] at h
    simp only [J.NoPtr]
    exact key2 kvs fun k x hx => ih k x hx (plainf_get h.2 hx)
  | ptr i => exact h
  | _ => trivial

theorem floatsSat_mono {P Q : GoFloat → Nat → Prop} (hPQ : ∀ x b, P x b → Q x b) (v : J) (h : v.FloatsSat P) : v.FloatsSat Q := by
  have key : ∀ (xs : List J), (∀ (i : Nat) x, xs[i]? = some x → x.FloatsSat Q) → J.FloatsSats Q xs := by
    intro xs
    induction xs with
    | nil => intro _; trivial
    | cons x xs ih => intro h; exact ⟨h 0 x rfl, ih fun i y hy => h (i + 1) y (by simpa using hy)⟩
  have key2 : ∀ (kvs : List (Bytes × J)), (∀ k x, (k, x) ∈ kvs → x.FloatsSat Q) → J.FloatsSatf Q kvs := by
    intro kvs
    induction kvs with
    | nil => intro _; trivial
    | cons e kvs ih => intro h; exact ⟨h e.1 e.2 (by simp), ih fun k x hx => h k x (by simp [hx])⟩
  induction v using J.ind with
  | arr xs ih =>
    simp only [J.FloatsSat] at h ⊢
    exact key xs fun i x hx => ih i x hx (floatsSats_get h hx)
  | dict i kvs ih =>
    simp only [J.FloatsSat] at h ⊢
    exact key2 kvs fun k x hx => ih k x hx (floatsSatf_get h hx)
  | float x b => simp only [J.FloatsSat] at h ⊢; exact hPQ x b h
  | _ => trivial

/-! ### Diff -/

theorem diffLoop_spec (bA a dif same : SMap J) (ha : SMap.Sorted a) (hd : SMap.Sorted dif) (hs : SMap.Sorted same) (k : Bytes) :
    SMap.Sorted (diffLoop bA a dif same).1 ∧ SMap.Sorted (diffLoop bA a dif same).2 ∧
    smGet (diffLoop bA a dif same).1 k = (match smGet a k, smGet bA k with
      | some x, some y => if x.equals y then smGet dif k else some (.arr [x, y])
      | _, _ => smGet dif k) ∧
    smGet (diffLoop bA a dif same).2 k = (match smGet a k, smGet bA k with
      | some x, some y => if x.equals y then some x else smGet same k
      | _, _ => smGet same k) := by
  induction a generalizing dif same with
  | nil => simp [diffLoop, smGet, hd, hs]
  | cons e a ih =>
    obtain ⟨k', x⟩ := e
    have hc := sorted_cons.1 ha
    have hnone : k' = k → smGet a k = none := by
      rintro rfl
      exact smGet_none_of fun e he h => (blt_ne (hc.1 e he)) h.symm
    simp only [diffLoop]
    cases hy : smGet bA k' with
    | none =>
      obtain ⟨h1, h2, h3, h4⟩ := ih dif same hc.2 hd hs
      refine ⟨h1, h2, ?_, ?_⟩
      · simp only [h3, smGet]
        by_cases hk : k' = k
        · rw [hnone hk]; subst hk; simp [hy]
        · simp [hk]
      · simp only [h4, smGet]
        by_cases hk : k' = k
        · rw [hnone hk]; subst hk; simp [hy]
        · simp [hk]
    | some y =>
      simp only
      by_cases he : x.equals y = true
      · simp only [he, Bool.not_true, Bool.false_eq_true, if_false]
        obtain ⟨h1, h2, h3, h4⟩ := ih dif (smAdd same k' x) hc.2 hd (sorted_smAdd hs _ _)
        refine ⟨h1, h2, ?_, ?_⟩
        · simp only [h3, smGet]
          by_cases hk : k' = k
          · rw [hnone hk]; subst hk; simp [hy, he]
          · simp [hk]
        · simp only [h4, smGet, smGet_smAdd same hs]
          by_cases hk : k' = k
          · rw [hnone hk]; subst hk; simp [hy, he]
          · have hk2 : ¬ k = k' := fun h => hk h.symm
            simp [hk, hk2]
      · have he' : x.equals y = false := by simpa using he
        simp only [he', Bool.not_false, if_true]
        obtain ⟨h1, h2, h3, h4⟩ := ih (smAdd dif k' (.arr [x, y])) same hc.2 (sorted_smAdd hd _ _) hs
        refine ⟨h1, h2, ?_, ?_⟩
        · simp only [h3, smGet, smGet_smAdd dif hd]
          by_cases hk : k' = k
          · rw [hnone hk]; subst hk; simp [hy, he']
          · have hk2 : ¬ k = k' := fun h => hk h.symm
            simp [hk, hk2]
        · simp only [h4, smGet]
          by_cases hk : k' = k
          · rw [hnone hk]; subst hk; simp [hy, he']
          · simp [hk]

/-! ### copies -/

theorem foldl_filter_smAdd (m acc : SMap J) (p : Bytes → Bool) :
    m.foldl (fun m kv => if p kv.1 then m else smAdd m kv.1 kv.2) acc =
    (m.filter fun kv => !p kv.1).foldl (fun m kv => smAdd m kv.1 kv.2) acc := by
  induction m generalizing acc with
  | nil => rfl
  | cons e m ih =>
    by_cases h : p e.1 <;> simp [h, ih]

theorem copyExcludes_eq {m : SMap J} (h : SMap.Sorted m) (ks : List Bytes) :
    copyExcludes m ks = m.filter fun kv => !ks.contains kv.1 := by
  unfold copyExcludes
  rw [foldl_filter_smAdd, foldl_smAdd_sorted _ _ (by simpa using sorted_filter h _)]
  rfl

theorem copyIncludes_eq {m : SMap J} (h : SMap.Sorted m) (ks : List Bytes) :
    copyIncludes m ks = m.filter fun kv => ks.contains kv.1 := by
  have hh : copyIncludes m ks = m.foldl (fun m kv => if (!ks.contains kv.1) then m else smAdd m kv.1 kv.2) [] := by
    unfold copyIncludes
    congr 1
    funext m kv
    cases ks.contains kv.1 <;> rfl
  rw [hh, foldl_filter_smAdd m [] fun x => !ks.contains x, foldl_smAdd_sorted _ _ (by simpa using sorted_filter h _)]
  simp

end Jsonutils
