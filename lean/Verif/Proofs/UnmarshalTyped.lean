import Verif.Proofs.UnmarshalBase

/-! `Unmarshal` keeps types, and panics only where documented. -/

namespace Jsonutils

/-! ### Zero values and conversions have their types -/

theorem zeroIn_hasTy {D : Defs} {zs : List UV} (hz : ∀ n, n < D.length → ∃ v, zs[n]? = some v ∧ v.HasTy D (.struct n)) :
    ∀ t : Ty, t.Valid D → (t.zeroIn zs).HasTy D t
  | .bool, _ => rfl
  | .int b, h => by
    have : (0 : Int) < 2 ^ (b - 1) := Int.pow_pos (by decide)
    refine ⟨h.1, h.2, ?_, this⟩; omega
  | .uint b, h => ⟨h.1, h.2, by omega, Int.pow_pos (by decide)⟩
  | .float32, _ => .inr ⟨rfl, isF32_zero⟩
  | .float64, _ => .inl ⟨rfl, canon64_zero⟩
  | .string, _ => rfl
  | .slice _, _ => trivial
  | .array n t, h => by
    simp only [Ty.zeroIn, UV.HasTy]
    refine ⟨t, by simp, (hasTys_iff _).2 ?_⟩
    intro x hx
    rw [(List.mem_replicate.1 hx).2]
    exact zeroIn_hasTy hz t h
  | .map _, _ => trivial
  | .mapOther _, _ => trivial
  | .ptr _, _ => trivial
  | .struct n, h => by
    obtain ⟨v, h1, h2⟩ := hz n h
    simp only [Ty.zeroIn, List.getD_eq_getElem?_getD, h1, Option.getD_some]
    exact h2
  | .any, _ => trivial
  | .jobj, _ => trivial
  | .jptr _, _ => trivial
  | .jval k, _ => by cases k <;> rfl
  | .other, _ => trivial

theorem zeroIn_hasTy_below {D : Defs} {zs : List UV} {n : Nat} (hz : ∀ m, m < n → m < D.length → ∃ v, zs[m]? = some v ∧ v.HasTy D (.struct m)) :
    ∀ t : Ty, t.Valid D → t.Below n → (t.zeroIn zs).HasTy D t
  | .struct m, h, hb => by
    obtain ⟨v, h1, h2⟩ := hz m hb h
    simp only [Ty.zeroIn, List.getD_eq_getElem?_getD, h1, Option.getD_some]
    exact h2
  | .array n t, h, hb => by
    simp only [Ty.zeroIn, UV.HasTy]
    refine ⟨t, by simp, (hasTys_iff _).2 ?_⟩
    intro x hx
    rw [(List.mem_replicate.1 hx).2]
    exact zeroIn_hasTy_below hz t h hb
  | .bool, _, _ => rfl
  | .int b, h, _ => by
    have : (0 : Int) < 2 ^ (b - 1) := Int.pow_pos (by decide)
    refine ⟨h.1, h.2, ?_, this⟩; omega
  | .uint b, h, _ => ⟨h.1, h.2, by omega, Int.pow_pos (by decide)⟩
  | .float32, _, _ => .inr ⟨rfl, isF32_zero⟩
  | .float64, _, _ => .inl ⟨rfl, canon64_zero⟩
  | .string, _, _ => rfl
  | .slice _, _, _ => trivial
  | .map _, _, _ => trivial
  | .mapOther _, _, _ => trivial
  | .ptr _, _, _ => trivial
  | .any, _, _ => trivial
  | .jobj, _, _ => trivial
  | .jptr _, _, _ => trivial
  | .jval k, _, _ => by cases k <;> rfl
  | .other, _, _ => trivial

theorem zero_struct_hasTy {P : UEnv} (hP : P.Ok) : ∀ n, n < P.defs.length → (P.zero (.struct n)).HasTy P.defs (.struct n) := by
  intro n
  induction n using Nat.strongRecOn with
  | ind n ih =>
    intro hn
    obtain ⟨fs, hfs⟩ : ∃ fs, P.defs[n]? = some fs := ⟨_, List.getElem?_eq_getElem hn⟩
    rw [zero_struct hP.1 hfs]
    simp only [UV.HasTy]
    refine ⟨n, fs, rfl, hfs, (hasTyf_iff _ _).2 ⟨by simp, ?_⟩⟩
    intro q x i t hx hf
    rw [List.getElem?_map, hf] at hx
    cases hx
    have hmem : (i, t) ∈ fs := List.mem_of_getElem? hf
    refine zeroIn_hasTy_below (n := n) ?_ t (hP.2.1 n fs hfs i t hmem) (hP.1 n fs hfs i t hmem)
    intro m hm hml
    obtain ⟨gs, hgs⟩ : ∃ gs, P.defs[m]? = some gs := ⟨_, List.getElem?_eq_getElem hml⟩
    have := ih m hm hml
    have hlen : m < (zerosOf P.defs []).length := by rw [zerosOf_length]; simpa using hml
    refine ⟨_, List.getElem?_eq_getElem hlen, ?_⟩
    simp only [UEnv.zero, Ty.zeroIn, List.getD_eq_getElem?_getD, List.getElem?_eq_getElem hlen, Option.getD_some] at this
    exact this

theorem zero_hasTy {P : UEnv} (hP : P.Ok) (t : Ty) (ht : t.Valid P.defs) : (P.zero t).HasTy P.defs t := by
  refine zeroIn_hasTy ?_ t ht
  intro n hn
  have := zero_struct_hasTy hP n hn
  have hlen : n < (zerosOf P.defs []).length := by rw [zerosOf_length]; simpa using hn
  refine ⟨_, List.getElem?_eq_getElem hlen, ?_⟩
  simp only [UEnv.zero, Ty.zeroIn, List.getD_eq_getElem?_getD, List.getElem?_eq_getElem hlen, Option.getD_some] at this
  exact this

theorem alloc_hasTy {P : UEnv} (hP : P.Ok) : ∀ (t : Ty) (v : UV), t.Valid P.defs → v.HasTy P.defs t → (P.alloc t v).HasTy P.defs t
  | .ptr t, v, ht, hv => by
    cases v with
    | ptr x =>
      simp only [UV.HasTy] at hv
      obtain ⟨t', he, hx⟩ := hv
      cases he
      exact ⟨t, rfl, alloc_hasTy hP t x ht hx⟩
    | nil => exact ⟨t, rfl, alloc_hasTy hP t _ ht (zero_hasTy hP t ht)⟩
    | _ => exact ⟨t, rfl, alloc_hasTy hP t _ ht (zero_hasTy hP t ht)⟩
  | .jptr k, v, _, hv => by
    cases v with
    | nil => cases k <;> rfl
    | _ => exact hv
  | .bool, _, _, hv => hv
  | .int _, _, _, hv => hv
  | .uint _, _, _, hv => hv
  | .float32, _, _, hv => hv
  | .float64, _, _, hv => hv
  | .string, _, _, hv => hv
  | .slice _, _, _, hv => hv
  | .array _ _, _, _, hv => hv
  | .map _, _, _, hv => hv
  | .mapOther _, _, _, hv => hv
  | .struct _, _, _, hv => hv
  | .any, _, _, hv => hv
  | .jobj, _, _, hv => hv
  | .jval _, _, _, hv => hv
  | .other, _, _, hv => hv

theorem canon_widen (f g : FFmt) (h1 : f.prec ≤ g.prec) (h0 : 0 < g.prec) (h2 : f.bias + (g.prec - 1) ≤ g.bias) (h3 : f.maxE + (g.bias - f.bias) ≤ g.maxE)
    {m e : Nat} (hc : Canon f m e) : ∃ m' e', Canon g m' e' ∧ m' * 2 ^ e' * 2 ^ f.bias = m * 2 ^ e * 2 ^ g.bias := by
  by_cases hm : m = 0
  · subst hm
    exact ⟨0, 0, ⟨Nat.pow_pos (by decide), Nat.zero_le _, .inl rfl⟩, by simp⟩
  · obtain ⟨c1, c2, _⟩ := hc
    have hL : m.log2 < f.prec := (Nat.log2_lt hm).2 c1
    have hl : 2 ^ m.log2 ≤ m := Nat.log2_self_le hm
    have hu : m < 2 ^ (m.log2 + 1) := Nat.lt_log2_self
    refine ⟨m * 2 ^ (g.prec - 1 - m.log2), e + (g.bias - f.bias) - (g.prec - 1 - m.log2), ⟨?_, by omega, .inr ?_⟩, ?_⟩
    · calc m * 2 ^ (g.prec - 1 - m.log2) < 2 ^ (m.log2 + 1) * 2 ^ (g.prec - 1 - m.log2) :=
            Nat.mul_lt_mul_of_pos_right hu (Nat.pow_pos (by decide))
        _ = 2 ^ g.prec := by rw [← Nat.pow_add]; congr 1; omega
    · calc 2 ^ (g.prec - 1) = 2 ^ m.log2 * 2 ^ (g.prec - 1 - m.log2) := by rw [← Nat.pow_add]; congr 1; omega
        _ ≤ m * 2 ^ (g.prec - 1 - m.log2) := Nat.mul_le_mul_right _ hl
    · rw [Nat.mul_assoc, Nat.mul_assoc, Nat.mul_assoc, ← Nat.pow_add, ← Nat.pow_add, ← Nat.pow_add]
      congr 2; omega

theorem roundVia_spec (f g : FFmt) (hf : 0 < f.prec) (h1 : f.prec ≤ g.prec) (h0 : 0 < g.prec) (h2 : f.bias + (g.prec - 1) ≤ g.bias)
    (h3 : f.maxE + (g.bias - f.bias) ≤ g.maxE) (neg : Bool) (m e : Nat) :
    (roundPos f (m * 2 ^ e) (2 ^ g.bias) = none ∧ roundVia f g neg m e = .inf neg) ∨
    ∃ m' e' a b, roundPos f (m * 2 ^ e) (2 ^ g.bias) = some (a, b) ∧ roundVia f g neg m e = .fin neg m' e' ∧ Canon g m' e' ∧ Canon f a b ∧
      m' * 2 ^ e' * 2 ^ f.bias = a * 2 ^ b * 2 ^ g.bias := by
  unfold roundVia
  cases hr : roundPos f (m * 2 ^ e) (2 ^ g.bias) with
  | none => exact .inl ⟨rfl, rfl⟩
  | some p =>
    obtain ⟨a, b⟩ := p
    have hc := roundPos_canon f hf _ _ _ _ hr
    right
    obtain ⟨m', e', hc', heq⟩ := canon_widen f g h1 h0 h2 h3 hc
    refine ⟨m', e', a, b, rfl, ?_, hc', hc, heq⟩
    by_cases hm : m' = 0
    · subst hm
      have := canon_zero' h0 hc' rfl
      subst this
      have ha : a = 0 := by
        rcases Nat.eq_zero_or_pos a with h | h
        · exact h
        · have : 0 < a * 2 ^ b * 2 ^ g.bias := Nat.mul_pos (Nat.mul_pos h (Nat.pow_pos (by decide))) (Nat.pow_pos (by decide))
          rw [← heq] at this; simp at this
      subst ha
      simp only [Nat.zero_mul, roundPos_zeroNum g h0]
    · simp only [roundPos_exact g m' e' _ _ h0 hc' (by omega) (Nat.pow_pos (by decide)) heq.symm]

theorem roundVia_fits (f g : FFmt) (hf : 0 < f.prec) (h1 : f.prec ≤ g.prec) (h0 : 0 < g.prec) (h2 : f.bias + (g.prec - 1) ≤ g.bias)
    (h3 : f.maxE + (g.bias - f.bias) ≤ g.maxE) (neg : Bool) (m e : Nat) :
    roundVia f g neg m e = .inf neg ∨ ∃ m' e' a b, roundVia f g neg m e = .fin neg m' e' ∧ Canon g m' e' ∧ Canon f a b ∧
      m' * 2 ^ e' * 2 ^ f.bias = a * 2 ^ b * 2 ^ g.bias := by
  rcases roundVia_spec f g hf h1 h0 h2 h3 neg m e with h | ⟨m', e', a, b, _, h⟩
  · exact .inl h.2
  · exact .inr ⟨m', e', a, b, h⟩

theorem toF32_hasF32 (x : GoFloat) : (toF32 x).IsF32 := by
  cases x with
  | nan => trivial
  | inf => trivial
  | fin neg m e =>
    rcases roundVia_fits f32 f64 (by decide) (by decide) (by decide) (by decide) (by decide) neg m e with h | ⟨m', e', a, b, h, h1, h2, h3⟩
    · have : toF32 (.fin neg m e) = .inf neg := h
      rw [this]; trivial
    · have : toF32 (.fin neg m e) = .fin neg m' e' := h
      rw [this]
      exact ⟨h1, a, b, h2, h3⟩

/-! ### Results -/

/-- The result is a value of the type; if `S`, there is one. -/
def Fine (S : Prop) (D : Defs) (t : Ty) (r : URes) : Prop := (S → r ≠ none) ∧ ∀ p, r = some p → p.1.HasTy D t

theorem fine_ok {S : Prop} {D : Defs} {t : Ty} {v : UV} (h : v.HasTy D t) : Fine S D t (uok v) :=
  ⟨fun _ => by simp [uok], fun p hp => by cases hp; exact h⟩

theorem fine_err {S : Prop} {D : Defs} {t : Ty} {v : UV} {e : UErr} (h : v.HasTy D t) : Fine S D t (uerr v e) :=
  ⟨fun _ => by simp [uerr], fun p hp => by cases hp; exact h⟩

theorem fine_none {S : Prop} {D : Defs} {t : Ty} (h : ¬ S) : Fine S D t none :=
  ⟨fun hs => absurd hs h, fun p hp => by cases hp⟩

theorem fine_ptr {S : Prop} {D : Defs} {t : Ty} {r : URes} (h : Fine S D t r) : Fine S D (.ptr t) (uptr r) := by
  refine ⟨fun hs => ?_, fun p hp => ?_⟩
  · have := h.1 hs
    cases r with
    | none => exact absurd rfl this
    | some p => simp [uptr]
  · cases r with
    | none => simp [uptr] at hp
    | some q => simp only [uptr, Option.map_some, Option.some.injEq] at hp; subst hp; exact ⟨t, rfl, h.2 q rfl⟩

theorem hasTy_ptr {D : Defs} {t : Ty} {x : UV} (h : (UV.ptr x).HasTy D (.ptr t)) : x.HasTy D t := by
  obtain ⟨t', he, hx⟩ := h
  cases he; exact hx

theorem wrapI_hasTy {D : Defs} {b : Nat} (hb : (Ty.int b).Valid D) (n : Int) : (UV.int (wrapI b n)).HasTy D (.int b) :=
  ⟨hb.1, hb.2, (wrapI_bounds b hb.1 n).1, (wrapI_bounds b hb.1 n).2⟩

theorem wrapU_hasTy {D : Defs} {b : Nat} (hb : (Ty.uint b).Valid D) (n : Int) : (UV.int (wrapU b n)).HasTy D (.uint b) :=
  ⟨hb.1, hb.2, (wrapU_bounds b n).1, (wrapU_bounds b n).2⟩

theorem f64_hasTy {D : Defs} {x : GoFloat} (h : x.Canonical) : (UV.float x).HasTy D .float64 := .inl ⟨rfl, h⟩
theorem f32_hasTy {D : Defs} (x : GoFloat) : (UV.float (toF32 x)).HasTy D .float32 := .inr ⟨rfl, toF32_hasF32 x⟩

theorem unmInt_fine {S : Prop} {D : Defs} (n : Int) : ∀ (t : Ty) (v : UV), t.Valid D → v.HasTy D t → Fine S D t (unmInt n t v)
  | .bool, _, _, _ => fine_ok rfl
  | .int b, _, h, _ => fine_ok (wrapI_hasTy h n)
  | .uint b, _, h, _ => fine_ok (wrapU_hasTy h n)
  | .float32, _, _, _ => fine_ok (f32_hasTy _)
  | .float64, _, _, _ => fine_ok (f64_hasTy (floatOfInt_canon n))
  | .string, _, _, _ => fine_ok rfl
  | .ptr t, v, h, hv => by
    cases v with
    | ptr x => exact fine_ptr (unmInt_fine n t x h (hasTy_ptr hv))
    | _ => exact fine_err hv
  | .any, _, _, _ => fine_ok rfl
  | .jobj, _, _, _ => fine_ok trivial
  | .jptr k, v, _, hv => by cases k <;> first | exact fine_ok rfl | exact fine_err hv
  | .jval k, v, _, hv => by cases k <;> first | exact fine_ok hv | exact fine_err hv
  | .slice _, _, _, hv => fine_err hv
  | .array _ _, _, _, hv => fine_err hv
  | .map _, _, _, hv => fine_err hv
  | .mapOther _, _, _, hv => fine_err hv
  | .struct _, _, _, hv => fine_err hv
  | .other, _, _, hv => fine_err hv

theorem unmBool_fine {S : Prop} {D : Defs} (b : Bool) : ∀ (t : Ty) (v : UV), t.Valid D → v.HasTy D t → (S → t.NoUint) → Fine S D t (unmBool b t v)
  | .bool, _, _, _, _ => fine_ok rfl
  | .int _, _, h, _, _ => fine_ok (wrapI_hasTy h _)
  | .uint _, _, _, _, hs => fine_none fun h => (hs h).elim
  | .float32, _, _, _, _ => fine_ok (f32_hasTy _)
  | .float64, _, _, _, _ => fine_ok (f64_hasTy (floatOfInt_canon _))
  | .string, _, _, _, _ => fine_ok rfl
  | .ptr t, v, h, hv, hs => by
    cases v with
    | ptr x => exact fine_ptr (unmBool_fine b t x h (hasTy_ptr hv) hs)
    | _ => exact fine_err hv
  | .any, _, _, _, _ => fine_ok rfl
  | .jobj, _, _, _, _ => fine_ok trivial
  | .jptr k, v, _, hv, _ => by cases k <;> first | exact fine_ok rfl | exact fine_err hv
  | .jval k, v, _, hv, _ => by cases k <;> first | exact fine_ok hv | exact fine_err hv
  | .slice _, _, _, hv, _ => fine_err hv
  | .array _ _, _, _, hv, _ => fine_err hv
  | .map _, _, _, hv, _ => fine_err hv
  | .mapOther _, _, _, hv, _ => fine_err hv
  | .struct _, _, _, hv, _ => fine_err hv
  | .other, _, _, hv, _ => fine_err hv

theorem unmFloat_fine {S : Prop} {P : UEnv} {D : Defs} {f : GoFloat} (hf : f.Canonical) (bit : Nat) :
    ∀ (t : Ty) (v : UV), t.Valid D → v.HasTy D t → (S → t.NoUint) → Fine S D t (unmFloat P f bit t v)
  | .bool, _, _, _, _ => fine_ok rfl
  | .int _, _, h, _, _ => fine_ok (wrapI_hasTy h _)
  | .uint _, _, _, _, hs => fine_none fun h => (hs h).elim
  | .float32, _, _, _, _ => fine_ok (f32_hasTy _)
  | .float64, _, _, _, _ => fine_ok (f64_hasTy hf)
  | .string, _, _, _, _ => fine_ok rfl
  | .ptr t, v, h, hv, hs => by
    cases v with
    | ptr x => exact fine_ptr (unmFloat_fine hf bit t x h (hasTy_ptr hv) hs)
    | _ => exact fine_err hv
  | .any, _, _, _, _ => fine_ok rfl
  | .jobj, _, _, _, _ => fine_ok trivial
  | .jptr k, v, _, hv, _ => by cases k <;> first | exact fine_ok rfl | exact fine_err hv
  | .jval k, v, _, hv, _ => by cases k <;> first | exact fine_ok hv | exact fine_err hv
  | .slice _, _, _, hv, _ => fine_err hv
  | .array _ _, _, _, hv, _ => fine_err hv
  | .map _, _, _, hv, _ => fine_err hv
  | .mapOther _, _, _, hv, _ => fine_err hv
  | .struct _, _, _, hv, _ => fine_err hv
  | .other, _, _, hv, _ => fine_err hv

theorem backing_hasTy {D : Defs} {t : Ty} {v : UV} (h : v.HasTy D (.slice t)) : ∀ x ∈ v.backing, x.HasTy D t := by
  cases v with
  | seq xs sp =>
    obtain ⟨t', he, h1, h2⟩ := h
    cases he
    intro x hx
    rcases List.mem_append.1 hx with hx | hx
    · exact (hasTys_iff _).1 h1 x hx
    · exact (hasTys_iff _).1 h2 x hx
  | _ => intro x hx; simp [UV.backing] at hx

theorem unmStr_fine {S : Prop} {P : UEnv} (hP : P.Ok) (s : Bytes) : ∀ (t : Ty) (v : UV), t.Valid P.defs → v.HasTy P.defs t → Fine S P.defs t (unmStr P s t v)
  | .bool, _, _, _ => fine_ok rfl
  | .int b, v, h, hv => by
    simp only [unmStr]
    split
    · exact fine_ok hv
    · split
      · exact fine_ok (wrapI_hasTy h _)
      · exact fine_err hv
  | .uint b, v, h, hv => by
    simp only [unmStr]
    split
    · exact fine_ok hv
    · split
      · exact fine_ok (wrapU_hasTy h _)
      · exact fine_err hv
  | .float32, v, _, hv => by
    simp only [unmStr]
    split
    · exact fine_ok hv
    · split
      · exact fine_ok (f32_hasTy _)
      · exact fine_err hv
  | .float64, v, _, hv => by
    simp only [unmStr]
    split
    · exact fine_ok hv
    · split
      · rename_i h; exact fine_ok (f64_hasTy (parseFloat_canon h))
      · exact fine_err hv
  | .string, _, _, _ => fine_ok rfl
  | .ptr t, v, h, hv => by
    cases v with
    | ptr x => exact fine_ptr (unmStr_fine hP s t x h (hasTy_ptr hv))
    | _ => exact fine_err hv
  | .any, _, _, _ => fine_ok rfl
  | .slice t, v, h, hv => by
    have hb := backing_hasTy hv
    simp only [unmStr]
    have key : ∀ (x : UV) (r : List UV), x.HasTy P.defs t → (∀ y ∈ r, y.HasTy P.defs t) →
        Fine S P.defs (.slice t) ((unmStr P s t (P.alloc t x)).map fun p => (.seq [p.1] r, p.2)) := by
      intro x r hx hr
      have ih := unmStr_fine (S := S) hP s t (P.alloc t x) h (alloc_hasTy hP t x h hx)
      refine ⟨fun hs => ?_, fun p hp => ?_⟩
      · have := ih.1 hs
        cases hu : unmStr P s t (P.alloc t x) with
        | none => exact absurd hu this
        | some q => simp
      · cases hu : unmStr P s t (P.alloc t x) with
        | none => rw [hu] at hp; cases hp
        | some q =>
          rw [hu] at hp
          simp only [Option.map_some, Option.some.injEq] at hp
          subst hp
          exact ⟨t, rfl, ⟨ih.2 q hu, trivial⟩, (hasTys_iff _).2 hr⟩
    split
    · exact key _ [] (zero_hasTy hP t h) (by simp)
    · rename_i x r he
      rw [he] at hb
      exact key x r (hb x (List.mem_cons_self ..)) (fun y hy => hb y (List.mem_cons_of_mem _ hy))
  | .jobj, _, _, _ => fine_ok trivial
  | .jptr k, v, _, hv => by cases k <;> first | exact fine_ok rfl | exact fine_err hv
  | .jval k, v, _, hv => by cases k <;> first | exact fine_ok hv | exact fine_err hv
  | .array _ _, _, _, hv => fine_err hv
  | .map _, _, _, hv => fine_err hv
  | .mapOther _, _, _, hv => fine_err hv
  | .struct _, _, _, hv => fine_err hv
  | .other, _, _, hv => fine_err hv

/-! ### Structs -/

theorem hasTyf_set {D : Defs} {vs : List UV} {tys : List (FInfo × Ty)} (h : UV.HasTyf D vs tys) {i : Nat} {info : FInfo} {t : Ty}
    (ht : tys[i]? = some (info, t)) {v : UV} (hv : v.HasTy D t) : UV.HasTyf D (vs.set i v) tys := by
  rw [hasTyf_iff] at h ⊢
  refine ⟨by rw [List.length_set]; exact h.1, ?_⟩
  intro n x i' t' hx hf
  by_cases hn : i = n
  · subst hn
    rw [List.getElem?_set_self (by have := (List.getElem?_eq_some_iff.1 ht).1; omega)] at hx
    rw [ht] at hf
    cases hx; cases hf; exact hv
  · rw [List.getElem?_set_ne hn] at hx
    exact h.2 n x i' t' hx hf

/-- The invariants of `setStructFieldAt`. -/
def SetFine (S : Prop) (D : Defs) (tys : List (FInfo × Ty)) (U vis : List Bytes) (r : Option (List UV × List Bytes × Option UErr)) : Prop :=
  (S → r ≠ none) ∧ ∀ p, r = some p → UV.HasTyf D p.1 tys ∧ p.2.1.Nodup ∧ (∀ x ∈ p.2.1, x ∈ U) ∧ vis.length ≤ p.2.1.length

section
variable {S : Prop} {D : Defs} {idx : Bytes → List Nat} {tys : List (FInfo × Ty)} {assign : Ty → UV → URes} {U : List Bytes}
  (ha : ∀ info t v, (info, t) ∈ tys → v.HasTy D t → Fine S D t (assign t v))
  (hU : ∀ info t k, (info, t) ∈ tys → info.deprecatedBy = some k → k ∈ U)
include ha hU

theorem setLoop_fine {again : Bytes → List Bytes → List UV → Option (List UV × List Bytes × Option UErr)} {m : Nat}
    (hag : ∀ key vis vs, key ∈ U → vis.Nodup → (∀ x ∈ vis, x ∈ U) → m ≤ vis.length → UV.HasTyf D vs tys → SetFine S D tys U vis (again key vis vs)) :
    ∀ (is : List Nat) (vis : List Bytes) (vs : List UV), (∀ i ∈ is, i < tys.length) → vis.Nodup → (∀ x ∈ vis, x ∈ U) → m ≤ vis.length →
      UV.HasTyf D vs tys → SetFine S D tys U vis (setLoop tys assign again is vis vs)
  | [], vis, vs, _, hn, hs, _, hv => ⟨fun _ => by simp [setLoop], fun p hp => by
      simp only [setLoop, Option.some.injEq] at hp; subst hp; exact ⟨hv, hn, hs, Nat.le_refl _⟩⟩
  | i :: is, vis, vs, hi, hn, hs, hm, hv => by
    obtain ⟨⟨info, t⟩, hty⟩ : ∃ f, tys[i]? = some f := ⟨_, List.getElem?_eq_getElem (hi i (List.mem_cons_self ..))⟩
    have hlen := ((hasTyf_iff _ _).1 hv).1
    have hilt := hi i (List.mem_cons_self ..)
    obtain ⟨v, hvi⟩ : ∃ v, vs[i]? = some v := ⟨_, List.getElem?_eq_getElem (by omega)⟩
    have hvt := ((hasTyf_iff _ _).1 hv).2 i v info t hvi hty
    have hmem : (info, t) ∈ tys := List.mem_of_getElem? hty
    have hf := ha info t v hmem hvt
    simp only [setLoop, hty, hvi]
    cases hasg : assign t v with
    | none =>
      refine ⟨fun h => absurd hasg (hf.1 h), fun p hp => by simp at hp⟩
    | some r =>
      obtain ⟨v', e⟩ := r
      have hv' := hf.2 _ hasg
      have hset := hasTyf_set hv hty hv'
      cases e with
      | some e =>
        simp only
        exact ⟨fun _ => by simp, fun p hp => by cases hp; exact ⟨hset, hn, hs, Nat.le_refl _⟩⟩
      | none =>
        simp only
        have hrest : ∀ i ∈ is, i < tys.length := fun i h => hi i (List.mem_cons_of_mem _ h)
        cases hd : info.deprecatedBy with
        | none => exact setLoop_fine hag is vis _ hrest hn hs hm hset
        | some k =>
          simp only
          have hk := hag k vis (vs.set i v') (hU info t k hmem hd) hn hs hm hset
          cases hagr : again k vis (vs.set i v') with
          | none => exact ⟨fun h => absurd hagr (hk.1 h), fun p hp => by simp at hp⟩
          | some r =>
            obtain ⟨vs1, vis1, e⟩ := r
            obtain ⟨h1, h2, h3, h4⟩ := hk.2 _ hagr
            cases e with
            | some e => exact ⟨fun _ => by simp, fun p hp => by cases hp; exact ⟨h1, h2, h3, h4⟩⟩
            | none =>
              have ih := setLoop_fine hag is vis1 vs1 hrest h2 h3 (Nat.le_trans hm h4) h1
              refine ⟨ih.1, fun p hp => ?_⟩
              obtain ⟨g1, g2, g3, g4⟩ := ih.2 p hp
              exact ⟨g1, g2, g3, Nat.le_trans h4 g4⟩

theorem setKey_fine (hidx : ∀ k i, i ∈ idx k → i < tys.length) : ∀ (f : Nat) (key : Bytes) (vis : List Bytes) (vs : List UV), key ∈ U → vis.Nodup → (∀ x ∈ vis, x ∈ U) →
    U.length + 1 ≤ f + vis.length → UV.HasTyf D vs tys → SetFine S D tys U vis (setKey idx tys assign f key vis vs)
  | 0, key, vis, vs, _, hn, hs, hl, _ => by
    have := nodup_length_le vis U hn hs
    omega
  | f + 1, key, vis, vs, hk, hn, hs, hl, hv => by
    simp only [setKey]
    split
    · exact ⟨fun _ => by simp, fun p hp => by cases hp; exact ⟨hv, hn, hs, Nat.le_refl _⟩⟩
    · rename_i hnot
      have := setLoop_fine ha hU (m := vis.length + 1) (again := setKey idx tys assign f)
        (fun k vis' vs' h1 h2 h3 h4 h5 => setKey_fine hidx f k vis' vs' h1 h2 h3 (by omega) h5) (idx key) (key :: vis) vs (hidx key)
        (List.nodup_cons.2 ⟨hnot, hn⟩) (by
          intro x hx
          rcases List.mem_cons.1 hx with h | h
          · rw [h]; exact hk
          · exact hs x h) (by simp) hv
      refine ⟨this.1, fun p hp => ?_⟩
      obtain ⟨g1, g2, g3, g4⟩ := this.2 p hp
      exact ⟨g1, g2, g3, by simp at g4; omega⟩

end

/-! ### Documents -/

theorem resize_hasTy {P : UEnv} (hP : P.Ok) {t : Ty} (ht : t.Valid P.defs) {v : UV} (hv : v.HasTy P.defs (.slice t)) (n : Nat) :
    (P.resize t n v).1.length = n ∧ (∀ x ∈ (P.resize t n v).1, x.HasTy P.defs t) ∧ ∀ x ∈ (P.resize t n v).2, x.HasTy P.defs t := by
  have hb := backing_hasTy hv
  have fresh : (List.replicate n (P.zero t)).length = n ∧ (∀ x ∈ List.replicate n (P.zero t), x.HasTy P.defs t) ∧ ∀ x ∈ ([] : List UV), x.HasTy P.defs t :=
    ⟨by simp, fun x hx => by rw [(List.mem_replicate.1 hx).2]; exact zero_hasTy hP t ht, by simp⟩
  cases v with
  | seq xs sp =>
    simp only [UEnv.resize]
    split
    · exact fresh
    · refine ⟨by simp; omega, fun x hx => hb x (List.mem_of_mem_take hx), fun x hx => hb x (List.mem_of_mem_drop hx)⟩
  | _ => exact fresh

theorem arrInto_fine {S : Prop} {P : UEnv} (hP : P.Ok) {xs : List J} {elems : Ty → List UV → Option (List UV × Option UErr)} {t : Ty} {v : UV}
    (ht : t.Valid P.defs) (hv : v.HasTy P.defs t)
    (he : ∀ t', (t = .slice t' ∨ ∃ n, t = .array n t') → ∀ vs, vs.length = xs.length → UV.HasTys P.defs vs t' →
      (S → elems t' vs ≠ none) ∧ ∀ p, elems t' vs = some p → UV.HasTys P.defs p.1 t' ∧ p.1.length = vs.length) :
    Fine S P.defs t (arrInto P xs elems t v) := by
  cases t with
  | string => exact fine_ok rfl
  | any => exact fine_ok rfl
  | slice t =>
    simp only [arrInto]
    obtain ⟨r1, r2, r3⟩ := resize_hasTy (t := t) hP ht hv xs.length
    have := he t (.inl rfl) _ r1 ((hasTys_iff _).2 r2)
    refine ⟨fun hs => ?_, fun p hp => ?_⟩
    · cases hq : elems t (P.resize t xs.length v).1 with
      | none => exact absurd hq (this.1 hs)
      | some q => simp
    · cases hq : elems t (P.resize t xs.length v).1 with
      | none => rw [hq] at hp; cases hp
      | some q =>
        rw [hq] at hp
        simp only [Option.map_some, Option.some.injEq] at hp
        subst hp
        exact ⟨t, rfl, (this.2 q hq).1, (hasTys_iff _).2 r3⟩
  | array n t =>
    cases v with
    | arr vs =>
      simp only [UV.HasTy] at hv
      obtain ⟨t', h1, h2⟩ := hv
      cases h1
      simp only [arrInto]
      split
      · exact fine_err ⟨t, rfl, h2⟩
      · rename_i hn
        have := he t (.inr ⟨_, rfl⟩) vs (by omega) h2
        refine ⟨fun hs => ?_, fun p hp => ?_⟩
        · cases hq : elems t vs with
          | none => exact absurd hq (this.1 hs)
          | some q => simp
        · cases hq : elems t vs with
          | none => rw [hq] at hp; cases hp
          | some q =>
            rw [hq] at hp
            simp only [Option.map_some, Option.some.injEq] at hp
            subst hp
            exact ⟨t, by rw [(this.2 q hq).2], (this.2 q hq).1⟩
    | _ => exact fine_err hv
  | jobj => exact fine_ok trivial
  | jptr k => cases k <;> first | exact fine_ok rfl | exact fine_err hv
  | jval k =>
    cases k with
    | arr =>
      cases v with
      | json j => cases j <;> first | exact fine_ok rfl | exact fine_err hv
      | _ => exact fine_err hv
    | _ => exact fine_err hv
  | _ => exact fine_err hv

theorem dictInto_fine {S : Prop} {P : UEnv} {id : Int} {kvs : SMap J} {entries : Ty → SMap UV → Option (SMap UV × Option UErr)}
    {fields : Nat → List UV → Option (List UV × List UErr)} {t : Ty} {v : UV} (hv : v.HasTy P.defs t)
    (he : ∀ t', t = .map t' → ∀ m, SMap.Sorted m → UV.HasTym P.defs m t' →
      (S → entries t' m ≠ none) ∧ ∀ p, entries t' m = some p → SMap.Sorted p.1 ∧ UV.HasTym P.defs p.1 t')
    (hf : ∀ n fs vs, t = .struct n → P.defs[n]? = some fs → UV.HasTyf P.defs vs fs →
      (S → fields n vs ≠ none) ∧ ∀ p, fields n vs = some p → UV.HasTyf P.defs p.1 fs) :
    Fine S P.defs t (dictInto id kvs entries fields t v) := by
  cases t with
  | string => exact fine_ok rfl
  | any => exact fine_err hv
  | map t =>
    simp only [dictInto]
    have hm : SMap.Sorted v.entries ∧ UV.HasTym P.defs v.entries t := by
      cases v with
      | map m =>
        simp only [UV.HasTy] at hv
        obtain ⟨h1, t', h2, h3⟩ := hv
        rcases h2 with h2 | h2 <;> cases h2
        exact ⟨h1, h3⟩
      | _ => exact ⟨sorted_nil, trivial⟩
    have := he t rfl _ hm.1 hm.2
    refine ⟨fun hs => ?_, fun p hp => ?_⟩
    · cases hq : entries t v.entries with
      | none => exact absurd hq (this.1 hs)
      | some q => simp
    · cases hq : entries t v.entries with
      | none => rw [hq] at hp; cases hp
      | some q =>
        rw [hq] at hp
        simp only [Option.map_some, Option.some.injEq] at hp
        subst hp
        exact ⟨(this.2 q hq).1, t, .inl rfl, (this.2 q hq).2⟩
  | mapOther t =>
    simp only [dictInto]
    refine fine_err ?_
    cases v with
    | map m => exact hv
    | _ => exact ⟨sorted_nil, t, .inr rfl, trivial⟩
  | struct n =>
    cases v with
    | struct vs =>
      simp only [UV.HasTy] at hv
      obtain ⟨n', fs, h1, h2, h3⟩ := hv
      cases h1
      simp only [dictInto]
      have := hf n fs vs rfl h2 h3
      refine ⟨fun hs => ?_, fun p hp => ?_⟩
      · cases hq : fields n vs with
        | none => exact absurd hq (this.1 hs)
        | some q => simp
      · cases hq : fields n vs with
        | none => rw [hq] at hp; cases hp
        | some q =>
          rw [hq] at hp
          simp only [Option.map_some, Option.some.injEq] at hp
          subst hp
          exact ⟨n, fs, rfl, h2, this.2 q hq⟩
    | _ => exact fine_err hv
  | jobj => exact fine_ok trivial
  | jptr k => cases k <;> first | exact fine_ok rfl | exact fine_err hv
  | jval k =>
    cases k with
    | dict =>
      cases v with
      | json j => cases j <;> first | exact fine_ok rfl | exact fine_err hv
      | _ => exact fine_err hv
    | _ => exact fine_err hv
  | _ => exact fine_err hv

/-- Unsigned variables never meet booleans or floats. -/
def Safe (P : UEnv) (t : Ty) (nbf : Prop) : Prop := (P.NoUint ∧ t.NoUint) ∨ nbf

mutual
theorem unm_fine {S : Prop} {P : UEnv} (hP : P.Ok) : ∀ (j : J), j.WF → ∀ (t : Ty) (v : UV), t.Valid P.defs → v.HasTy P.defs t →
    (S → Safe P t j.NoBoolFloat) → Fine S P.defs t (j.unm P t v)
  | .null, _, t, v, ht, _, _ => fine_ok (zero_hasTy hP t ht)
  | .ptr _, _, t, v, _, hv, _ => fine_ok hv
  | .int n, _, t, v, ht, hv, _ => by
    simp only [J.unm]
    exact unmInt_fine n t _ ht (alloc_hasTy hP t v ht hv)
  | .bool b, _, t, v, ht, hv, hs => by
    simp only [J.unm]
    exact unmBool_fine b t _ ht (alloc_hasTy hP t v ht hv) fun h => (hs h).elim (·.2) (fun h => h.elim)
  | .float x bit, hw, t, v, ht, hv, hs => by
    simp only [J.unm]
    exact unmFloat_fine hw bit t _ ht (alloc_hasTy hP t v ht hv) fun h => (hs h).elim (·.2) (fun h => h.elim)
  | .str s, _, t, v, ht, hv, _ => by
    simp only [J.unm]
    exact unmStr_fine hP s t _ ht (alloc_hasTy hP t v ht hv)
  | .arr xs, hw, t, v, ht, hv, hs => by
    have hal := alloc_hasTy hP t v ht hv
    have core : ∀ (t : Ty) (v : UV), t.Valid P.defs → v.HasTy P.defs t → (S → Safe P t (J.arr xs).NoBoolFloat) →
        Fine S P.defs t (arrInto P xs (fun t vs => J.unms P xs t vs) t v) := by
      intro t v ht hv hs
      refine arrInto_fine hP ht hv ?_
      intro t' hc vs hl hvs
      refine unms_fine hP xs hw t' vs ?_ hvs hl ?_
      · rcases hc with rfl | ⟨_, rfl⟩ <;> exact ht
      · intro h
        refine (hs h).imp (fun h => ⟨h.1, ?_⟩) id
        rcases hc with rfl | ⟨_, rfl⟩ <;> exact h.2
    simp only [J.unm]
    split
    · rename_i t' x heq
      rw [heq] at hal
      split
      · exact fine_ptr (core t' x ht (hasTy_ptr hal) hs)
      · exact fine_err hal
    · exact core _ _ ht hal hs
  | .dict id kvs, hw, t, v, ht, hv, hs => by
    have hal := alloc_hasTy hP t v ht hv
    have core : ∀ (t : Ty) (v : UV), t.Valid P.defs → v.HasTy P.defs t → (S → Safe P t (J.dict id kvs).NoBoolFloat) →
        Fine S P.defs t (dictInto id kvs (fun t m => J.unmm P kvs t m) (fun n vs => J.unmf P kvs n vs) t v) := by
      intro t v ht hv hs
      refine dictInto_fine hv ?_ ?_
      · rintro t' rfl m hm1 hm2
        exact unmm_fine hP kvs hw.2 t' m ht hm1 hm2 fun h => (hs h).imp (fun h => ⟨h.1, h.2⟩) fun h => h
      · rintro n fs vs rfl hn hvs
        exact unmf_fine hP kvs hw.2 n fs hn vs hvs fun h => (hs h).imp (fun h => h.1) fun h => h
    simp only [J.unm]
    split
    · rename_i t' x heq
      rw [heq] at hal
      split
      · exact fine_ptr (core t' x ht (hasTy_ptr hal) hs)
      · exact fine_err hal
    · exact core _ _ ht hal hs
theorem unms_fine {S : Prop} {P : UEnv} (hP : P.Ok) : ∀ (js : List J), J.WFs js → ∀ (t : Ty) (vs : List UV), t.Valid P.defs → UV.HasTys P.defs vs t →
    vs.length = js.length → (S → Safe P t (J.NoBoolFloats js)) →
    (S → J.unms P js t vs ≠ none) ∧ ∀ p, J.unms P js t vs = some p → UV.HasTys P.defs p.1 t ∧ p.1.length = vs.length
  | [], _, t, vs, _, hv, _, _ => ⟨fun _ => by simp [J.unms], fun p hp => by
      simp only [J.unms, Option.some.injEq] at hp; subst hp; exact ⟨hv, rfl⟩⟩
  | j :: js, hw, t, [], _, _, hl, _ => by simp at hl
  | j :: js, hw, t, v :: vs, ht, hv, hl, hs => by
    have h1 := unm_fine (S := S) hP j hw.1 t v ht hv.1 fun h => (hs h).imp id (·.1)
    have h2 := unms_fine (S := S) hP js hw.2 t vs ht hv.2 (by simpa using hl) fun h => (hs h).imp id (·.2)
    simp only [J.unms]
    cases hu : j.unm P t v with
    | none => exact ⟨fun h => absurd hu (h1.1 h), fun p hp => by simp at hp⟩
    | some r =>
      obtain ⟨v', e⟩ := r
      have hv' := h1.2 _ hu
      cases e with
      | some e => exact ⟨fun _ => by simp, fun p hp => by cases hp; exact ⟨⟨hv', hv.2⟩, rfl⟩⟩
      | none =>
        simp only
        refine ⟨fun h => ?_, fun p hp => ?_⟩
        · cases hq : J.unms P js t vs with
          | none => exact absurd hq (h2.1 h)
          | some q => simp
        · cases hq : J.unms P js t vs with
          | none => rw [hq] at hp; cases hp
          | some q =>
            rw [hq] at hp
            simp only [Option.map_some, Option.some.injEq] at hp
            subst hp
            exact ⟨⟨hv', (h2.2 q hq).1⟩, by simp [(h2.2 q hq).2]⟩
theorem unmm_fine {S : Prop} {P : UEnv} (hP : P.Ok) : ∀ (kvs : List (Bytes × J)), J.WFf kvs → ∀ (t : Ty) (m : SMap UV), t.Valid P.defs → SMap.Sorted m →
    UV.HasTym P.defs m t → (S → Safe P t (J.NoBoolFloatf kvs)) →
    (S → J.unmm P kvs t m ≠ none) ∧ ∀ p, J.unmm P kvs t m = some p → SMap.Sorted p.1 ∧ UV.HasTym P.defs p.1 t
  | [], _, t, m, _, h1, h2, _ => ⟨fun _ => by simp [J.unmm], fun p hp => by
      simp only [J.unmm, Option.some.injEq] at hp; subst hp; exact ⟨h1, h2⟩⟩
  | (k, j) :: r, hw, t, m, ht, hm1, hm2, hs => by
    have h1 := unm_fine (S := S) hP j hw.1 t (P.zero t) ht (zero_hasTy hP t ht) fun h => (hs h).imp id (·.1)
    simp only [J.unmm]
    cases hu : j.unm P t (P.zero t) with
    | none => exact ⟨fun h => absurd hu (h1.1 h), fun p hp => by simp at hp⟩
    | some q =>
      obtain ⟨v', e⟩ := q
      have hv' := h1.2 _ hu
      cases e with
      | some e => exact ⟨fun _ => by simp, fun p hp => by cases hp; exact ⟨hm1, hm2⟩⟩
      | none =>
        simp only
        refine unmm_fine hP r hw.2 t _ ht (sorted_smAdd hm1 k v') ?_ fun h => (hs h).imp id (·.2)
        rw [hasTym_iff] at hm2 ⊢
        intro e he
        rcases mem_smAdd he with h | h
        · rw [h]; exact hv'
        · exact hm2 e h
theorem unmf_fine {S : Prop} {P : UEnv} (hP : P.Ok) : ∀ (kvs : List (Bytes × J)), J.WFf kvs → ∀ (n : Nat) (fs : List (FInfo × Ty)), P.defs[n]? = some fs →
    ∀ (vs : List UV), UV.HasTyf P.defs vs fs → (S → P.NoUint ∨ J.NoBoolFloatf kvs) →
    (S → J.unmf P kvs n vs ≠ none) ∧ ∀ p, J.unmf P kvs n vs = some p → UV.HasTyf P.defs p.1 fs
  | [], _, n, fs, _, vs, hv, _ => ⟨fun _ => by simp [J.unmf], fun p hp => by
      simp only [J.unmf, Option.some.injEq] at hp; subst hp; exact hv⟩
  | (k, j) :: r, hw, n, fs, hn, vs, hv, hs => by
    have hgetD : P.defs.getD n [] = fs := by simp [List.getD_eq_getElem?_getD, hn]
    have hset := setKey_fine (S := S) (D := P.defs) (idx := P.idx n) (tys := fs) (assign := fun t v => J.unm P j t v)
      (U := k :: fs.filterMap (·.1.deprecatedBy)) (by
        intro info t v hmem hvt
        refine unm_fine hP j hw.1 t v (hP.2.1 n fs hn info t hmem) hvt fun h => ?_
        exact (hs h).imp (fun h => ⟨h, h n fs hn info t hmem⟩) (·.1)) (by
        intro info t k' hmem hd
        exact List.mem_cons_of_mem _ (List.mem_filterMap.2 ⟨_, hmem, hd⟩)) (hP.2.2 n fs hn) (fs.length + 2) k [] vs (List.mem_cons_self ..)
      List.nodup_nil (by simp) (by
        have : (fs.filterMap (·.1.deprecatedBy)).length ≤ fs.length := List.length_filterMap_le ..
        simp only [List.length_cons, List.length_nil]; omega) hv
    simp only [J.unmf, hgetD]
    cases hk : setKey (P.idx n) fs (fun t v => J.unm P j t v) (fs.length + 2) k [] vs with
    | none => exact ⟨fun h => absurd hk (hset.1 h), fun p hp => by simp at hp⟩
    | some q =>
      obtain ⟨vs', vis, e⟩ := q
      have hv' := (hset.2 _ hk).1
      have ih := unmf_fine (S := S) hP r hw.2 n fs hn vs' hv' fun h => (hs h).imp id (·.2)
      simp only
      refine ⟨fun h => ?_, fun p hp => ?_⟩
      · cases hq : J.unmf P r n vs' with
        | none => exact absurd hq (ih.1 h)
        | some q => simp
      · cases hq : J.unmf P r n vs' with
        | none => rw [hq] at hp; cases hp
        | some q =>
          rw [hq] at hp
          simp only [Option.map_some, Option.some.injEq] at hp
          subst hp
          exact ih.2 q hq
end

end Jsonutils
