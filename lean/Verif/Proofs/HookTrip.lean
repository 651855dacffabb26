import Verif.Spec.HookTrip
import Verif.Proofs.Hooks
import Verif.Proofs.UnmarshalTidy

/-! `Unmarshal ∘ Marshal` through the methods of the user's types. -/

namespace Jsonutils

variable {M : Codec} {P : UEnv} {text oe : Bool} {ord : SMap Bytes → List (Bytes × Bytes)}

/-! ### Types with methods -/

theorem time_struct (hM : M.Ok) {t : Ty} (h : ∀ n, t ≠ .struct n) : M.isTime t = false := by
  cases hi : M.isTime t with
  | false => rfl
  | true => obtain ⟨n, hn⟩ := hM t hi; exact absurd hn (h n)

theorem solid_noPointer {T : Ty} (h : T.Solid) : T.NoPointer := by
  cases T <;> first | trivial | exact h

theorem solid_notNull {D : Defs} {T : Ty} (h : T.Solid) {v : UV} (hv : v.HasTy D T) : v.nullLike = false := by
  cases v with
  | nil => cases T <;> simp [UV.HasTy, Ty.Nilable] at hv <;> exact absurd h (by simp [Ty.Solid])
  | json j => cases T <;> simp [UV.HasTy] at hv <;> exact absurd h (by simp [Ty.Solid])
  | ptr x => obtain ⟨t', rfl, _⟩ := hv; exact absurd h (by simp [Ty.Solid])
  | _ => rfl

theorem method_value {T : Ty} (hT : T.NoPointer) : M.method T = match M.enc T with
    | some (false, m) => some m
    | _ => none := by
  cases T <;> first | rfl | exact absurd hT (by simp [Ty.NoPointer])

theorem method_ptr {T : Ty} (hT : T.NoPointer) : M.method (.ptr T) = (M.enc T).map fun p v => match v with
    | .ptr x => p.2 x
    | _ => none := by
  cases T <;> first | rfl | exact absurd hT (by simp [Ty.NoPointer])

theorem byPtr_of_value {T : Ty} (h : M.ByValue T) : M.ByPtr T := by
  obtain ⟨h1, ⟨m, h2⟩, h3⟩ := h
  exact ⟨h1, by rw [h2]; rfl, h3⟩

theorem direct_byValue {T : Ty} (h : M.ByValue T) : M.direct T = true := by
  obtain ⟨h1, ⟨m, h2⟩, _⟩ := h
  simp only [Codec.direct, method_value (solid_noPointer h1), h2, Option.isSome_some, Bool.or_true]

theorem direct_byPtr {T : Ty} (h : M.ByPtr T) : M.direct (.ptr T) = true := by
  obtain ⟨h1, h2, _⟩ := h
  cases he : M.enc T with
  | none => rw [he] at h2; cases h2
  | some p => simp only [Codec.direct, method_ptr (solid_noPointer h1), he, Option.map_some, Option.isSome_some, Bool.or_true]

theorem bare_not_byValue {T : Ty} (h : M.Bare T) : ¬ M.ByValue T := by
  rintro ⟨_, ⟨m, hm⟩, _⟩
  rw [h.2.1] at hm; cases hm

/-- A type, not a pointer, whose values `Marshal` does not look into. -/
theorem direct_cases (hM : M.Ok) {t : Ty} (ht : t.RoundTripsH M text) (hp : ∀ t', t ≠ .ptr t') (hd : M.direct t = true) :
    M.isTime t = true ∨ M.ByValue t := by
  have bare : M.Bare t → M.isTime t = true ∨ M.ByValue t := by
    intro hb
    cases t with
    | ptr t' => exact absurd rfl (hp t')
    | _ => simp [Codec.direct, hb.2.2, Codec.method, hb.2.1] at hd
  cases t <;> simp only [Ty.RoundTripsH] at ht
  case ptr t' => exact absurd rfl (hp t')
  case slice => exact bare ht.1
  case map => exact bare ht.1
  case array => exact ht.elim .inr fun h => bare h.1
  case float32 => exact ht.elim .inr fun h => bare h.1
  case struct => exact ht.elim .inl fun h => h.elim .inr bare
  case jobj => exact bare ht
  case jptr => exact bare ht
  all_goals exact ht.elim .inr bare

/-- A type, not a pointer, whose values it looks into. -/
theorem not_direct_cases {t : Ty} (ht : t.RoundTripsH M text) (hp : ∀ t', t ≠ .ptr t') (hd : M.direct t = false) : M.Bare t := by
  have val : ¬ M.ByValue t := fun h => by rw [direct_byValue h] at hd; cases hd
  have time : M.isTime t ≠ true := fun h => by simp [Codec.direct, h] at hd
  cases t <;> simp only [Ty.RoundTripsH] at ht
  case ptr t' => exact absurd rfl (hp t')
  case slice => exact ht.1
  case map => exact ht.1
  case array => exact ht.elim (fun h => absurd h val) fun h => h.1
  case float32 => exact ht.elim (fun h => absurd h val) fun h => h.1
  case struct => exact ht.elim (fun h => absurd h time) fun h => h.elim (fun h => absurd h val) id
  case jobj => exact ht
  case jptr => exact ht
  all_goals exact ht.elim (fun h => absurd h val) id

theorem direct_ptr (hM : M.Ok) {T : Ty} (ht : (Ty.ptr T).RoundTripsH M text) (hd : M.direct (.ptr T) = true) : M.ByPtr T := by
  have hti : M.isTime (.ptr T) = false := time_struct hM (by simp)
  simp only [Ty.RoundTripsH] at ht
  rcases ht with h | ⟨h1, h2⟩
  · exact h
  · simp only [Codec.direct, hti, Bool.false_or] at hd
    have hn : ∀ t', T ≠ .ptr t' := by rintro t' rfl; simp [Codec.method] at hd
    rcases h2 with ⟨T', k, rfl, _⟩ | ⟨h2, h3⟩
    · exact absurd rfl (hn _)
    · have hT : T.RoundTripsH M text := h1
      have hstd : M.std T = none ∨ T.NoPointer → M.std T = none := by
        intro _
        cases T with
        | jptr k => exact h1.1
        | ptr t' => exact absurd rfl (hn t')
        | _ => exact h2
      have hnt : M.isTime T = false := by
        cases T with
        | struct n => exact h3
        | _ => exact time_struct hM (by simp)
      cases hdT : M.direct T with
      | true =>
        rcases direct_cases hM hT hn hdT with h | h
        · rw [hnt] at h; cases h
        · exact byPtr_of_value h
      | false =>
        have hb := not_direct_cases hT hn hdT
        cases T with
        | ptr t' => exact absurd rfl (hn t')
        | _ => simp [Codec.method, hb.2.1] at hd

theorem direct_notNull (hM : M.Ok) {t : Ty} (ht : t.RoundTripsH M text) (hd : M.direct t = true) {v : UV} (hv : v.HasTy P.defs t) (hn : v ≠ .nil) :
    v.nullLike = false := by
  cases t with
  | ptr T =>
    have h := direct_ptr hM ht hd
    cases v with
    | nil => exact absurd rfl hn
    | ptr x =>
      obtain ⟨t', he, hx⟩ := hv
      cases he
      simp only [UV.nullLike]; exact solid_notNull h.1 hx
    | json j => simp [UV.HasTy] at hv
    | _ => rfl
  | _ =>
    rcases direct_cases hM ht (by simp) hd with h | h
    · obtain ⟨n, hn'⟩ := hM _ h
      refine solid_notNull ?_ hv
      rw [hn']; trivial
    · exact solid_notNull h.1 hv

/-! ### Emptiness -/

theorem written_empty (hd : M.direct t = true) (v : UV) (info : Option FInfo) :
    (M.written t v).Empty info ↔ (M.zeroTime t v && optEmpty info) = true := by
  simp only [Codec.written, Codec.zeroTime]
  cases hi : M.isTime t with
  | true => cases M.fmt v <;> simp [TV.Empty, Leaf.Empty]
  | false =>
    simp only [Codec.direct, hi, Bool.false_or] at hd
    cases hm : M.method t with
    | none => rw [hm] at hd; cases hd
    | some m => simp [TV.Empty, Leaf.Empty]

mutual
theorem emptyH_iff (D : Defs) : ∀ (v : UV) (t : Ty) (info : Option FInfo), (v.toTVH M D t).Empty info ↔ v.emptyH M D t info = true
  | .nil, t, info => by simp [UV.toTVH, TV.Empty, Leaf.Empty, UV.emptyH]
  | .bool b, t, info => by
    simp only [UV.toTVH, UV.emptyH]
    split
    · rename_i hd; exact written_empty hd ..
    · exact empty_iff D ..
  | .int n, t, info => by
    simp only [UV.toTVH, UV.emptyH]
    split
    · rename_i hd; exact written_empty hd ..
    · exact empty_iff D ..
  | .float x, t, info => by
    simp only [UV.toTVH, UV.emptyH]
    split
    · rename_i hd; exact written_empty hd ..
    · exact empty_iff D ..
  | .str s, t, info => by
    simp only [UV.toTVH, UV.emptyH]
    split
    · rename_i hd; exact written_empty hd ..
    · exact empty_iff D ..
  | .any s, t, info => by
    simp only [UV.toTVH, UV.emptyH]
    split
    · rename_i hd; exact written_empty hd ..
    · exact empty_iff D ..
  | .json s, t, info => by
    simp only [UV.toTVH, UV.emptyH]
    split
    · rename_i hd; exact written_empty hd ..
    · exact empty_iff D ..
  | .seq xs sp, t, info => by
    simp only [UV.toTVH, UV.emptyH]
    split
    · rename_i hd; exact written_empty hd ..
    · cases xs <;> simp [UV.toTVHs, TV.Empty]
  | .arr xs, t, info => by
    simp only [UV.toTVH, UV.emptyH]
    split
    · rename_i hd; exact written_empty hd ..
    · cases xs <;> simp [UV.toTVHs, TV.Empty]
  | .map kvs, t, info => by
    simp only [UV.toTVH, UV.emptyH]
    split
    · rename_i hd; exact written_empty hd ..
    · cases kvs with
      | nil => simp [UV.toTVHm, TV.Empty]
      | cons p r => obtain ⟨k, x⟩ := p; simp [UV.toTVHm, TV.Empty]
  | .ptr x, t, info => by
    simp only [UV.toTVH, UV.emptyH]
    split
    · rename_i hd; exact written_empty hd ..
    · simp only [TV.Empty]; exact emptyH_iff D x t.elem info
  | .struct vs, t, info => by
    simp only [UV.toTVH, UV.emptyH]
    split
    · rename_i hd; exact written_empty hd ..
    · simp only [TV.Empty, Bool.and_eq_true, emptyHf_iff D vs (t.fields D)]
theorem emptyHf_iff (D : Defs) : ∀ (vs : List UV) (fs : List (FInfo × Ty)), TV.Emptyf (UV.toTVHf M D vs fs) ↔ UV.emptyHf M D vs fs = true
  | [], fs => by simp [UV.toTVHf, TV.Emptyf, UV.emptyHf]
  | x :: xs, [] => by simp [UV.toTVHf, TV.Emptyf, UV.emptyHf]
  | x :: xs, (i, t) :: fs => by
    simp only [UV.toTVHf, TV.Emptyf, UV.emptyHf, Bool.and_eq_true, Bool.or_eq_true, emptyH_iff D x t (some i), emptyHf_iff D xs fs]
    have : i.deprecatedBy ≠ none ↔ i.deprecatedBy.isSome = true := by cases i.deprecatedBy <;> simp
    rw [this, or_assoc]
end

/-- Outside structs, only nil counts as empty. -/
theorem emptyH_none_iff (hM : M.Ok) : ∀ (v : UV) (t : Ty), v.HasTy P.defs t → t.RoundTripsH M text → v.emptyH M P.defs t none = v.nilLike := by
  intro v
  have direct : ∀ {v : UV} {t : Ty}, v.HasTy P.defs t → t.RoundTripsH M text → v ≠ .nil → M.direct t = true → false = v.nilLike := by
    intro v t hv ht hn hd
    have := direct_notNull (P := P) hM ht hd hv hn
    cases hl : v.nilLike with
    | false => rfl
    | true => rw [nil_null v hl] at this; cases this
  match v with
  | .nil => intro t _ _; rfl
  | .ptr x =>
    intro t hv ht
    obtain ⟨t', rfl, hx⟩ := hv
    simp only [UV.emptyH, Ty.elem, UV.nilLike]
    split
    · rename_i hd
      have := direct (v := .ptr x) ⟨t', rfl, hx⟩ ht (by simp) hd
      simpa [optEmpty, UV.nilLike] using this
    · rename_i hd
      simp only [Ty.RoundTripsH] at ht
      rcases ht with h | h
      · exact absurd (direct_byPtr h) hd
      · exact emptyH_none_iff hM x t' hx h.1
  | .seq _ _ => intro t hv ht; simp only [UV.emptyH]; split <;> simp [optEmpty, UV.nilLike]
  | .arr _ => intro t hv ht; simp only [UV.emptyH]; split <;> simp [optEmpty, UV.nilLike]
  | .map _ => intro t hv ht; simp only [UV.emptyH]; split <;> simp [optEmpty, UV.nilLike]
  | .struct _ => intro t hv ht; simp only [UV.emptyH]; split <;> simp [optEmpty, UV.nilLike]
  | .bool _ => intro t hv ht; simp only [UV.emptyH]; split <;> simp [optEmpty, UV.nilLike, UV.empty, optFalse]
  | .int _ => intro t hv ht; simp only [UV.emptyH]; split <;> simp [optEmpty, UV.nilLike, UV.empty, optZero]
  | .float _ => intro t hv ht; simp only [UV.emptyH]; split <;> simp [optEmpty, UV.nilLike, UV.empty, optZero]
  | .str _ => intro t hv ht; simp only [UV.emptyH]; split <;> simp [optEmpty, UV.nilLike, UV.empty]
  | .any a => intro t hv ht; simp only [UV.emptyH, empty_none_iff]; split <;> simp [optEmpty, UV.nilLike]
  | .json _ => intro t hv ht; simp only [UV.emptyH, empty_none_iff]; split <;> simp [optEmpty, UV.nilLike]
termination_by v => sizeOf v

/-! ### Documents for types without methods -/

theorem chain_bare {S : Nat → Prop} : ∀ {t : Ty}, t.ScalarChain → M.find t = none → t.Bare M.toHooks S
  | .bool, _, h => h
  | .int _, _, h => h
  | .uint _, _, h => h
  | .float32, _, h => h
  | .float64, _, h => h
  | .string, _, h => h
  | .ptr t, hs, h => chain_bare (t := t) (by simpa only [Ty.ScalarChain] using hs) h
  | .slice _, hs, _ => by simp [Ty.ScalarChain] at hs
  | .array _ _, hs, _ => by simp [Ty.ScalarChain] at hs
  | .map _, hs, _ => by simp [Ty.ScalarChain] at hs
  | .mapOther _, hs, _ => by simp [Ty.ScalarChain] at hs
  | .struct _, hs, _ => by simp [Ty.ScalarChain] at hs
  | .any, hs, _ => by simp [Ty.ScalarChain] at hs
  | .jobj, hs, _ => by simp [Ty.ScalarChain] at hs
  | .jptr _, hs, _ => by simp [Ty.ScalarChain] at hs
  | .jval _, hs, _ => by simp [Ty.ScalarChain] at hs
  | .other, hs, _ => by simp [Ty.ScalarChain] at hs

theorem chain_unmH (hM : M.Ok) {t : Ty} (hs : t.ScalarChain) (h : M.find t = none) (j : J) (v : UV) : j.unmH M.toHooks P t v = j.unm P t v :=
  unmH_bare (S := fun _ => False) hM (fun _ h => h.elim) j t v (chain_bare hs h)

theorem chain_ptr {t : Ty} (h : t.ScalarChain) : (Ty.ptr t).ScalarChain := by rw [Ty.ScalarChain.eq_def]; exact h

theorem unmH_ptr_fresh (hM : M.Ok) {j : J} {t : Ty} (hj : j.DocFor t) (hf : M.find t = none) (ht : M.Pointable t) :
    j.unmH M.toHooks P (.ptr t) (P.zero (.ptr t)) = uptr (j.unmH M.toHooks P t (P.zero t)) := by
  have hf' : M.find (.ptr t) = none := hf
  cases t with
  | slice t' =>
    cases j with
    | arr xs => simp only [J.unmH, tryStd_none hf, tryStd_none hf', alloc_ptr_zero, Ty.isSeq, if_true]
    | _ => exact absurd hj (by simp [J.DocFor, J.DocArr])
  | array n t' =>
    cases j with
    | arr xs => simp only [J.unmH, tryStd_none hf, tryStd_none hf', alloc_ptr_zero, Ty.isSeq, if_true]
    | _ => exact absurd hj (by simp [J.DocFor, J.DocArr])
  | map t' =>
    cases j with
    | dict id kvs => simp only [J.unmH, tryStd_none hf, tryStd_none hf', alloc_ptr_zero, Ty.isStructOrMap, if_true]
    | _ => exact absurd hj (by simp [J.DocFor, J.DocDict])
  | struct n =>
    cases j with
    | dict id kvs => simp only [J.unmH, tryStd_none hf, tryStd_none hf', alloc_ptr_zero, Ty.isStructOrMap, if_true]
    | _ => exact absurd hj (by simp [J.DocFor, J.DocDict])
  | _ =>
    rw [chain_unmH hM (by simpa only [Codec.Pointable] using ht) hf, chain_unmH (t := .ptr _) hM (chain_ptr (by simpa only [Codec.Pointable] using ht)) hf']
    cases j with
    | int n => simp only [J.unm, alloc_ptr_zero, unmInt]
    | bool n => simp only [J.unm, alloc_ptr_zero, unmBool]
    | float n => simp only [J.unm, alloc_ptr_zero, unmFloat]
    | str n => simp only [J.unm, alloc_ptr_zero, unmStr]
    | _ => exact absurd (chain_scalar (by simpa only [Codec.Pointable] using ht) hj) (by simp [J.DocScalar])

/-! ### Structs -/

/-- A dictionary whose keys each match one field, no field twice. -/
theorem unmHf_all (P : UEnv) (n : Nat) : ∀ (kvs : List (Bytes × J)) (vs : List UV),
    (kvs.map (·.1)).Nodup → (∀ k j k' j', (k, j) ∈ kvs → (k', j') ∈ kvs → P.idx n k = P.idx n k' → k = k') →
    (∀ k j, (k, j) ∈ kvs → ∃ i info t v w, P.idx n k = [i] ∧ (P.defs.getD n [])[i]? = some (info, t) ∧ info.deprecatedBy = none ∧ vs[i]? = some v ∧
      j.unmH M.toHooks P t v = uok w) →
    ∃ vs', J.unmHf M.toHooks P kvs n vs = some (vs', []) ∧ vs'.length = vs.length ∧
      (∀ i, (∀ k j, (k, j) ∈ kvs → P.idx n k ≠ [i]) → vs'[i]? = vs[i]?) ∧
      (∀ k j i info t v w, (k, j) ∈ kvs → P.idx n k = [i] → (P.defs.getD n [])[i]? = some (info, t) → vs[i]? = some v → j.unmH M.toHooks P t v = uok w →
        vs'[i]? = some w)
  | [], vs, _, _, _ => ⟨vs, rfl, rfl, fun _ _ => rfl, by intro k j i info t v w h; cases h⟩
  | (k, j) :: r, vs, hn, hinj, hall => by
    obtain ⟨i, info, t, v, w, h1, h2, h3, h4, h5⟩ := hall k j (List.mem_cons_self ..)
    simp only [List.map_cons, List.nodup_cons] at hn
    have hne : ∀ k' j', (k', j') ∈ r → P.idx n k' ≠ [i] := by
      intro k' j' hm he
      have := hinj k j k' j' (List.mem_cons_self ..) (List.mem_cons_of_mem _ hm) (by rw [h1, he])
      exact hn.1 (by rw [this]; exact List.mem_map_of_mem (f := (·.1)) hm)
    obtain ⟨vs', g1, g2, g3, g4⟩ := unmHf_all P n r (vs.set i w) hn.2
      (fun a b c d ha hc => hinj a b c d (List.mem_cons_of_mem _ ha) (List.mem_cons_of_mem _ hc)) (by
        intro k' j' hm
        obtain ⟨i', info', t', v', w', e1, e2, e3, e4, e5⟩ := hall k' j' (List.mem_cons_of_mem _ hm)
        refine ⟨i', info', t', v', w', e1, e2, e3, ?_, e5⟩
        rw [List.getElem?_set_ne (by intro he; subst he; exact hne k' j' hm e1)]
        exact e4)
    have hlt : i < vs.length := by
      rcases Nat.lt_or_ge i vs.length with h | h
      · exact h
      · rw [List.getElem?_eq_none h] at h4; cases h4
    refine ⟨vs', ?_, by rw [g2, List.length_set], ?_, ?_⟩
    · simp only [J.unmHf]
      rw [setKey_one h1 h2 h4 h3 h5]
      simp only [g1, Option.map_some]
    · intro i' hi'
      rw [g3 i' (fun k' j' hm => hi' k' j' (List.mem_cons_of_mem _ hm))]
      rw [List.getElem?_set_ne]
      intro he
      subst he
      exact hi' k j (List.mem_cons_self ..) h1
    · intro k' j' i' info' t' v' w' hm e1 e2 e4 e5
      rcases List.mem_cons.1 hm with hm | hm
      · cases hm
        rw [h1] at e1; cases e1
        rw [h2] at e2; cases e2
        rw [h4] at e4; cases e4
        rw [h5] at e5; cases e5
        rw [g3 i hne, List.getElem?_set_self hlt]
      · refine g4 k' j' i' info' t' v' w' hm e1 e2 ?_ e5
        rw [List.getElem?_set_ne (by intro he; subst he; exact hne k' j' hm e1)]
        exact e4


theorem seen_real {j : J} (hn : j ≠ .null) (hr : ∀ id, j ≠ .ptr id) : (j.seen text).Real := by
  cases text with
  | false => cases j <;> first | trivial | exact absurd rfl hn | exact absurd rfl (hr _)
  | true =>
    simp only [J.seen, if_true]
    cases j with
    | null => exact absurd rfl hn
    | ptr id => exact absurd rfl (hr id)
    | float x b =>
      simp only [J.reread, numberOf]
      repeat' split
      all_goals trivial
    | _ => trivial

/-- What is proved of a value: when it is null-like, and what comes back otherwise. -/
def RTstH (ord : SMap Bytes → List (Bytes × Bytes)) (oe text : Bool) (M : Codec) (P : UEnv) (v : UV) (t : Ty) : Prop :=
  ∀ o, (v.toTVH M P.defs t).mar ord oe none = some o →
    (v.nullLike = true → o = none ∨ o = some .null) ∧
    (v.nullLike = false → ∃ j, o = some j ∧ (j.seen text).Real ∧ (M.find t = none → M.isTime t = false → (j.seen text).DocFor t) ∧
      (j.seen text).unmH M.toHooks P t (P.zero t) = uok (v.normH M P oe t))

theorem rtH_leaf {v : UV} {t : Ty} {l : Leaf} {j : J} (h1 : v.toTVH M P.defs t = .leaf l) (h2 : l.marshal none oe = some j) (h3 : v.nullLike = false)
    (h0 : (j.seen text).Real) (h4 : M.find t = none → M.isTime t = false → (j.seen text).DocFor t)
    (h5 : (j.seen text).unmH M.toHooks P t (P.zero t) = uok (v.normH M P oe t)) : RTstH ord oe text M P v t := by
  intro o ho
  rw [h1] at ho
  simp only [TV.mar, Option.some.injEq] at ho
  rw [h2] at ho
  subst ho
  exact ⟨fun h => absurd h (by simp [h3]), fun _ => ⟨j, rfl, h0, h4, h5⟩⟩

/-- Values with methods. -/
theorem rt_direct (hM : M.Ok) {v : UV} {t : Ty} (hv : v.HasTy P.defs t) (hn : v ≠ .nil) (ht : t.RoundTripsH M text) (hd : M.direct t = true)
    (hw : v.toTVH M P.defs t = M.written t v) (hnorm : v.normH M P oe t = M.back P t v) (hr : M.AgreeAt P text t v) : RTstH ord oe text M P v t := by
  have hnull := direct_notNull hM ht hd hv hn
  cases hti : M.isTime t with
  | true =>
    obtain ⟨n, rfl⟩ := hM t hti
    have hback : ∀ s, (J.str s).unmH M.toHooks P (.struct n) (P.zero (.struct n)) = uok (if s = [] then P.zero (.struct n) else M.parseTime s) := by
      intro s
      simp only [J.unmH, Hooks.strVal, hti, if_true, List.isEmpty_iff]
    refine rtH_leaf (l := .time (M.fmt v)) (j := .str ((M.fmt v).getD [])) ?_ ?_ hnull ?_ ?_ ?_
    · rw [hw]; simp only [Codec.written, hti, if_true]
    · cases M.fmt v <;> simp [Leaf.marshal, marshalTime, optEmpty]
    · rw [seen_str]; trivial
    · intro _ h; rw [hti] at h; cases h
    · rw [seen_str, hback, hnorm]
      simp only [Codec.back, hti, if_true]
      cases M.fmt v <;> simp
  | false =>
    -- the value whose methods agree
    have key : ∀ (T : Ty) (k : Nat) (x : UV), T.NoPointer → t = T.ptrs k → v = x.ptrs k → M.Agree P text T x →
        (∀ m p, M.enc T = some (p, m) → ∃ m', M.method t = some m' ∧ m' v = m x) → RTstH ord oe text M P v t := by
      intro T k x hT htk hvk hag hmeth
      obtain ⟨p, m, h, s, d, h1, h2, h3, h4, h5, h6, h7⟩ := hag
      obtain ⟨m', hm', hmv⟩ := hmeth m p h1
      refine rtH_leaf (l := .std d) (j := d) ?_ rfl hnull (seen_real h5 h6) ?_ ?_
      · rw [hw]; simp only [Codec.written, hti, Bool.false_eq_true, if_false, hm', hmv, h3, stdMarshal, h4, Option.getD_some]
      · intro hf
        rw [htk, find_ptrs hT, h2] at hf; cases hf
      · rw [hnorm]
        simp only [Codec.back, hti, Bool.false_eq_true, if_false]
        subst htk
        rw [unmH_called hT h2 k _ (seen_real h5 h6) (fun _ => hti)]
        have : P.pointee T k (P.zero (T.ptrs k)) = P.zero T := by cases k <;> rfl
        rw [this, h7, hvk]
        simp only [uok, Option.map_some]
    rcases hr with h | hr
    · rw [hti] at h; cases h
    · cases t with
      | ptr T =>
        have hbp := direct_ptr hM ht hd
        cases v with
        | nil => exact absurd rfl hn
        | ptr x =>
          refine key T 1 x (solid_noPointer hbp.1) rfl rfl hr ?_
          intro m p he
          exact ⟨_, by rw [method_ptr (solid_noPointer hbp.1), he]; rfl, rfl⟩
        | json j => simp [UV.HasTy] at hv
        | int j => simp [UV.HasTy] at hv
        | _ => simp [UV.HasTy] at hv
      | _ =>
        rcases direct_cases hM ht (by simp) hd with h | h
        · rw [hti] at h; cases h
        · refine key _ 0 v (solid_noPointer h.1) rfl rfl hr ?_
          intro m p he
          obtain ⟨m', hm'⟩ := h.2.1
          rw [hm'] at he; cases he
          exact ⟨_, by rw [method_value (solid_noPointer h.1), hm'], rfl⟩

theorem bare_not_direct {t : Ty} (hb : M.Bare t) (hp : ∀ t', t ≠ .ptr t') : M.direct t = false := by
  cases t with
  | ptr t' => exact absurd rfl (hp t')
  | _ => simp [Codec.direct, hb.2.2, Codec.method, hb.2.1]

theorem struct_docH (hord : ∀ dep, (ord dep).Perm dep) {fs : List (FInfo × Ty)} (hdist : DistinctNames fs)
    (hfld : ∀ (k : Nat) (i : FInfo) (t : Ty), fs[k]? = some (i, t) → i.ignore = false → i.deprecatedBy = none) {vs : List UV} (hlen : vs.length = fs.length)
    {o : Option J} (ho : (TV.struct (UV.toTVHf M P.defs vs fs)).mar ord oe none = some o) :
    ∃ m, o = some (.dict 0 m) ∧ SMap.Sorted m ∧
      (∀ k v, smGet m k = some v ↔ ∃ (q : Nat) (y : UV) (i : FInfo) (t : Ty), vs[q]? = some y ∧ fs[q]? = some (i, t) ∧ i.ignore = false ∧ i.name = k ∧
          (y.toTVH M P.defs t).mar ord oe (some i) = some (some v)) ∧
      (∀ (q : Nat) (y : UV) (i : FInfo) (t : Ty), vs[q]? = some y → fs[q]? = some (i, t) → i.ignore = false → ∃ o, (y.toTVH M P.defs t).mar ord oe (some i) = some o) := by
  -- the tree fields
  have hts : ∀ (vs : List UV) (fs : List (FInfo × Ty)), vs.length = fs.length →
      (UV.toTVHf M P.defs vs fs).map (·.1) = fs.map (·.1) ∧
      (∀ i x, (i, x) ∈ UV.toTVHf M P.defs vs fs ↔ ∃ (k : Nat) (y : UV) (t : Ty), vs[k]? = some y ∧ fs[k]? = some (i, t) ∧ x = y.toTVH M P.defs t) := by
    intro vs
    induction vs with
    | nil =>
      intro fs h
      cases fs with
      | nil => simp [UV.toTVHf]
      | cons _ _ => simp at h
    | cons y ys ih =>
      intro fs h
      cases fs with
      | nil => simp at h
      | cons f fs =>
        obtain ⟨i, t⟩ := f
        obtain ⟨h1, h2⟩ := ih fs (by simpa using h)
        simp only [UV.toTVHf, List.map_cons, h1, true_and]
        intro i' x
        simp only [List.mem_cons]
        rw [h2]
        constructor
        · rintro (h | ⟨k, z, s, h3, h4, h5⟩)
          · cases h; exact ⟨0, y, t, rfl, rfl, rfl⟩
          · exact ⟨k + 1, z, s, by simpa using h3, by simpa using h4, h5⟩
        · rintro ⟨k, z, s, h3, h4, h5⟩
          cases k with
          | zero => simp at h3 h4; obtain ⟨rfl, rfl⟩ := h4; subst h3; left; rw [h5]
          | succ k => right; exact ⟨k, z, s, by simpa using h3, by simpa using h4, h5⟩
  obtain ⟨hmap, hmem⟩ := hts vs fs hlen
  exact struct_doc_gen hord hdist hfld (tv := fun y t => y.toTVH M P.defs t) hmap hmem ho

/-- From the fields to the struct. -/
theorem rt_structH (hord : ∀ dep, (ord dep).Perm dep) (hP : P.RoundTripsH M text) {n : Nat} {fs : List (FInfo × Ty)} (hb : M.Bare (.struct n)) (hn : P.defs[n]? = some fs) {vs : List UV}
    (hlen : vs.length = fs.length)
    (hf : ∀ (k : Nat) x i t, vs[k]? = some x → fs[k]? = some (i, t) → i.ignore = false → RTstH ord oe text M P x t) : RTstH ord oe text M P (.struct vs) (.struct n) := by
  intro o ho
  refine ⟨fun h => by simp [UV.nullLike] at h, fun _ => ?_⟩
  have hnd := bare_not_direct hb (by simp)
  have hgetD : P.defs.getD n [] = fs := by simp [List.getD_eq_getElem?_getD, hn]
  simp only [UV.toTVH, hnd, Bool.false_eq_true, if_false, Ty.fields, hgetD] at ho
  obtain ⟨hM, hD, hPf⟩ := hP
  obtain ⟨hdist, hfld⟩ := hPf n fs hn
  obtain ⟨m, rfl, hsorted, hget', htot⟩ := struct_docH hord hdist (fun k i t h1 h2 => (hfld k i t h1 h2).2.2.1) hlen ho
  -- a field that is written, and what it is read back as
  have hone : ∀ (q : Nat) (y : UV) (i : FInfo) (t : Ty), vs[q]? = some y → fs[q]? = some (i, t) → i.ignore = false → ∀ v,
      (y.toTVH M P.defs t).mar ord oe (some i) = some (some v) →
      (v.seen text).unmH M.toHooks P t (P.zero t) = uok (if y.nullLike then P.zero t else y.normH M P oe t) := by
    intro q y i t e1 e2 e3 v e4
    have := hf q y i t e1 e2 e3 (some v) (mar_info _ (some i) v (hfld q i t e2 e3).2.1 e4)
    cases hn : y.nullLike with
    | true =>
      rcases this.1 hn with h | h
      · cases h
      · cases h; simp [seen_null, J.unmH]
    | false =>
      obtain ⟨j, h1, _, _, h3⟩ := this.2 hn
      cases h1; simpa using h3
  have hzero : ∀ (q : Nat) (i : FInfo) (t : Ty), fs[q]? = some (i, t) → (fs.map fun f => P.zero f.2)[q]? = some (P.zero t) := by
    intro q i t h; rw [List.getElem?_map, h]; rfl
  have hmemget : ∀ k v, (k, v) ∈ m → smGet m k = some v := fun k v h => smGet_of_mem hsorted h
  have hM : ∀ k w, (k, w) ∈ (m.map fun p => (p.1, p.2.seen text)) → ∃ v, (k, v) ∈ m ∧ w = v.seen text := by
    intro k w h
    obtain ⟨⟨k', v⟩, h1, h2⟩ := List.mem_map.1 h
    cases h2
    exact ⟨v, h1, rfl⟩
  obtain ⟨vs', g1, g2, g3, g4⟩ := unmHf_all P n (m.map fun p => (p.1, p.2.seen text)) (fs.map fun f => P.zero f.2)
    (by rw [List.map_map]; exact sorted_keys_nodupM hsorted) (by
      intro k j k' j' hk hk' he
      obtain ⟨_, hq, rfl⟩ := hM _ _ hk
      obtain ⟨_, hq', rfl⟩ := hM _ _ hk'
      obtain ⟨q, y, i, t, e1, e2, e3, e4, e5⟩ := (hget' _ _).1 (hmemget _ _ hq)
      obtain ⟨q', y', i', t', e1', e2', e3', e4', e5'⟩ := (hget' _ _).1 (hmemget _ _ hq')
      subst e4; subst e4'
      rw [(hfld q i t e2 e3).2.2.2, (hfld q' i' t' e2' e3').2.2.2] at he
      cases he
      rw [e2] at e2'; cases e2'; rfl) (by
      intro k v hk
      obtain ⟨v, hq, rfl⟩ := hM _ _ hk
      obtain ⟨q, y, i, t, e1, e2, e3, e4, e5⟩ := (hget' _ _).1 (hmemget _ _ hq)
      subst e4
      exact ⟨q, i, t, P.zero t, _, (hfld q i t e2 e3).2.2.2, by rw [hgetD]; exact e2, (hfld q i t e2 e3).2.2.1, hzero q i t e2, hone q y i t e1 e2 e3 v e5⟩)
  refine ⟨_, rfl, by rw [seen_dict]; trivial, fun _ _ => by rw [seen_dict]; trivial, ?_⟩
  rw [seen_dict]
  have hall : (J.dict 0 (m.map fun p => (p.1, p.2.seen text))).unmH M.toHooks P (.struct n) (P.zero (.struct n)) = uok (.struct (M.after n vs')) := by
    rw [zero_struct hD hn]
    have hf : M.find (.struct n) = none := hb.1
    simp only [J.unmH, tryStd_none hf, UEnv.alloc, dictInto, g1, Option.map_some, List.isEmpty_nil, if_true, uok]
  rw [hall]
  simp only [UV.normH, hnd, Bool.false_eq_true, if_false, Ty.fields, hgetD]
  congr 3
  -- pointwise
  have hnf : ∀ (vs : List UV) (fs : List (FInfo × Ty)), vs.length = fs.length → (UV.normHf M P oe vs fs).length = fs.length ∧
      ∀ (q : Nat) y i t, vs[q]? = some y → fs[q]? = some (i, t) → (UV.normHf M P oe vs fs)[q]? =
        some (if i.ignore || y.nullLike || (oe && UV.emptyH M P.defs y t (some i)) then P.zero t else UV.normH M P oe y t) := by
    intro vs
    induction vs with
    | nil =>
      intro fs h
      cases fs with
      | nil => simp [UV.normHf]
      | cons _ _ => simp at h
    | cons y ys ih =>
      intro fs h
      cases fs with
      | nil => simp at h
      | cons f fs =>
        obtain ⟨i, t⟩ := f
        obtain ⟨h1, h2⟩ := ih fs (by simpa using h)
        simp only [UV.normHf, List.length_cons, h1, true_and]
        intro q z i' t' hz hf
        cases q with
        | zero => simp at hz hf; obtain ⟨rfl, rfl⟩ := hf; subst hz; rfl
        | succ q => simpa using h2 q z i' t' (by simpa using hz) (by simpa using hf)
  obtain ⟨hl, hnf⟩ := hnf vs fs hlen
  apply List.ext_getElem?
  intro q
  rcases Nat.lt_or_ge q fs.length with hq | hq
  · obtain ⟨⟨i, t⟩, e2⟩ : ∃ f, fs[q]? = some f := ⟨_, List.getElem?_eq_getElem hq⟩
    obtain ⟨y, e1⟩ : ∃ y, vs[q]? = some y := ⟨_, List.getElem?_eq_getElem (by omega)⟩
    rw [hnf q y i t e1 e2]
    -- is the field written?
    by_cases hw : ∃ v, i.ignore = false ∧ (y.toTVH M P.defs t).mar ord oe (some i) = some (some v)
    · obtain ⟨v, e3, e5⟩ := hw
      have hk := (hget' i.name v).2 ⟨q, y, i, t, e1, e2, e3, rfl, e5⟩
      rw [g4 i.name (v.seen text) q i t (P.zero t) _ (List.mem_map_of_mem (f := fun p : Bytes × J => (p.1, p.2.seen text)) (smGet_mem hk)) (hfld q i t e2 e3).2.2.2 (by rw [hgetD]; exact e2) (hzero q i t e2) (hone q y i t e1 e2 e3 v e5)]
      have hne : (oe && UV.emptyH M P.defs y t (some i)) = false := by
        have := mar_none_iff _ _ _ e5
        rw [emptyH_iff] at this
        simp only [reduceCtorEq, false_iff, not_and, Bool.not_eq_true] at this
        cases oe with
        | false => rfl
        | true => simp [this rfl]
      rw [hne, e3]; simp
    · have hno : ∀ k j, (k, j) ∈ (m.map fun p => (p.1, p.2.seen text)) → P.idx n k ≠ [q] := by
        intro k j hk he
        obtain ⟨j, hq, rfl⟩ := hM _ _ hk
        obtain ⟨q', y', i', t', e1', e2', e3', e4', e5'⟩ := (hget' _ _).1 (hmemget _ _ hq)
        subst e4'
        rw [(hfld q' i' t' e2' e3').2.2.2] at he
        cases he
        rw [e1] at e1'; cases e1'
        rw [e2] at e2'; cases e2'
        exact hw ⟨j, e3', e5'⟩
      rw [g3 q hno, hzero q i t e2]
      cases hi : i.ignore with
      | true => simp
      | false =>
        obtain ⟨o, ho'⟩ := htot q y i t e1 e2 hi
        cases o with
        | some v => exact absurd ⟨v, hi, ho'⟩ hw
        | none =>
          have := (mar_none_iff _ _ _ ho').1 rfl
          rw [emptyH_iff] at this
          simp [this.1, this.2]
  · rw [List.getElem?_eq_none (by rw [g2]; simpa using hq), List.getElem?_eq_none (by omega)]


mutual
theorem rtH (hord : ∀ dep, (ord dep).Perm dep) (hP : P.RoundTripsH M text) : ∀ (v : UV) (t : Ty), v.HasTy P.defs t → t.RoundTripsH M text →
    v.RestorableH M P oe text t → RTstH ord oe text M P v t
  | .nil, t, hv, ht, hr => by
    intro o ho
    simp only [UV.toTVH, TV.mar, Leaf.marshal, Option.some.injEq] at ho
    refine ⟨fun _ => ?_, fun h => by simp [UV.nullLike] at h⟩
    cases oe <;> simp at ho <;> simp [← ho]
  | .bool b, t, hv, ht, hr => by
    by_cases hd : M.direct t = true
    · exact rt_direct hP.1 hv (by simp) ht hd (by simp only [UV.toTVH, hd, if_true]) (by simp only [UV.normH, hd, if_true]) (by simpa only [UV.RestorableH, hd, if_true] using hr)
    have hd : M.direct t = false := by simpa using hd
    simp only [UV.HasTy] at hv; subst hv
    have hb := not_direct_cases ht (by simp) hd
    refine rtH_leaf (l := .bool b) (j := .bool b) (by simp only [UV.toTVH, hd, Bool.false_eq_true, if_false, UV.toTV])
      (by simp [Leaf.marshal, marshalBoolean, optFalse, optForce]) rfl (by rw [seen_bool]; trivial) (fun _ _ => by rw [seen_bool]; trivial) ?_
    rw [chain_unmH (t := .bool) hP.1 trivial hb.1, seen_bool]
    simp only [UV.normH, hd, Bool.false_eq_true, if_false]
    rfl
  | .int n, t, hv, ht, hr => by
    by_cases hd : M.direct t = true
    · exact rt_direct hP.1 hv (by simp) ht hd (by simp only [UV.toTVH, hd, if_true]) (by simp only [UV.normH, hd, if_true]) (by simpa only [UV.RestorableH, hd, if_true] using hr)
    have hd : M.direct t = false := by simpa using hd
    simp only [UV.HasTy] at hv
    have hc : t.ScalarChain := by cases t <;> simp only at hv <;> trivial
    have hb := not_direct_cases ht (by rintro t' rfl; simp at hv) hd
    have hf : M.find t = none := by cases t <;> simp only at hv <;> exact hb.1
    refine rtH_leaf (l := .int (wrapI 64 n)) (j := .int (wrapI 64 n)) (by simp only [UV.toTVH, hd, Bool.false_eq_true, if_false, UV.toTV])
      (by simp [Leaf.marshal, marshalInt64, optZero, optForce, newInt]) rfl (by rw [seen_int]; trivial) ?_ ?_
    · intro _ _; rw [seen_int]; cases t <;> simp only at hv <;> trivial
    · rw [chain_unmH hP.1 hc hf, seen_int]
      cases t with
      | int b =>
        simp only at hv
        simp only [J.unm, UEnv.alloc, unmInt, UV.normH, hd, Bool.false_eq_true, if_false, wrapI_back b hv.1 hv.2.1 n hv.2.2.1 hv.2.2.2]
      | uint b =>
        simp only at hv
        simp only [J.unm, UEnv.alloc, unmInt, UV.normH, hd, Bool.false_eq_true, if_false, wrapU_back b hv.2.1 n hv.2.2.1 hv.2.2.2]
      | _ => simp only at hv
  | .float x, t, hv, ht, hr => by
    by_cases hd : M.direct t = true
    · exact rt_direct hP.1 hv (by simp) ht hd (by simp only [UV.toTVH, hd, if_true]) (by simp only [UV.normH, hd, if_true]) (by simpa only [UV.RestorableH, hd, if_true] using hr)
    have hd : M.direct t = false := by simpa using hd
    simp only [UV.HasTy] at hv
    simp only [UV.RestorableH, hd, Bool.false_eq_true, if_false] at hr
    rcases hv with ⟨rfl, hc⟩ | ⟨rfl, hc⟩
    · have hb := not_direct_cases ht (by simp) hd
      refine rtH_leaf (l := .float64 x) (j := .float x 64) (by simp only [UV.toTVH, hd, Bool.false_eq_true, if_false, UV.toTV])
        (by simp [Leaf.marshal, marshalFloat64, optZero, optForce, newFloat64]) rfl (seen_real (by simp) (by simp))
        (fun _ _ => (seen_float (P := P) x hc hr .nil).2) ?_
      rw [chain_unmH (t := .float64) hP.1 trivial hb.1]
      simp only [UV.normH, hd, Bool.false_eq_true, if_false]
      exact (seen_float x hc hr _).1
    · have hb := not_direct_cases ht (by simp) hd
      simp only [Ty.RoundTripsH] at ht
      have ht : text = false := by
        rcases ht with h | h
        · rw [direct_byValue h] at hd; cases hd
        · exact h.2
      subst ht
      refine rtH_leaf (l := .float32 x) (j := .float x 32) (by simp only [UV.toTVH, hd, Bool.false_eq_true, if_false, UV.toTV])
        (by simp [Leaf.marshal, marshalFloat32, optZero, optForce, newFloat32]) rfl (seen_real (by simp) (by simp)) (fun _ _ => trivial) ?_
      rw [chain_unmH (t := .float32) hP.1 trivial hb.1]
      simp only [J.seen, Bool.false_eq_true, if_false, J.unm, UEnv.alloc, unmFloat, UV.normH, hd, toF32_isF32 x hc]
  | .str s, t, hv, ht, hr => by
    by_cases hd : M.direct t = true
    · exact rt_direct hP.1 hv (by simp) ht hd (by simp only [UV.toTVH, hd, if_true]) (by simp only [UV.normH, hd, if_true]) (by simpa only [UV.RestorableH, hd, if_true] using hr)
    have hd : M.direct t = false := by simpa using hd
    simp only [UV.HasTy] at hv; subst hv
    have hb := not_direct_cases ht (by simp) hd
    refine rtH_leaf (l := .str s) (j := .str s) (by simp only [UV.toTVH, hd, Bool.false_eq_true, if_false, UV.toTV])
      (by simp [Leaf.marshal, marshalString, optEmpty]) rfl (by rw [seen_str]; trivial) (fun _ _ => by rw [seen_str]; trivial) ?_
    rw [chain_unmH (t := .string) hP.1 trivial hb.1, seen_str]
    simp only [UV.normH, hd, Bool.false_eq_true, if_false]
    rfl
  | .seq xs sp, t, hv, ht, hr => by
    by_cases hd : M.direct t = true
    · exact rt_direct hP.1 hv (by simp) ht hd (by simp only [UV.toTVH, hd, if_true]) (by simp only [UV.normH, hd, if_true]) (by simpa only [UV.RestorableH, hd, if_true] using hr)
    have hd : M.direct t = false := by simpa using hd
    simp only [UV.HasTy] at hv
    obtain ⟨t', rfl, h1, _⟩ := hv
    have hb := not_direct_cases ht (by simp) hd
    have hf : M.find (.slice t') = none := hb.1
    simp only [UV.RestorableH, hd, Bool.false_eq_true, if_false, Ty.elem] at hr
    intro o ho
    refine ⟨fun h => by simp [UV.nullLike] at h, fun _ => ?_⟩
    simp only [UV.toTVH, hd, Bool.false_eq_true, if_false, Ty.elem, TV.mar] at ho
    rw [if_neg (by simp [optEmpty])] at ho
    split at ho
    · cases ho
    · rename_i ys hys
      cases ho
      obtain ⟨g1, g2⟩ := rtHs hord hP xs t' h1 (by simp only [Ty.RoundTripsH] at ht; exact ht.2) hr ys hys
      refine ⟨.arr ys, by simp [forceJ, optForce], by rw [seen_arr]; trivial, fun _ _ => by rw [seen_arr]; trivial, ?_⟩
      rw [seen_arr]
      simp only [J.unmH, tryStd_none hf, UEnv.alloc, arrInto, UV.normH, hd, Bool.false_eq_true, if_false, Ty.elem]
      have hz : P.zero (.slice t') = .nil := rfl
      simp only [hz, UEnv.resize, List.length_map, g2, Option.map_some, uok]
  | .arr xs, t, hv, ht, hr => by
    by_cases hd : M.direct t = true
    · exact rt_direct hP.1 hv (by simp) ht hd (by simp only [UV.toTVH, hd, if_true]) (by simp only [UV.normH, hd, if_true]) (by simpa only [UV.RestorableH, hd, if_true] using hr)
    have hd : M.direct t = false := by simpa using hd
    simp only [UV.HasTy] at hv
    obtain ⟨t', rfl, h1⟩ := hv
    have hb := not_direct_cases ht (by simp) hd
    have hf : M.find (.array xs.length t') = none := hb.1
    simp only [UV.RestorableH, hd, Bool.false_eq_true, if_false, Ty.elem] at hr
    intro o ho
    refine ⟨fun h => by simp [UV.nullLike] at h, fun _ => ?_⟩
    simp only [UV.toTVH, hd, Bool.false_eq_true, if_false, Ty.elem, TV.mar] at ho
    rw [if_neg (by simp [optEmpty])] at ho
    split at ho
    · cases ho
    · rename_i ys hys
      cases ho
      obtain ⟨g1, g2⟩ := rtHs hord hP xs t' h1 (by
        simp only [Ty.RoundTripsH] at ht
        exact ht.elim (fun h => absurd h (bare_not_byValue hb)) fun h => h.2) hr ys hys
      refine ⟨.arr ys, by simp [forceJ, optForce], by rw [seen_arr]; trivial, fun _ _ => by rw [seen_arr]; trivial, ?_⟩
      rw [seen_arr]
      simp only [J.unmH, tryStd_none hf, UEnv.alloc, zero_array, arrInto, UV.normH, hd, Bool.false_eq_true, if_false, Ty.elem, List.length_map, g1, ne_eq, not_true_eq_false]
      rw [g1] at g2
      simp only [g2, Option.map_some, uok]
  | .map kvs, t, hv, ht, hr => by
    by_cases hd : M.direct t = true
    · exact rt_direct hP.1 hv (by simp) ht hd (by simp only [UV.toTVH, hd, if_true]) (by simp only [UV.normH, hd, if_true]) (by simpa only [UV.RestorableH, hd, if_true] using hr)
    have hd : M.direct t = false := by simpa using hd
    simp only [UV.HasTy] at hv
    obtain ⟨hs, t', ht', h1⟩ := hv
    rcases ht' with rfl | rfl
    · have hb := not_direct_cases ht (by simp) hd
      have hf : M.find (.map t') = none := hb.1
      simp only [UV.RestorableH, hd, Bool.false_eq_true, if_false, Ty.elem] at hr
      intro o ho
      refine ⟨fun h => by simp [UV.nullLike] at h, fun _ => ?_⟩
      simp only [UV.toTVH, hd, Bool.false_eq_true, if_false, Ty.elem, TV.mar] at ho
      rw [if_neg (by simp [optEmpty])] at ho
      split at ho
      · cases ho
      · rename_i ps hps
        cases ho
        obtain ⟨g1, g2, g3⟩ := rtHm hord hP kvs t' h1 (by simp only [Ty.RoundTripsH] at ht; exact ht.2) hr ps hps
        have hsub : SMap.Sorted (UV.normHm M P oe kvs t') := by
          have hk : (kvs.map (·.1)).Pairwise (fun a b => blt a b = true) := List.pairwise_map.2 hs
          exact List.pairwise_map.1 (hk.sublist g2)
        have hsp : SMap.Sorted ps := by
          have : (ps.map (·.1)).Pairwise (fun a b => blt a b = true) := by rw [g1]; exact List.pairwise_map.2 hsub
          exact List.pairwise_map.1 this
        have hpd : ∀ {α : Type} (l : SMap α), SMap.Sorted l → pairsDict l = l := by
          intro α l hl
          have := foldl_smAdd_sorted l [] (by simpa using hl)
          simpa [pairsDict] using this
        refine ⟨.dict 0 ps, by simp [forceJ, optForce, hpd ps hsp], by rw [seen_dict]; trivial, fun _ _ => by rw [seen_dict]; trivial, ?_⟩
        rw [seen_dict]
        have hz : P.zero (.map t') = .nil := rfl
        simp only [J.unmH, tryStd_none hf, UEnv.alloc, dictInto, hz, UV.entries, UV.normH, hd, Bool.false_eq_true, if_false, Ty.elem, g3, Option.map_some, uok]
        have := hpd _ hsub
        unfold pairsDict at this
        rw [this]
    · exact absurd ht (by simp [Ty.RoundTripsH])
  | .ptr x, t, hv, ht, hr => by
    by_cases hd : M.direct t = true
    · exact rt_direct hP.1 hv (by simp) ht hd (by simp only [UV.toTVH, hd, if_true]) (by simp only [UV.normH, hd, if_true]) (by simpa only [UV.RestorableH, hd, if_true] using hr)
    have hd : M.direct t = false := by simpa using hd
    simp only [UV.HasTy] at hv
    obtain ⟨t', rfl, h1⟩ := hv
    simp only [UV.RestorableH, hd, Bool.false_eq_true, if_false, Ty.elem] at hr
    have ht2 : ¬ M.ByPtr t' := fun h => by rw [direct_byPtr h] at hd; cases hd
    simp only [Ty.RoundTripsH] at ht
    rcases ht with ht | ht
    · exact absurd ht ht2
    have ih := rtH hord hP x t' h1 ht.1 hr
    intro o ho
    simp only [UV.toTVH, hd, Bool.false_eq_true, if_false, Ty.elem, TV.mar] at ho
    obtain ⟨g1, g2⟩ := ih o ho
    simp only [UV.nullLike]
    refine ⟨g1, fun h => ?_⟩
    obtain ⟨j, e1, e0, e2, e3⟩ := g2 h
    have hfresh : (j.seen text).unmH M.toHooks P (.ptr t') (P.zero (.ptr t')) = uptr ((j.seen text).unmH M.toHooks P t' (P.zero t')) ∧
        (M.find (.ptr t') = none → (j.seen text).DocFor t') := by
      rcases ht.2 with ⟨T, k, rfl, hT⟩ | ⟨hf, hs⟩
      · have hp := solid_noPointer hT.1
        obtain ⟨h, hh⟩ := Option.isSome_iff_exists.1 hT.2.2
        refine ⟨?_, ?_⟩
        · have a := unmH_called (P := P) hp hh (k + 2) _ e0 (fun _ => time_struct hP.1 (by simp [Ty.ptrs])) (P.zero (T.ptrs (k + 2)))
          have b := unmH_called (P := P) hp hh (k + 1) _ e0 (fun _ => time_struct hP.1 (by simp [Ty.ptrs])) (P.zero (T.ptrs (k + 1)))
          have c : P.pointee T (k + 2) (P.zero (T.ptrs (k + 2))) = P.zero T := rfl
          have d : P.pointee T (k + 1) (P.zero (T.ptrs (k + 1))) = P.zero T := rfl
          rw [c] at a; rw [d] at b
          have a' : (j.seen text).unmH M.toHooks P (.ptr (T.ptrs (k + 1))) (P.zero (.ptr (T.ptrs (k + 1)))) = _ := a
          rw [a', b]
          cases h (j.seen text).toBytes (P.zero T) <;> rfl
        · intro hf
          have : M.find (T.ptrs (k + 2)) = none := hf
          rw [find_ptrs hp, hh] at this; cases this
      · have hti : M.isTime t' = false := by
          cases t' with
          | struct n => exact hs
          | _ => exact time_struct hP.1 (by simp)
        exact ⟨unmH_ptr_fresh hP.1 (e2 hf hti) hf hs, fun _ => e2 hf hti⟩
    refine ⟨j, e1, e0, fun hf _ => by simpa only [J.DocFor] using hfresh.2 hf, ?_⟩
    rw [hfresh.1, e3]
    simp only [uptr, uok, Option.map_some, UV.normH, hd, Bool.false_eq_true, if_false, Ty.elem]
  | .struct vs, t, hv, ht, hr => by
    by_cases hd : M.direct t = true
    · exact rt_direct hP.1 hv (by simp) ht hd (by simp only [UV.toTVH, hd, if_true]) (by simp only [UV.normH, hd, if_true]) (by simpa only [UV.RestorableH, hd, if_true] using hr)
    have hd : M.direct t = false := by simpa using hd
    simp only [UV.HasTy] at hv
    obtain ⟨n, fs, rfl, h1, h2⟩ := hv
    have hb := not_direct_cases ht (by simp) hd
    have hgetD : P.defs.getD n [] = fs := by simp [List.getD_eq_getElem?_getD, h1]
    simp only [UV.RestorableH, hd, Bool.false_eq_true, if_false, Ty.fields, hgetD] at hr
    refine rt_structH hord hP hb h1 ((hasTyf_iff vs fs).1 h2).1 ?_
    exact rtHf hord hP vs fs h2 (fun k i t h hi => ((hP.2.2 n fs h1).2 k i t h hi).1) hr
  | .any a, t, hv, ht, hr => by
    simp only [UV.HasTy] at hv; subst hv
    simp [Ty.RoundTripsH] at ht
  | .json j, t, hv, ht, hr => by
    by_cases hd : M.direct t = true
    · exact rt_direct hP.1 hv (by simp) ht hd (by simp only [UV.toTVH, hd, if_true]) (by simp only [UV.normH, hd, if_true]) (by simpa only [UV.RestorableH, hd, if_true] using hr)
    have hd : M.direct t = false := by simpa using hd
    simp only [UV.HasTy] at hv
    have hb := not_direct_cases ht (by rintro t' rfl; simp at hv) hd
    have hnull : (UV.json j).nullLike = true ↔ j = .null := by
      cases j <;> simp [UV.nullLike]
    simp only [UV.RestorableH, hd, Bool.false_eq_true, if_false, UV.Restorable] at hr
    have hnotptr := hr.1
    have hseen : j.seen text = j := by
      cases text with
      | false => rfl
      | true => exact reread_noFloat j (hr.2 rfl).1 (hr.2 rfl).2
    have hreal : (UV.json j).nullLike = false → (j.seen text).Real := fun h => seen_real (by
      rintro rfl; simp [UV.nullLike] at h) hnotptr
    have hun : ∀ v, t = .jobj ∨ (∃ k, t = .jptr k) → j.unmH M.toHooks P t v = j.unm P t v := by
      intro v hc
      refine unmH_bare (S := fun _ => False) hP.1 (fun _ h => h.elim) j t v ?_
      rcases hc with rfl | ⟨k, rfl⟩
      · exact hb.1
      · trivial
    cases t with
    | jobj =>
      intro o ho
      simp only [UV.toTVH, hd, Bool.false_eq_true, if_false, UV.toTV, TV.mar, Leaf.marshal, Option.some.injEq] at ho
      subst ho
      refine ⟨fun h => .inr (by rw [hnull.1 h]), fun h => ⟨j, rfl, hreal h, fun _ _ => trivial, ?_⟩⟩
      rw [hseen, hun _ (.inl rfl)]
      simp only [UV.normH, hd, Bool.false_eq_true, if_false]
      cases j with
      | null => simp [UV.nullLike] at h
      | ptr id => exact absurd rfl (hnotptr id)
      | _ => rfl
    | jptr k =>
      intro o ho
      simp only [UV.toTVH, hd, Bool.false_eq_true, if_false, UV.toTV, TV.mar, Leaf.marshal, Option.some.injEq] at ho
      subst ho
      simp only at hv
      refine ⟨fun h => .inr (by rw [hnull.1 h]), fun h => ⟨j, rfl, hreal h, fun _ _ => trivial, ?_⟩⟩
      rw [hseen, hun _ (.inr ⟨k, rfl⟩)]
      simp only [UV.normH, hd, Bool.false_eq_true, if_false]
      cases j with
      | null => simp [J.HasKind] at hv
      | ptr id => simp [J.HasKind] at hv
      | _ => simp only [J.HasKind] at hv; subst hv; rfl
    | jval k => simp [Ty.RoundTripsH] at ht
    | _ => simp only at hv
theorem rtHs (hord : ∀ dep, (ord dep).Perm dep) (hP : P.RoundTripsH M text) : ∀ (xs : List UV) (t : Ty), UV.HasTys P.defs xs t → t.RoundTripsH M text → UV.RestorableHs M P oe text xs t →
    ∀ ys, TV.mars ord oe (UV.toTVHs M P.defs xs t) = some ys → ys.length = xs.length ∧
      J.unmHs M.toHooks P (ys.map (J.seen text)) t (List.replicate ys.length (P.zero t)) = some (UV.normHs M P oe xs t, none)
  | [], t, _, _, _, ys, h => by
    simp only [UV.toTVHs, TV.mars] at h; cases h
    exact ⟨rfl, rfl⟩
  | x :: xs, t, hv, ht, hr, ys, h => by
    simp only [UV.HasTys] at hv
    simp only [UV.RestorableHs] at hr
    simp only [UV.toTVHs, TV.mars] at h
    split at h
    · cases h
    · rename_i o ho
      split at h
      · cases h
      · rename_i ys' hys
        cases h
        obtain ⟨g1, g2⟩ := rtHs hord hP xs t hv.2 ht hr.2.2 ys' hys
        obtain ⟨e1, e2⟩ := rtH hord hP x t hv.1 ht hr.2.1 o ho
        have hsome : ∃ j, o = some j ∧ (j.seen text).unmH M.toHooks P t (P.zero t) = uok (if x.nullLike then P.zero t else x.normH M P oe t) := by
          cases hx : x.nullLike with
          | true =>
            rcases e1 hx with h | h
            · subst h
              have := (mar_none_iff _ _ _ ho).1 rfl
              rw [emptyH_iff, emptyH_none_iff hP.1 x t hv.1 ht] at this
              rw [hr.1 this.1] at this
              simp at this
            · exact ⟨_, h, by simp [seen_null, J.unmH]⟩
          | false =>
            obtain ⟨j, h1, _, _, h3⟩ := e2 hx
            exact ⟨j, h1, by simpa using h3⟩
        obtain ⟨j, rfl, hj⟩ := hsome
        refine ⟨by simp only [List.length_cons, g1], ?_⟩
        simp only [List.map_cons, List.length_cons, List.replicate_succ, J.unmHs, hj, uok, g2, Option.map_some, UV.normHs]
theorem rtHm (hord : ∀ dep, (ord dep).Perm dep) (hP : P.RoundTripsH M text) : ∀ (kvs : List (Bytes × UV)) (t : Ty), UV.HasTym P.defs kvs t → t.RoundTripsH M text → UV.RestorableHm M P oe text kvs t →
    ∀ ps, TV.marm ord oe (UV.toTVHm M P.defs kvs t) = some ps → ps.map (·.1) = (UV.normHm M P oe kvs t).map (·.1) ∧
      ((UV.normHm M P oe kvs t).map (·.1)).Sublist (kvs.map (·.1)) ∧
      ∀ m, J.unmHm M.toHooks P (ps.map fun p => (p.1, p.2.seen text)) t m = some ((UV.normHm M P oe kvs t).foldl (fun m p => smAdd m p.1 p.2) m, none)
  | [], t, _, _, _, ps, h => by
    simp only [UV.toTVHm, TV.marm] at h; cases h
    exact ⟨rfl, by simp [UV.normHm], fun m => rfl⟩
  | (k, x) :: xs, t, hv, ht, hr, ps, h => by
    simp only [UV.HasTym] at hv
    simp only [UV.RestorableHm] at hr
    simp only [UV.toTVHm, TV.marm] at h
    split at h
    · cases h
    · rename_i o ho
      split at h
      · cases h
      · rename_i ys' hys
        cases h
        obtain ⟨g1, g2, g3⟩ := rtHm hord hP xs t hv.2 ht hr.2 ys' hys
        obtain ⟨e1, e2⟩ := rtH hord hP x t hv.1 ht hr.1 o ho
        have hnone := mar_none_iff _ _ _ ho
        rw [emptyH_iff, emptyH_none_iff hP.1 x t hv.1 ht] at hnone
        simp only [UV.normHm]
        cases o with
        | none =>
          have := hnone.1 rfl
          simp only [this.1, this.2, Bool.and_self, if_true]
          simp only [this.1] at g1 g2 g3
          exact ⟨g1, g2.trans (by simp), g3⟩
        | some j =>
          have hcond : (oe && x.nilLike) = false := by
            cases hoe : oe with
            | false => rfl
            | true =>
              cases hx : x.nilLike with
              | false => rfl
              | true => exact absurd (hnone.2 ⟨hoe, hx⟩) (by simp)
          have hj : (j.seen text).unmH M.toHooks P t (P.zero t) = uok (if x.nullLike then P.zero t else x.normH M P oe t) := by
            cases hx : x.nullLike with
            | true =>
              rcases e1 hx with h | h
              · cases h
              · cases h; simp [seen_null, J.unmH]
            | false =>
              obtain ⟨j, h1, _, _, h3⟩ := e2 hx
              cases h1; simpa using h3
          simp only [hcond, Bool.false_eq_true, if_false, List.map_cons, g1, true_and]
          refine ⟨by simpa using g2, fun m => ?_⟩
          simp only [List.map_cons, J.unmHm, hj, uok, List.foldl_cons]
          exact g3 _
theorem rtHf (hord : ∀ dep, (ord dep).Perm dep) (hP : P.RoundTripsH M text) : ∀ (vs : List UV) (fs : List (FInfo × Ty)), UV.HasTyf P.defs vs fs →
    (∀ (k : Nat) i t, fs[k]? = some (i, t) → i.ignore = false → t.RoundTripsH M text) → UV.RestorableHf M P oe text vs fs →
    ∀ (k : Nat) x i t, vs[k]? = some x → fs[k]? = some (i, t) → i.ignore = false → RTstH ord oe text M P x t
  | [], fs, _, _, _, k, x, i, t, h, _, _ => by simp at h
  | y :: ys, fs, hv, hf, hr, k, x, i, t, h, h', hi => by
    simp only [UV.HasTyf] at hv
    obtain ⟨i0, t0, r, rfl, h1, h2⟩ := hv
    simp only [UV.RestorableHf] at hr
    cases k with
    | zero =>
      simp only [List.getElem?_cons_zero, Option.some.injEq, Prod.mk.injEq] at h h'
      obtain ⟨rfl, rfl⟩ := h'
      subst h
      exact rtH hord hP y t0 h1 (hf 0 i0 t0 rfl hi) (hr.1 hi)
    | succ k =>
      exact rtHf hord hP ys r h2 (fun k i t h hi => hf (k + 1) i t (by simpa using h) hi) hr.2 k x i t (by simpa using h) (by simpa using h') hi
end

theorem restoresH (hord : ∀ dep, (ord dep).Perm dep) {pick : List Nat → Nat} (hP : P.RoundTripsH M text) {t : Ty} (ht : t.RoundTripsH M text)
    {h : List GV} {g : GV} {v : UV} (hv : IsValueH M P.defs h g v t) (hr : v.RestorableH M P oe text t) {n : Nat} {j : J}
    (hm : marshal ord pick oe h n g = some j) :
    (j.seen text).unmH M.toHooks P t (P.zero t) = uok (v.restoredH M P oe t) ∧ (j = .null → v.restoredH M P oe t = P.zero t) := by
  obtain ⟨hty, hu⟩ := hv
  obtain ⟨o, ho, hj⟩ := marshal_tree hu hm
  obtain ⟨g1, g2⟩ := rtH hord hP v t hty ht hr o ho
  cases hn : v.nullLike with
  | true =>
    have : j = .null := by
      rcases g1 hn with h | h <;> subst h <;> simpa using hj.symm
    subst this
    rw [seen_null]
    simp only [UV.restoredH, hn, if_true, J.unmH, implies_true, and_self]
  | false =>
    obtain ⟨j', h1, h0, h2, h3⟩ := g2 hn
    subst h1
    simp only [Option.getD_some] at hj
    subst hj
    simp only [UV.restoredH, hn, Bool.false_eq_true, if_false]
    refine ⟨h3, ?_⟩
    rintro rfl
    rw [seen_null] at h0; cases h0

/-! ### Tidy values -/

theorem tidyH_null {t : Ty} {v : UV} (hv : v.HasTy P.defs t) (ht : v.TidyH M P oe t) (hn : v.nullLike = true) : v = P.zero t := by
  refine nullLike_zero v hv hn ?_ ?_
  · rintro x rfl
    simp only [UV.TidyH] at ht
    simp only [UV.nullLike] at hn
    rw [ht.1] at hn; cases hn
  · rintro rfl
    simp [UV.TidyH] at ht

mutual
theorem normH_tidy : ∀ (v : UV) (t : Ty), v.HasTy P.defs t → v.TidyH M P oe t → v.normH M P oe t = v
  | .nil, t, _, ht => by
    simp only [UV.TidyH] at ht
    simp only [UV.normH]
    split <;> rename_i hd
    · rw [if_pos hd] at ht; exact ht
    · rfl
  | .bool _, t, _, ht => by
    simp only [UV.TidyH] at ht
    simp only [UV.normH]
    split <;> rename_i hd
    · rw [if_pos hd] at ht; exact ht
    · rfl
  | .int _, t, _, ht => by
    simp only [UV.TidyH] at ht
    simp only [UV.normH]
    split <;> rename_i hd
    · rw [if_pos hd] at ht; exact ht
    · rfl
  | .float _, t, _, ht => by
    simp only [UV.TidyH] at ht
    simp only [UV.normH]
    split <;> rename_i hd
    · rw [if_pos hd] at ht; exact ht
    · rfl
  | .str _, t, _, ht => by
    simp only [UV.TidyH] at ht
    simp only [UV.normH]
    split <;> rename_i hd
    · rw [if_pos hd] at ht; exact ht
    · rfl
  | .any _, t, _, ht => by
    simp only [UV.TidyH] at ht
    simp only [UV.normH]
    split <;> rename_i hd
    · rw [if_pos hd] at ht; exact ht
    · rfl
  | .json _, t, _, ht => by
    simp only [UV.TidyH] at ht
    simp only [UV.normH]
    split <;> rename_i hd
    · rw [if_pos hd] at ht; exact ht.2
    · rfl
  | .seq xs sp, t, hv, ht => by
    simp only [UV.TidyH] at ht
    simp only [UV.normH]
    split <;> rename_i hd
    · rw [if_pos hd] at ht; exact ht
    · rw [if_neg hd] at ht
      obtain ⟨t', rfl, h1, _⟩ := hv
      simp only [Ty.elem] at ht ⊢
      rw [normHs_tidy xs t' h1 ht.2, ht.1]
  | .arr xs, t, hv, ht => by
    simp only [UV.TidyH] at ht
    simp only [UV.normH]
    split <;> rename_i hd
    · rw [if_pos hd] at ht; exact ht
    · rw [if_neg hd] at ht
      obtain ⟨t', rfl, h1⟩ := hv
      simp only [Ty.elem] at ht ⊢
      rw [normHs_tidy xs t' h1 ht]
  | .map kvs, t, hv, ht => by
    simp only [UV.TidyH] at ht
    simp only [UV.normH]
    split <;> rename_i hd
    · rw [if_pos hd] at ht; exact ht
    · rw [if_neg hd] at ht
      obtain ⟨_, t', he, h1⟩ := hv
      have he : t.elem = t' := by rcases he with rfl | rfl <;> rfl
      rw [he] at ht ⊢
      rw [normHm_tidy kvs t' h1 ht]
  | .ptr x, t, hv, ht => by
    simp only [UV.TidyH] at ht
    simp only [UV.normH]
    split <;> rename_i hd
    · rw [if_pos hd] at ht; exact ht.2
    · rw [if_neg hd] at ht
      obtain ⟨t', rfl, h1⟩ := hv
      simp only [Ty.elem] at ht ⊢
      rw [normH_tidy x t' h1 ht.2]
  | .struct vs, t, hv, ht => by
    simp only [UV.TidyH] at ht
    simp only [UV.normH]
    split <;> rename_i hd
    · rw [if_pos hd] at ht; exact ht
    · rw [if_neg hd] at ht
      obtain ⟨n, fs, rfl, h1, h2⟩ := hv
      have hf : (Ty.struct n).fields P.defs = fs := by simp [Ty.fields, List.getD_eq_getElem?_getD, h1]
      rw [hf] at ht
      simp only [hf, normHf_tidy vs fs h2 ht.1, ht.2 n rfl]
theorem normHs_tidy : ∀ (xs : List UV) (t : Ty), UV.HasTys P.defs xs t → UV.TidyHs M P oe xs t → UV.normHs M P oe xs t = xs
  | [], _, _, _ => rfl
  | x :: xs, t, hv, ht => by
    simp only [UV.HasTys] at hv
    simp only [UV.TidyHs] at ht
    simp only [UV.normHs, normHs_tidy xs t hv.2 ht.2]
    split
    · rename_i h; rw [← tidyH_null hv.1 ht.1 h]
    · rw [normH_tidy x t hv.1 ht.1]
theorem normHm_tidy : ∀ (xs : List (Bytes × UV)) (t : Ty), UV.HasTym P.defs xs t → UV.TidyHm M P oe xs t → UV.normHm M P oe xs t = xs
  | [], _, _, _ => rfl
  | (k, x) :: xs, t, hv, ht => by
    simp only [UV.HasTym] at hv
    simp only [UV.TidyHm] at ht
    have : (oe && x.nilLike) = false := by
      cases oe with
      | false => rfl
      | true => simp [ht.1 rfl]
    simp only [UV.normHm, this, Bool.false_eq_true, if_false, normHm_tidy xs t hv.2 ht.2.2]
    split
    · rename_i h; rw [← tidyH_null hv.1 ht.2.1 h]
    · rw [normH_tidy x t hv.1 ht.2.1]
theorem normHf_tidy : ∀ (xs : List UV) (fs : List (FInfo × Ty)), UV.HasTyf P.defs xs fs → UV.TidyHf M P oe xs fs → UV.normHf M P oe xs fs = xs
  | [], _, _, _ => rfl
  | x :: xs, fs, hv, ht => by
    simp only [UV.HasTyf] at hv
    obtain ⟨i, t, r, rfl, h1, h2⟩ := hv
    simp only [UV.TidyHf] at ht
    simp only [UV.normHf, normHf_tidy xs r h2 ht.2.2]
    split
    · rename_i h
      simp only [Bool.or_eq_true, Bool.and_eq_true] at h
      rcases h with (h | h) | h
      · rw [← ht.1 (.inl h)]
      · rw [← tidyH_null h1 ht.2.1 h]
      · rw [← ht.1 (.inr h)]
    · rw [normH_tidy x t h1 ht.2.1]
end

theorem unmarshalH_rooted {H : Hooks} {d : J} (hd : d.Rooted) (t : Ty) (x : UV) : d.unmarshalH H P [] t x = d.unmH H P t x := by
  cases d <;> first | rfl | exact hd.elim

theorem unmarshalH_key {H : Hooks} (d : J) (k : Bytes) (kvs : SMap J) (id : Int) (hk : smGet kvs k = some d) (t : Ty) (x : UV) :
    (J.dict id kvs).unmarshalH H P [k] t x = d.unmH H P t x := by
  simp only [J.unmarshalH, J.get, dictGet, getLoop, hk]

end Jsonutils
