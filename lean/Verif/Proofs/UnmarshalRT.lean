import Verif.Proofs.UnmarshalBase
import Verif.Proofs.MarshalRefs
import Verif.Proofs.UnmarshalHeirs

/-! `Unmarshal ∘ Marshal`. -/

namespace Jsonutils

/-! ### Emptiness of typed values -/

mutual
theorem empty_iff (D : Defs) : ∀ (v : UV) (t : Ty) (info : Option FInfo), (v.toTV D t).Empty info ↔ v.empty D t info = true
  | .nil, t, info => by simp [UV.toTV, TV.Empty, Leaf.Empty, UV.empty]
  | .bool b, t, info => by simp [UV.toTV, TV.Empty, Leaf.Empty, UV.empty]
  | .int n, t, info => by simp [UV.toTV, TV.Empty, Leaf.Empty, UV.empty]
  | .float x, t, info => by
    simp only [UV.toTV, UV.empty]
    split <;> simp [TV.Empty, Leaf.Empty]
  | .str s, t, info => by simp [UV.toTV, TV.Empty, Leaf.Empty, UV.empty]
  | .seq xs sp, t, info => by
    simp only [UV.toTV, TV.Empty, UV.empty]
    cases xs <;> simp [UV.toTVs]
  | .arr xs, t, info => by
    simp only [UV.toTV, TV.Empty, UV.empty]
    cases xs <;> simp [UV.toTVs]
  | .map kvs, t, info => by
    simp only [UV.toTV, TV.Empty, UV.empty]
    cases kvs with
    | nil => simp [UV.toTVm]
    | cons p r => obtain ⟨k, x⟩ := p; simp [UV.toTVm]
  | .ptr x, t, info => by
    simp only [UV.toTV, TV.Empty, UV.empty]
    exact empty_iff D x t.elem info
  | .struct vs, t, info => by
    simp only [UV.toTV, TV.Empty, UV.empty, Bool.and_eq_true, emptyf_iff D vs (t.fields D)]
  | .any a, t, info => by
    cases a with
    | objs xs => simp only [UV.toTV, AnyVal.toTV, TV.Empty, UV.empty]; cases xs <;> simp
    | _ => simp [UV.toTV, AnyVal.toTV, TV.Empty, Leaf.Empty, UV.empty]
  | .json j, t, info => by
    simp only [UV.toTV, UV.empty]
    split <;> simp [TV.Empty, Leaf.Empty] <;> (try (intro _; exact (J.emptyVal_iff _).symm))
theorem emptyf_iff (D : Defs) : ∀ (vs : List UV) (fs : List (FInfo × Ty)), TV.Emptyf (UV.toTVf D vs fs) ↔ UV.emptyf D vs fs = true
  | [], fs => by simp [UV.toTVf, TV.Emptyf, UV.emptyf]
  | x :: xs, [] => by simp [UV.toTVf, TV.Emptyf, UV.emptyf]
  | x :: xs, (i, t) :: fs => by
    simp only [UV.toTVf, TV.Emptyf, UV.emptyf, Bool.and_eq_true, Bool.or_eq_true, empty_iff D x t (some i), emptyf_iff D xs fs]
    have : i.deprecatedBy ≠ none ↔ i.deprecatedBy.isSome = true := by cases i.deprecatedBy <;> simp
    rw [this, or_assoc]
end

theorem nil_empty (D : Defs) : ∀ (v : UV) (t : Ty), v.nilLike = true → ∀ info, v.empty D t info = true
  | .nil, _, _, _ => rfl
  | .ptr x, t, h, info => by simp only [UV.nilLike] at h; simp only [UV.empty]; exact nil_empty D x t.elem h info
  | .bool _, _, h, _ => by simp [UV.nilLike] at h
  | .int _, _, h, _ => by simp [UV.nilLike] at h
  | .float _, _, h, _ => by simp [UV.nilLike] at h
  | .str _, _, h, _ => by simp [UV.nilLike] at h
  | .seq _ _, _, h, _ => by simp [UV.nilLike] at h
  | .arr _, _, h, _ => by simp [UV.nilLike] at h
  | .map _, _, h, _ => by simp [UV.nilLike] at h
  | .struct _, _, h, _ => by simp [UV.nilLike] at h
  | .any _, _, h, _ => by simp [UV.nilLike] at h
  | .json _, _, h, _ => by simp [UV.nilLike] at h

theorem empty_none_iff (D : Defs) : ∀ (v : UV) (t : Ty), v.empty D t none = v.nilLike
  | .nil, _ => rfl
  | .ptr x, t => by simp only [UV.nilLike, UV.empty]; exact empty_none_iff D x t.elem
  | .bool _, _ => by simp [UV.nilLike, UV.empty, optFalse]
  | .int _, _ => by simp [UV.nilLike, UV.empty, optZero]
  | .float _, _ => by simp [UV.nilLike, UV.empty, optZero]
  | .str _, _ => by simp [UV.nilLike, UV.empty, optEmpty]
  | .seq _ _, _ => by simp [UV.nilLike, UV.empty, optEmpty]
  | .arr _, _ => by simp [UV.nilLike, UV.empty, optEmpty]
  | .map _, _ => by simp [UV.nilLike, UV.empty, optEmpty]
  | .struct _, _ => by simp [UV.nilLike, UV.empty, optEmpty]
  | .any a, _ => by cases a <;> simp [UV.nilLike, UV.empty, optEmpty, optZero, optFalse]
  | .json _, t => by simp only [UV.nilLike, UV.empty]; split <;> simp [optEmpty]

theorem nil_null : ∀ (v : UV), v.nilLike = true → v.nullLike = true
  | .nil, _ => rfl
  | .ptr x, h => by simp only [UV.nilLike] at h; simp only [UV.nullLike]; exact nil_null x h
  | .bool _, h => by simp [UV.nilLike] at h
  | .int _, h => by simp [UV.nilLike] at h
  | .float _, h => by simp [UV.nilLike] at h
  | .str _, h => by simp [UV.nilLike] at h
  | .seq _ _, h => by simp [UV.nilLike] at h
  | .arr _, h => by simp [UV.nilLike] at h
  | .map _, h => by simp [UV.nilLike] at h
  | .struct _, h => by simp [UV.nilLike] at h
  | .any _, h => by simp [UV.nilLike] at h
  | .json _, h => by simp [UV.nilLike] at h

/-! ### Structs -/

theorem setKey_one {idx : Bytes → List Nat} {tys : List (FInfo × Ty)} {assign : Ty → UV → URes} {f : Nat} {k : Bytes} {vs : List UV}
    {i : Nat} {info : FInfo} {t : Ty} {v w : UV} (hi : idx k = [i]) (ht : tys[i]? = some (info, t)) (hv : vs[i]? = some v) (hd : info.deprecatedBy = none)
    (ha : assign t v = uok w) : setKey idx tys assign (f + 1) k [] vs = some (vs.set i w, [k], none) := by
  simp only [setKey, List.not_mem_nil, if_false, hi, setLoop, ht, hv, ha, uok, hd]

/-- A dictionary whose keys each match one field, no field twice. -/
theorem unmf_all (P : UEnv) (n : Nat) : ∀ (kvs : List (Bytes × J)) (vs : List UV),
    (kvs.map (·.1)).Nodup → (∀ k j k' j', (k, j) ∈ kvs → (k', j') ∈ kvs → P.idx n k = P.idx n k' → k = k') →
    (∀ k j, (k, j) ∈ kvs → ∃ i info t v w, P.idx n k = [i] ∧ (P.defs.getD n [])[i]? = some (info, t) ∧ info.deprecatedBy = none ∧ vs[i]? = some v ∧
      j.unm P t v = uok w) →
    ∃ vs', J.unmf P kvs n vs = some (vs', []) ∧ vs'.length = vs.length ∧
      (∀ i, (∀ k j, (k, j) ∈ kvs → P.idx n k ≠ [i]) → vs'[i]? = vs[i]?) ∧
      (∀ k j i info t v w, (k, j) ∈ kvs → P.idx n k = [i] → (P.defs.getD n [])[i]? = some (info, t) → vs[i]? = some v → j.unm P t v = uok w →
        vs'[i]? = some w)
  | [], vs, _, _, _ => ⟨vs, rfl, rfl, fun _ _ => rfl, by intro k j i info t v w h; cases h⟩
  | (k, j) :: r, vs, hn, hinj, hall => by
    obtain ⟨i, info, t, v, w, h1, h2, h3, h4, h5⟩ := hall k j (List.mem_cons_self ..)
    simp only [List.map_cons, List.nodup_cons] at hn
    have hne : ∀ k' j', (k', j') ∈ r → P.idx n k' ≠ [i] := by
      intro k' j' hm he
      have := hinj k j k' j' (List.mem_cons_self ..) (List.mem_cons_of_mem _ hm) (by rw [h1, he])
      exact hn.1 (by rw [this]; exact List.mem_map_of_mem (f := (·.1)) hm)
    obtain ⟨vs', g1, g2, g3, g4⟩ := unmf_all P n r (vs.set i w) hn.2
      (fun a b c d ha hc => hinj a b c d (List.mem_cons_of_mem _ ha) (List.mem_cons_of_mem _ hc)) (by
        intro k' j' hm
        obtain ⟨i', info', t', v', w', e1, e2, e3, e4, e5⟩ := hall k' j' (List.mem_cons_of_mem _ hm)
        refine ⟨i', info', t', v', w', e1, e2, e3, ?_, e5⟩
        rw [List.getElem?_set_ne (by intro he; subst he; exact hne k' j' hm e1)]
        exact e4)
    have hlt : i < vs.length := by
      rcases Nat.lt_or_ge i vs.length with h | h
      · exact h
      · rw [List.getElem?_eq_none h] at h4; cases h4
    refine ⟨vs', ?_, by rw [g2, List.length_set], ?_, ?_⟩
    · simp only [J.unmf]
      rw [setKey_one h1 h2 h4 h3 h5]
      simp only [g1, Option.map_some]
    · intro i' hi'
      rw [g3 i' (fun k' j' hm => hi' k' j' (List.mem_cons_of_mem _ hm))]
      rw [List.getElem?_set_ne]
      intro he
      subst he
      exact hi' k j (List.mem_cons_self ..) h1
    · intro k' j' i' info' t' v' w' hm e1 e2 e4 e5
      rcases List.mem_cons.1 hm with hm | hm
      · cases hm
        rw [h1] at e1; cases e1
        rw [h2] at e2; cases e2
        rw [h4] at e4; cases e4
        rw [h5] at e5; cases e5
        rw [g3 i hne, List.getElem?_set_self hlt]
      · refine g4 k' j' i' info' t' v' w' hm e1 e2 ?_ e5
        rw [List.getElem?_set_ne (by intro he; subst he; exact hne k' j' hm e1)]
        exact e4

/-! ### Documents that fit a type -/

def J.DocScalar : J → Prop
  | .int _ => True
  | .bool _ => True
  | .float _ _ => True
  | .str _ => True
  | _ => False

def J.DocStr : J → Prop
  | .str _ => True
  | _ => False

def J.DocArr : J → Prop
  | .arr _ => True
  | _ => False

def J.DocDict : J → Prop
  | .dict _ _ => True
  | _ => False

def J.DocFor (j : J) : Ty → Prop
  | .bool => j.DocScalar
  | .int _ => j.DocScalar
  | .uint _ => j.DocScalar
  | .float32 => j.DocScalar
  | .float64 => j.DocScalar
  | .string => j.DocStr
  | .slice _ => j.DocArr
  | .array _ _ => j.DocArr
  | .map _ => j.DocDict
  | .struct _ => j.DocDict
  | .ptr t => j.DocFor t
  | _ => True

theorem chain_scalar {j : J} : ∀ {t : Ty}, t.ScalarChain → j.DocFor t → j.DocScalar
  | .bool, _, h => h
  | .int _, _, h => h
  | .uint _, _, h => h
  | .float32, _, h => h
  | .float64, _, h => h
  | .string, _, h => by cases j <;> simp [J.DocFor, J.DocStr] at h; trivial
  | .ptr t, hs, h => chain_scalar (t := t) (by simpa only [Ty.ScalarChain] using hs) (by simpa only [J.DocFor] using h)
  | .slice _, hs, _ => by simp [Ty.ScalarChain] at hs
  | .array _ _, hs, _ => by simp [Ty.ScalarChain] at hs
  | .map _, hs, _ => by simp [Ty.ScalarChain] at hs
  | .mapOther _, hs, _ => by simp [Ty.ScalarChain] at hs
  | .struct _, hs, _ => by simp [Ty.ScalarChain] at hs
  | .any, hs, _ => by simp [Ty.ScalarChain] at hs
  | .jobj, hs, _ => by simp [Ty.ScalarChain] at hs
  | .jptr _, hs, _ => by simp [Ty.ScalarChain] at hs
  | .jval _, hs, _ => by simp [Ty.ScalarChain] at hs
  | .other, hs, _ => by simp [Ty.ScalarChain] at hs

/-- A document that goes into the target of a fresh pointer goes into the pointer. -/
theorem unm_ptr_fresh (P : UEnv) {j : J} {t : Ty} (hj : j.DocFor t) {text : Bool} (ht : (Ty.ptr t).RoundTrips text) :
    j.unm P (.ptr t) (P.zero (.ptr t)) = uptr (j.unm P t (P.zero t)) := by
  have scalar : j.DocScalar → j.unm P (.ptr t) (P.zero (.ptr t)) = uptr (j.unm P t (P.zero t)) := by
    intro hs
    cases j with
    | int n => simp only [J.unm, alloc_ptr_zero, unmInt]
    | bool n => simp only [J.unm, alloc_ptr_zero, unmBool]
    | float n => simp only [J.unm, alloc_ptr_zero, unmFloat]
    | str n => simp only [J.unm, alloc_ptr_zero, unmStr]
    | _ => simp [J.DocScalar] at hs
  have hc := ht.2
  cases t with
  | slice t' =>
    cases j with
    | arr xs => simp only [J.unm, alloc_ptr_zero, Ty.isSeq, if_true]
    | _ => exact absurd hj (by simp [J.DocFor, J.DocArr])
  | array n t' =>
    cases j with
    | arr xs => simp only [J.unm, alloc_ptr_zero, Ty.isSeq, if_true]
    | _ => exact absurd hj (by simp [J.DocFor, J.DocArr])
  | map t' =>
    cases j with
    | dict id kvs => simp only [J.unm, alloc_ptr_zero, Ty.isStructOrMap, if_true]
    | _ => exact absurd hj (by simp [J.DocFor, J.DocDict])
  | struct n =>
    cases j with
    | dict id kvs => simp only [J.unm, alloc_ptr_zero, Ty.isStructOrMap, if_true]
    | _ => exact absurd hj (by simp [J.DocFor, J.DocDict])
  | _ => exact scalar (chain_scalar (by simpa only using hc) hj)

/-- The same for any pointer. -/
theorem unm_ptr_old (P : UEnv) {j : J} {t : Ty} (w : UV) (hj : j.DocFor t) {text : Bool} (ht : (Ty.ptr t).RoundTrips text) :
    j.unm P (.ptr t) (.ptr w) = uptr (j.unm P t w) := by
  have scalar : j.DocScalar → j.unm P (.ptr t) (.ptr w) = uptr (j.unm P t w) := by
    intro hs
    cases j with
    | int n => simp only [J.unm, UEnv.alloc, unmInt]
    | bool n => simp only [J.unm, UEnv.alloc, unmBool]
    | float n => simp only [J.unm, UEnv.alloc, unmFloat]
    | str n => simp only [J.unm, UEnv.alloc, unmStr]
    | _ => simp [J.DocScalar] at hs
  have hc := ht.2
  cases t with
  | slice t' =>
    cases j with
    | arr xs => simp only [J.unm, UEnv.alloc, Ty.isSeq, if_true]
    | _ => exact absurd hj (by simp [J.DocFor, J.DocArr])
  | array n t' =>
    cases j with
    | arr xs => simp only [J.unm, UEnv.alloc, Ty.isSeq, if_true]
    | _ => exact absurd hj (by simp [J.DocFor, J.DocArr])
  | map t' =>
    cases j with
    | dict id kvs => simp only [J.unm, UEnv.alloc, Ty.isStructOrMap, if_true]
    | _ => exact absurd hj (by simp [J.DocFor, J.DocDict])
  | struct n =>
    cases j with
    | dict id kvs => simp only [J.unm, UEnv.alloc, Ty.isStructOrMap, if_true]
    | _ => exact absurd hj (by simp [J.DocFor, J.DocDict])
  | _ => exact scalar (chain_scalar (by simpa only using hc) hj)

section
variable {ord : SMap Bytes → List (Bytes × Bytes)} {oe : Bool} {P : UEnv} {text : Bool}

theorem seen_null (text : Bool) : J.null.seen text = .null := by cases text <;> rfl
theorem seen_bool (text : Bool) (b : Bool) : (J.bool b).seen text = .bool b := by cases text <;> rfl
theorem seen_int (text : Bool) (n : Int) : (J.int n).seen text = .int n := by cases text <;> rfl
theorem seen_str (text : Bool) (s : Bytes) : (J.str s).seen text = .str s := by cases text <;> rfl

theorem seen_arr (text : Bool) (xs : List J) : (J.arr xs).seen text = .arr (xs.map (J.seen text)) := by
  cases text with
  | false => have : J.seen false = id := by funext j; rfl
             simp [J.seen, this]
  | true =>
    have : ∀ xs : List J, J.rereads xs = xs.map (J.seen true) := by
      intro xs; induction xs with
      | nil => rfl
      | cons x xs ih => simp only [J.rereads, List.map_cons, ih]; rfl
    simp only [J.seen, if_true, J.reread, this]

theorem seen_dict (text : Bool) (kvs : List (Bytes × J)) : (J.dict 0 kvs).seen text = .dict 0 (kvs.map fun p => (p.1, p.2.seen text)) := by
  cases text with
  | false => simp [J.seen]
  | true =>
    have : ∀ xs : List (Bytes × J), J.rereadf xs = xs.map fun p => (p.1, p.2.seen true) := by
      intro xs; induction xs with
      | nil => rfl
      | cons x xs ih => obtain ⟨k, x⟩ := x; simp only [J.rereadf, List.map_cons, ih]; rfl
    simp only [J.seen, if_true, J.reread, this]; rfl

theorem seen_float (x : GoFloat) (hx : x.Canonical) (hz : text = true → NotNegZero x) (v : UV) :
    ((J.float x 64).seen text).unm P .float64 v = uok (.float x) ∧ ((J.float x 64).seen text).DocScalar := by
  cases text with
  | false => exact ⟨rfl, trivial⟩
  | true =>
    have : (J.float x 64).seen true = numberOf (formatFloat x 64) := by simp [J.seen, J.reread, floatBits]
    rw [this]
    rcases numberOf_float64 x hx with h | ⟨n, h, hp⟩
    · rw [h]; exact ⟨rfl, trivial⟩
    · rw [h]
      have hv := int_text_value x hx n hp
      have : floatOfInt n = x := by
        cases x with
        | nan => exact absurd (hp.symm.trans (by decide : parseInt (formatFloat .nan 64) = none)) (by simp)
        | inf neg => exact absurd (hp.symm.trans (by cases neg <;> decide : parseInt (formatFloat (.inf neg) 64) = none)) (by simp)
        | fin neg m e =>
          by_cases hm : m = 0
          · subst hm
            have := canon_zero' (f := f64) (by decide) hx rfl
            subst this
            cases neg with
            | true => exact absurd (hz rfl) (by simp [NotNegZero])
            | false =>
              have h0 : parseInt (formatFloat (.fin false 0 0) 64) = some 0 := by decide
              rw [h0] at hp
              cases hp
              rfl
          · cases hf : floatOfInt n with
            | nan => rw [hf] at hv; simp [GoFloat.feq] at hv
            | inf b => rw [hf] at hv; simp [GoFloat.feq] at hv
            | fin b m' e' =>
              rw [hf] at hv
              simp only [GoFloat.feq, Bool.or_eq_true, Bool.and_eq_true, beq_iff_eq] at hv
              rcases hv with hv | hv
              · exact absurd hv.2 hm
              · rw [hv.1.1, hv.1.2, hv.2]
      refine ⟨?_, trivial⟩
      simp only [J.unm, unmInt, this]

/-- What is proved of a value: when it is null-like, and what comes back otherwise. -/
def RTst (ord : SMap Bytes → List (Bytes × Bytes)) (oe text : Bool) (P : UEnv) (v : UV) (t : Ty) : Prop :=
  ∀ o, (v.toTV P.defs t).mar ord oe none = some o →
    (v.nullLike = true → o = none ∨ o = some .null) ∧
    (v.nullLike = false → ∃ j, o = some j ∧ (j.seen text).DocFor t ∧ (j.seen text).unm P t (P.zero t) = uok (v.norm P oe t) ∧
      (j.seen text).unm P t (v.norm P oe t) = uok (v.norm P oe t))

theorem scalar_twice {P : UEnv} {j : J} (h : j.DocScalar) {t : Ty} {v w : UV} (hu : j.unm P t v = uok w) : j.unm P t w = uok w := by
  cases j with
  | int n => exact unmInt_twice hu
  | bool n => exact unmBool_twice hu
  | float n b => exact unmFloat_twice hu
  | str n => exact unmStr_twice hu
  | _ => simp [J.DocScalar] at h

theorem foldl_smAdd_self {α : Type} {m : SMap α} (hm : SMap.Sorted m) : ∀ (l : List (Bytes × α)), (∀ p ∈ l, p ∈ m) → l.foldl (fun m p => smAdd m p.1 p.2) m = m
  | [], _ => rfl
  | (k, x) :: r, h => by
    rw [List.foldl_cons, smAdd_same m hm k x (smGet_of_mem hm (h _ (List.mem_cons_self ..)))]
    exact foldl_smAdd_self hm r fun p hp => h p (List.mem_cons_of_mem _ hp)

theorem rt_leaf {v : UV} {t : Ty} {l : Leaf} {j : J} (h1 : v.toTV P.defs t = .leaf l) (h2 : l.marshal none oe = some j) (h3 : v.nullLike = false)
    (h4 : (j.seen text).DocFor t) (h5 : (j.seen text).unm P t (P.zero t) = uok (v.norm P oe t)) (h6 : (j.seen text).DocScalar) : RTst ord oe text P v t := by
  intro o ho
  rw [h1] at ho
  simp only [TV.mar, Option.some.injEq] at ho
  rw [h2] at ho
  subst ho
  exact ⟨fun h => absurd h (by simp [h3]), fun _ => ⟨j, rfl, h4, h5, scalar_twice h6 h5⟩⟩

/-- The document of a struct: its entries are what the fields marshal to. -/
theorem struct_doc_gen (hord : ∀ dep, (ord dep).Perm dep) {fs : List (FInfo × Ty)} (hdist : DistinctNames fs)
    (hfld : ∀ (k : Nat) (i : FInfo) (t : Ty), fs[k]? = some (i, t) → i.ignore = false → i.deprecatedBy = none) {vs : List UV}
    {ts : List (FInfo × TV)} {tv : UV → Ty → TV} (hmap : ts.map (·.1) = fs.map (·.1))
    (hmem : ∀ i x, (i, x) ∈ ts ↔ ∃ (k : Nat) (y : UV) (t : Ty), vs[k]? = some y ∧ fs[k]? = some (i, t) ∧ x = tv y t)
    {o : Option J} (ho : (TV.struct ts).mar ord oe none = some o) :
    ∃ m, o = some (.dict 0 m) ∧ SMap.Sorted m ∧
      (∀ k v, smGet m k = some v ↔ ∃ (q : Nat) (y : UV) (i : FInfo) (t : Ty), vs[q]? = some y ∧ fs[q]? = some (i, t) ∧ i.ignore = false ∧ i.name = k ∧
          (tv y t).mar ord oe (some i) = some (some v)) ∧
      (∀ (q : Nat) (y : UV) (i : FInfo) (t : Ty), vs[q]? = some y → fs[q]? = some (i, t) → i.ignore = false → ∃ o, (tv y t).mar ord oe (some i) = some o) := by
  simp only [TV.mar] at ho
  have hdist' : DistinctNames (ts) := by
    have key : ∀ {α β : Type} (a : List (FInfo × α)) (b : List (FInfo × β)), a.map (·.1) = b.map (·.1) → DistinctNames b → DistinctNames a := by
      intro α β a b h hd
      unfold DistinctNames at hd ⊢
      have : ∀ {γ : Type} (l : List (FInfo × γ)), (l.filter fun f => !f.1.ignore).map (·.1.name) = ((l.map (·.1)).filter fun i => !i.ignore).map (·.name) := by
        intro γ l
        rw [List.filter_map, List.map_map]; rfl
      rw [this] at hd ⊢
      rw [h]; exact hd
    exact key _ _ hmap hdist
  split at ho
  · cases ho
  · rename_i ps dep hr
    obtain ⟨hps, htot⟩ := marf_mem _ _ _ hr
    cases o with
    | none =>
      have := (structJ_none ho).1 rfl
      simp [optEmpty] at this
    | some j =>
      have hsp := struct_spec hord hdist' hr ho
      obtain ⟨m, rfl, hget⟩ := hsp
      -- the dictionary is sorted
      have hsorted : SMap.Sorted m := by
        unfold structJ at ho
        split at ho
        · cases ho
        · split at ho
          · cases ho
          · simp only [Option.some.injEq, forceJ, optForce, Bool.false_eq_true, if_false, J.dict.injEq, true_and] at ho
            rw [← ho]; exact pairsDict_sorted _
      -- no deprecated fields
      have hnodep : ∀ k, smGet (depMap (ts)) k = none := by
        intro k
        cases hg : smGet (depMap (ts)) k with
        | none => rfl
        | some k' =>
          obtain ⟨i, x, a, b, c, d⟩ := depMap_mem _ _ _ hg
          obtain ⟨q, y, t, _, e2, _⟩ := (hmem i x).1 a
          have := hfld q i t e2 b
          rw [d] at this; cases this
      have hget' : ∀ k v, smGet m k = some v ↔ ∃ (q : Nat) (y : UV) (i : FInfo) (t : Ty), vs[q]? = some y ∧ fs[q]? = some (i, t) ∧ i.ignore = false ∧ i.name = k ∧
          (tv y t).mar ord oe (some i) = some (some v) := by
        intro k v
        rw [hget]
        constructor
        · rintro (h | ⟨k', e, h, _⟩)
          · obtain ⟨i, x, a, b, c, d⟩ := (hps k v).1 h
            obtain ⟨q, y, t, e1, e2, rfl⟩ := (hmem i x).1 a
            exact ⟨q, y, i, t, e1, e2, b.1, c, d⟩
          · rw [hnodep] at h; cases h
        · rintro ⟨q, y, i, t, e1, e2, e3, e4, e5⟩
          left
          exact (hps k v).2 ⟨i, _, (hmem i _).2 ⟨q, y, t, e1, e2, rfl⟩, ⟨e3, hfld q i t e2 e3⟩, e4, e5⟩
      exact ⟨m, rfl, hsorted, hget', fun q y i t e1 e2 e3 => htot i _ ((hmem i _).2 ⟨q, y, t, e1, e2, rfl⟩) ⟨e3, hfld q i t e2 e3⟩⟩

theorem struct_doc (hord : ∀ dep, (ord dep).Perm dep) {fs : List (FInfo × Ty)} (hdist : DistinctNames fs)
    (hfld : ∀ (k : Nat) (i : FInfo) (t : Ty), fs[k]? = some (i, t) → i.ignore = false → i.deprecatedBy = none) {vs : List UV} (hlen : vs.length = fs.length)
    {o : Option J} (ho : (TV.struct (UV.toTVf P.defs vs fs)).mar ord oe none = some o) :
    ∃ m, o = some (.dict 0 m) ∧ SMap.Sorted m ∧
      (∀ k v, smGet m k = some v ↔ ∃ (q : Nat) (y : UV) (i : FInfo) (t : Ty), vs[q]? = some y ∧ fs[q]? = some (i, t) ∧ i.ignore = false ∧ i.name = k ∧
          (y.toTV P.defs t).mar ord oe (some i) = some (some v)) ∧
      (∀ (q : Nat) (y : UV) (i : FInfo) (t : Ty), vs[q]? = some y → fs[q]? = some (i, t) → i.ignore = false → ∃ o, (y.toTV P.defs t).mar ord oe (some i) = some o) := by
  -- the tree fields
  have hts : ∀ (vs : List UV) (fs : List (FInfo × Ty)), vs.length = fs.length →
      (UV.toTVf P.defs vs fs).map (·.1) = fs.map (·.1) ∧
      (∀ i x, (i, x) ∈ UV.toTVf P.defs vs fs ↔ ∃ (k : Nat) (y : UV) (t : Ty), vs[k]? = some y ∧ fs[k]? = some (i, t) ∧ x = y.toTV P.defs t) := by
    intro vs
    induction vs with
    | nil =>
      intro fs h
      cases fs with
      | nil => simp [UV.toTVf]
      | cons _ _ => simp at h
    | cons y ys ih =>
      intro fs h
      cases fs with
      | nil => simp at h
      | cons f fs =>
        obtain ⟨i, t⟩ := f
        obtain ⟨h1, h2⟩ := ih fs (by simpa using h)
        simp only [UV.toTVf, List.map_cons, h1, true_and]
        intro i' x
        simp only [List.mem_cons]
        rw [h2]
        constructor
        · rintro (h | ⟨k, z, s, h3, h4, h5⟩)
          · cases h; exact ⟨0, y, t, rfl, rfl, rfl⟩
          · exact ⟨k + 1, z, s, by simpa using h3, by simpa using h4, h5⟩
        · rintro ⟨k, z, s, h3, h4, h5⟩
          cases k with
          | zero => simp at h3 h4; obtain ⟨rfl, rfl⟩ := h4; subst h3; left; rw [h5]
          | succ k => right; exact ⟨k, z, s, by simpa using h3, by simpa using h4, h5⟩
  obtain ⟨hmap, hmem⟩ := hts vs fs hlen
  exact struct_doc_gen hord hdist hfld (tv := fun y t => y.toTV P.defs t) hmap hmem ho

theorem UEnv.RoundTripsQ.toD (h : P.RoundTripsQ text) : P.RoundTripsD text := by
  refine ⟨h.1, fun n fs hn => ⟨(h.2 n fs hn).1, fun k i t hk hi => ?_⟩⟩
  obtain ⟨a, b, c, d⟩ := (h.2 n fs hn).2 k i t hk hi
  have hgetD : P.defs.getD n [] = fs := by simp [List.getD_eq_getElem?_getD, hn]
  refine ⟨a, b, d, (fun key e => by rw [c] at e; cases e), i, t, ?_, c⟩
  have : ∀ f, P.heir n f k = k := by
    intro f
    cases f with
    | zero => rfl
    | succ f => simp only [UEnv.heir, hgetD, hk, hi, c]
  rw [this, hk]

theorem UEnv.RoundTrips.quoted (h : P.RoundTrips text) : P.RoundTripsQ text := by
  refine ⟨h.1, fun n fs hn => ⟨(h.2 n fs hn).1, fun k i t hk hi => ?_⟩⟩
  obtain ⟨a, b, c, d⟩ := (h.2 n fs hn).2 k i t hk hi
  exact ⟨a, (fun e => by rw [b] at e; cases e), c, d⟩

/-! ### The option `,string` -/

theorem intDec_normal (us eu : Bytes → Bool) (n : Int) : normalizeCurrency us eu (intDec n) = intDec n := by
  have hc : ∀ c ∈ intDec n, c ≠ 44 ∧ c ≠ 46 := by
    intro c h
    rcases intDec_chars n c h with h | h
    · refine ⟨?_, ?_⟩ <;> (intro he; subst he; revert h; decide)
    · subst h; decide
  have rem : ∀ (c : UInt8) (s : Bytes), (∀ d ∈ s, d ≠ c) → removeByte c s = s := by
    intro c s h
    unfold removeByte
    exact List.filter_eq_self.2 fun d hd => by simpa using h d hd
  have cut : ∀ (s : Bytes), (∀ d ∈ s, d ≠ 44) → cutAt 44 s = (s, none) := by
    intro s
    induction s with
    | nil => intro _; rfl
    | cons d s ih =>
      intro h
      simp only [cutAt, if_neg (h d (by simp)), ih fun e he => h e (by simp [he])]
  unfold normalizeCurrency normalizeUS normalizeEU
  rw [cut _ fun d hd => (hc d hd).1, rem 44 _ fun d hd => (hc d hd).1]
  simp only [rem 46 _ fun d hd => (hc d hd).2, ite_self]

theorem parseUint_intDec (n : Nat) (h : n < 2 ^ 64) : parseUint (intDec (n : Int)) = some n := by
  have e : intDec (n : Int) = natDec n := by simp [intDec]
  rw [e]
  have hne := natDec_ne_nil n
  have hv := digitsVal_natDec n
  unfold parseUint
  revert hne hv
  generalize natDec n = s
  intro hne hv
  match s with
  | [] => exact absurd rfl hne
  | c :: cs => simp only [hv, if_pos h]

theorem wrapI_i64 (n : Int) : InI64 (wrapI 64 n) := by
  unfold InI64 wrapI i64min i64max
  omega

/-- What a field with option `,string` is written as. -/
def QuotedBack (P : UEnv) (oe : Bool) (y : UV) (t : Ty) (v : J) : Prop :=
  (y.nullLike = true → v = .null) ∧ (y.nullLike = false → ∃ s, v = .str s ∧ (J.str s).unm P t (P.zero t) = uok (y.norm P oe t))

theorem quote_back (i : FInfo) (hi : i.forceString = true) : ∀ (y : UV) (t : Ty), y.HasTy P.defs t → t.Quotable P → ∀ v,
    (y.toTV P.defs t).mar ord oe (some i) = some (some v) → QuotedBack P oe y t v
  | .nil, t, _, _, v, h => by
    simp only [UV.toTV, TV.mar, Leaf.marshal, Option.some.injEq] at h
    split at h
    · cases h
    · cases h; exact ⟨fun _ => rfl, fun h => by cases h⟩
  | .bool b, t, hv, hq, v, h => by
    simp only [UV.HasTy] at hv; subst hv
    simp only [UV.toTV, TV.mar, Leaf.marshal, marshalBoolean, optForce, hi, if_true, Option.some.injEq] at h
    split at h
    · cases h
    · cases h
      refine ⟨(fun h => by cases h), fun _ => ⟨_, rfl, ?_⟩⟩
      simp only [Ty.Quotable] at hq
      cases b <;> simp [J.unm, unmStr, UV.norm, hq.1, hq.2]
  | .int n, t, hv, hq, v, h => by
    simp only [UV.HasTy] at hv
    simp only [UV.toTV, TV.mar, Leaf.marshal, marshalInt64, optForce, hi, if_true, Option.some.injEq] at h
    split at h
    · cases h
    · cases h
      refine ⟨(fun h => by cases h), fun _ => ⟨_, rfl, ?_⟩⟩
      have hne : ∀ n : Int, (intDec n).isEmpty = false := by
        intro n
        cases e : intDec n with
        | nil => exact absurd e (intDec_ne_nil _)
        | cons _ _ => rfl
      cases t with
      | int b =>
        simp only at hv
        simp only [J.unm, UEnv.alloc, unmStr, hne, Bool.false_eq_true, if_false, UV.norm, intDec_normal]
        rw [parseInt_intDec _ (wrapI_i64 n)]
        simp only [wrapI_back b hv.1 hv.2.1 n hv.2.2.1 hv.2.2.2]
      | uint b =>
        simp only at hv
        simp only [Ty.Quotable] at hq
        have hp : (2 : Int) ^ b ≤ 2 ^ 63 := by
          have : (2 : Nat) ^ b ≤ 2 ^ 63 := Nat.pow_le_pow_right (by omega) (by omega)
          exact_mod_cast this
        have hlt : n < 2 ^ 63 := Int.lt_of_lt_of_le hv.2.2.2 hp
        have hw : wrapI 64 n = n := by
          unfold wrapI
          have := hv.2.2.1
          omega
        obtain ⟨k, rfl⟩ : ∃ k : Nat, n = (k : Int) := ⟨n.toNat, by have := hv.2.2.1; omega⟩
        simp only [J.unm, UEnv.alloc, unmStr, hne, Bool.false_eq_true, if_false, UV.norm, intDec_normal, hw]
        rw [parseUint_intDec k (by omega)]
        simp only [wrapU, Int.emod_eq_of_lt hv.2.2.1 hv.2.2.2]
      | _ => simp only at hv
  | .str s, t, hv, hq, v, h => by
    simp only [UV.HasTy] at hv; subst hv
    simp only [UV.toTV, TV.mar, Leaf.marshal, marshalString, Option.some.injEq] at h
    split at h
    · cases h
    · cases h; exact ⟨(fun h => by cases h), fun _ => ⟨_, rfl, rfl⟩⟩
  | .ptr x, t, hv, hq, v, h => by
    simp only [UV.HasTy] at hv
    obtain ⟨t', rfl, h1⟩ := hv
    simp only [UV.toTV, Ty.elem, TV.mar] at h
    obtain ⟨g1, g2⟩ := quote_back i hi x t' h1 hq v h
    refine ⟨fun e => g1 e, fun e => ?_⟩
    obtain ⟨s, rfl, g3⟩ := g2 e
    refine ⟨s, rfl, ?_⟩
    simp only [J.unm] at g3
    simp only [J.unm, alloc_ptr_zero, unmStr, g3, uptr, uok, Option.map_some, UV.norm, Ty.elem]
  | .float x, t, hv, hq, v, h => by
    simp only [UV.HasTy] at hv
    rcases hv with ⟨rfl, _⟩ | ⟨rfl, _⟩ <;> simp [Ty.Quotable] at hq
  | .seq _ _, t, hv, hq, v, h => by
    simp only [UV.HasTy] at hv; obtain ⟨t', rfl, _⟩ := hv; simp [Ty.Quotable] at hq
  | .arr _, t, hv, hq, v, h => by
    simp only [UV.HasTy] at hv; obtain ⟨t', rfl, _⟩ := hv; simp [Ty.Quotable] at hq
  | .map _, t, hv, hq, v, h => by
    simp only [UV.HasTy] at hv; obtain ⟨_, t', ht, _⟩ := hv; rcases ht with rfl | rfl <;> simp [Ty.Quotable] at hq
  | .struct _, t, hv, hq, v, h => by
    simp only [UV.HasTy] at hv; obtain ⟨n, fs, rfl, _⟩ := hv; simp [Ty.Quotable] at hq
  | .any _, t, hv, hq, v, h => by
    simp only [UV.HasTy] at hv; subst hv; simp [Ty.Quotable] at hq
  | .json _, t, hv, hq, v, h => by
    simp only [UV.HasTy] at hv
    cases t <;> simp only [Ty.Quotable] at hq <;> simp only at hv

theorem quote_seen {y : UV} {t : Ty} {v : J} (h : QuotedBack P oe y t v) (x : UV) (hx : x = P.zero t ∨ x = (if y.nullLike then P.zero t else y.norm P oe t)) :
    (v.seen text).unm P t x = uok (if y.nullLike then P.zero t else y.norm P oe t) := by
  cases hn : y.nullLike with
  | true =>
    rw [hn] at hx
    rw [h.1 hn, seen_null]
    rcases hx with rfl | rfl <;> simp [J.unm]
  | false =>
    rw [hn] at hx
    obtain ⟨s, rfl, e⟩ := h.2 hn
    rw [seen_str]
    rcases hx with rfl | rfl
    · rw [e]; simp
    · simpa using unmStr_twice e

/-- The value of a struct field after the round trip, when it is written. -/
def backAs (P : UEnv) (oe : Bool) (vs : List UV) (fs : List (FInfo × Ty)) (e : Nat) : UV :=
  match vs[e]?, fs[e]? with
  | some y, some (_, t) => if y.nullLike then P.zero t else y.norm P oe t
  | _, _ => .nil

theorem toTVf_spec {D : Defs} : ∀ (vs : List UV) (fs : List (FInfo × Ty)), vs.length = fs.length →
    (UV.toTVf D vs fs).map (·.1) = fs.map (·.1) ∧
    (∀ i x, (i, x) ∈ UV.toTVf D vs fs ↔ ∃ (k : Nat) (y : UV) (t : Ty), vs[k]? = some y ∧ fs[k]? = some (i, t) ∧ x = y.toTV D t) := by
  intro vs
  induction vs with
  | nil =>
    intro fs h
    cases fs with
    | nil => simp [UV.toTVf]
    | cons _ _ => simp at h
  | cons y ys ih =>
    intro fs h
    cases fs with
    | nil => simp at h
    | cons f fs =>
      obtain ⟨i, t⟩ := f
      obtain ⟨h1, h2⟩ := ih fs (by simpa using h)
      simp only [UV.toTVf, List.map_cons, h1, true_and]
      intro i' x
      simp only [List.mem_cons]
      rw [h2]
      constructor
      · rintro (h | ⟨k, z, s, h3, h4, h5⟩)
        · cases h; exact ⟨0, y, t, rfl, rfl, rfl⟩
        · exact ⟨k + 1, z, s, by simpa using h3, by simpa using h4, h5⟩
      · rintro ⟨k, z, s, h3, h4, h5⟩
        cases k with
        | zero => simp at h3 h4; obtain ⟨rfl, rfl⟩ := h4; subst h3; left; rw [h5]
        | succ k => right; exact ⟨k, z, s, by simpa using h3, by simpa using h4, h5⟩

theorem normf_spec {P : UEnv} {oe : Bool} : ∀ (vs : List UV) (fs : List (FInfo × Ty)), vs.length = fs.length → (UV.normf P oe vs fs).length = fs.length ∧
    ∀ (q : Nat) y i t, vs[q]? = some y → fs[q]? = some (i, t) → (UV.normf P oe vs fs)[q]? =
      some (if i.ignore || y.nullLike || (oe && UV.empty P.defs y t (some i)) then P.zero t else UV.norm P oe y t) := by
  intro vs
  induction vs with
  | nil =>
    intro fs h
    cases fs with
    | nil => simp [UV.normf]
    | cons _ _ => simp at h
  | cons y ys ih =>
    intro fs h
    cases fs with
    | nil => simp at h
    | cons f fs =>
      obtain ⟨i, t⟩ := f
      obtain ⟨h1, h2⟩ := ih fs (by simpa using h)
      simp only [UV.normf, List.length_cons, h1, true_and]
      intro q z i' t' hz hf
      cases q with
      | zero => simp at hz hf; obtain ⟨rfl, rfl⟩ := hf; subst hz; rfl
      | succ q => simpa using h2 q z i' t' (by simpa using hz) (by simpa using hf)

/-- From the fields to the struct. -/
theorem rt_struct (hord : ∀ dep, (ord dep).Perm dep) (hP : P.RoundTripsD text) {n : Nat} {fs : List (FInfo × Ty)} (hn : P.defs[n]? = some fs) {vs : List UV}
    (hlen : vs.length = fs.length)
    (hf : ∀ (k : Nat) x i t, vs[k]? = some x → fs[k]? = some (i, t) → i.ignore = false → RTst ord oe text P x t ∧ x.HasTy P.defs t) : RTst ord oe text P (.struct vs) (.struct n) := by
  intro o ho
  refine ⟨fun h => by simp [UV.nullLike] at h, fun _ => ?_⟩
  have hgetD : P.defs.getD n [] = fs := by simp [List.getD_eq_getElem?_getD, hn]
  simp only [UV.toTV, Ty.fields, hgetD] at ho
  obtain ⟨hD, hPf⟩ := hP
  obtain ⟨hdist, hfld⟩ := hPf n fs hn
  have hheir : ∀ (q : Nat) (i : FInfo) (t : Ty), fs[q]? = some (i, t) → i.ignore = false → ∃ m, m ≤ fs.length ∧ HeirIn P n fs t m q (P.heir n fs.length q) :=
    fun q i t h1 h2 => heirIn_heir hgetD (fun k i t a b => ⟨(hfld k i t a b).2.2.1, (hfld k i t a b).2.2.2.1⟩) fs.length q i t h1 h2 (hfld q i t h1 h2).2.2.2.2
  obtain ⟨hmap, hmem⟩ := toTVf_spec (D := P.defs) vs fs hlen
  obtain ⟨m, rfl, hsorted, hget1, hget2, htot⟩ := struct_doc_heirs (P := P) (n := n) (tv := fun y t => y.toTV P.defs t) hord hdist
    (fun k i t h1 h2 => (hfld k i t h1 h2).2.2.1) (fun q i t h1 h2 => by obtain ⟨l, _, h⟩ := hheir q i t h1 h2; exact ⟨l, _, h⟩) hlen hmap hmem ho
  -- a field that is written, and what it is read back as
  have hone : ∀ (e : Nat) (i : FInfo) (t : Ty) v, fs[e]? = some (i, t) → OwnEntry ord oe (fun y t => y.toTV P.defs t) vs fs e v →
      ∀ x, x = P.zero t ∨ x = backAs P oe vs fs e → (v.seen text).unm P t x = uok (backAs P oe vs fs e) := by
    rintro q i t v e2 ⟨y, i', t', e1, e2', e3, _, e4⟩ x hx
    rw [e2] at e2'; cases e2'
    simp only [backAs, e1, e2] at hx ⊢
    cases hfs : i.forceString with
    | true => exact quote_seen (quote_back i hfs y t (hf q y i t e1 e2 e3).2 ((hfld q i t e2 e3).2.1 hfs) v e4) x hx
    | false =>
    have := (hf q y i t e1 e2 e3).1 (some v) (mar_info _ (some i) v hfs e4)
    cases hn : y.nullLike with
    | true =>
      rw [hn] at hx
      rcases this.1 hn with h | h
      · cases h
      · cases h; rcases hx with rfl | rfl <;> simp [seen_null, J.unm]
    | false =>
      rw [hn] at hx
      obtain ⟨j, h1, _, h3, h4⟩ := this.2 hn
      cases h1
      rcases hx with rfl | rfl
      · simpa using h3
      · simpa using h4
  have hzero : ∀ (q : Nat) (i : FInfo) (t : Ty), fs[q]? = some (i, t) → (fs.map fun f => P.zero f.2)[q]? = some (P.zero t) := by
    intro q i t h; rw [List.getElem?_map, h]; rfl
  have hM : ∀ k w, (k, w) ∈ (m.map fun p => (p.1, p.2.seen text)) → ∃ v, (k, v) ∈ m ∧ w = v.seen text := by
    intro k w h
    obtain ⟨⟨k', v⟩, h1, h2⟩ := List.mem_map.1 h
    cases h2
    exact ⟨v, h1, rfl⟩
  -- what ends in a field, and what may be there before
  let W : Nat → UV := fun p => backAs P oe vs fs (P.heir n fs.length p)
  let G : Nat → UV → Prop := fun p x => (∃ i t, fs[p]? = some (i, t) ∧ x = P.zero t) ∨ x = W p
  have hW : ∀ {t : Ty} {l p e : Nat}, HeirIn P n fs t l p e → W p = backAs P oe vs fs e := by
    intro t l p e h
    obtain ⟨i, h1, h2, _⟩ := h.start
    obtain ⟨l', h3, h4⟩ := hheir p i t h1 h2
    rw [h.det h4]
  -- reading the document over fields that are zero or already what they should be
  have run : ∀ st : List UV, (∀ t l p e, HeirIn P n fs t l p e → st[p]? = some (P.zero t) ∨ st[p]? = some (backAs P oe vs fs e)) →
      ∃ st', J.unmf P (m.map fun p => (p.1, p.2.seen text)) n st = some (st', []) ∧ st'.length = st.length ∧
        (∀ t l p e v, HeirIn P n fs t l p e → OwnEntry ord oe (fun y t => y.toTV P.defs t) vs fs e v → st'[p]? = some (backAs P oe vs fs e)) ∧
        ∀ p, (∀ t l e v, HeirIn P n fs t l p e → ¬ OwnEntry ord oe (fun y t => y.toTV P.defs t) vs fs e v) → st'[p]? = st[p]? := by
    intro st hst
    have hlen' : ∀ {t : Ty} {l q e : Nat}, HeirIn P n fs t l q e → ∃ l', l' ≤ fs.length ∧ HeirIn P n fs t l' q e := by
      intro t l q e h
      obtain ⟨i, h1, h2, _⟩ := h.start
      obtain ⟨l', h3, h4⟩ := hheir q i t h1 h2
      rw [← h.det h4] at h4
      exact ⟨l', h3, h4⟩
    have hent : ∀ {q : Nat} {i : FInfo} {t : Ty} {l e : Nat} {v : J}, fs[q]? = some (i, t) → HeirIn P n fs t l q e →
        OwnEntry ord oe (fun y t => y.toTV P.defs t) vs fs e v → HeirEntry P n fs G W i.name (v.seen text) q e := by
      intro q i t l e v h1 h2 h3
      obtain ⟨l', h4, h5⟩ := hlen' h2
      obtain ⟨ie, h6, _⟩ := h2.stop
      refine ⟨i, t, l', h1, rfl, h5, h4, fun m' p x hp hx => ?_⟩
      rw [hW hp]
      refine hone e ie t v h6 h3 x ?_
      obtain ⟨ip, p1, _⟩ := hp.start
      rcases hx with ⟨i2, t2, x1, x2⟩ | hx
      · rw [p1] at x1; cases x1; exact .inl x2
      · rw [hW hp] at hx; exact .inr hx
    have hst0 : ∀ t m p e, HeirIn P n fs t m p e → ∃ x, st[p]? = some x ∧ G p x := by
      intro t m p e hp
      obtain ⟨ip, p1, _⟩ := hp.start
      rcases hst t m p e hp with h | h
      · exact ⟨_, h, .inl ⟨_, _, p1, rfl⟩⟩
      · exact ⟨_, h, .inr (hW hp).symm⟩
    obtain ⟨st', g1, g2, g3, g4⟩ := unmf_heirs hgetD (G := G) (W := W) (m.map fun p => (p.1, p.2.seen text)) st hst0 (by
      intro k j hk
      obtain ⟨v, h1, rfl⟩ := hM _ _ hk
      obtain ⟨q, i, t, l, e, h2, h3, h4, h5⟩ := hget1 k v (smGet_of_mem hsorted h1)
      subst h3
      exact ⟨q, e, hent h2 h4 h5, fun t m p hp => .inr rfl⟩)
    refine ⟨st', g1, g2, ?_, ?_⟩
    · intro t l p e v h1 h2
      obtain ⟨i, h3, _, _⟩ := h1.start
      have hk := smGet_mem (hget2 p i t l e v h3 h1 h2)
      rw [← hW h1]
      exact g4 i.name (v.seen text) p e (List.mem_map_of_mem (f := fun p : Bytes × J => (p.1, p.2.seen text)) hk) (hent h3 h1 h2)
    · intro p hp
      rcases g3 p with h | ⟨k, j, q, e, t, l, h1, h2, h3, h4⟩
      · exact h
      · obtain ⟨v, h5, rfl⟩ := hM _ _ h1
        obtain ⟨q', i', t', l', e', h6, h7, h8, h9⟩ := hget1 k v (smGet_of_mem hsorted h5)
        obtain ⟨i2, t2, l2, f1, f2, f3, _⟩ := h2
        obtain ⟨ia, a1, a2, a3⟩ := h8.start
        obtain ⟨ib, b1, b2, b3⟩ := f3.start
        rw [h6] at a1; cases a1
        rw [f1] at b1; cases b1
        rw [h7] at a3
        rw [f2, a3] at b3
        cases b3
        rw [← h8.det f3] at h3
        exact absurd h9 (hp t l e' v h3)
  obtain ⟨st', g1, g2, g3, g4⟩ := run (fs.map fun f => P.zero f.2) (by
    intro t l p e h
    obtain ⟨i, h1, _⟩ := h.start
    exact .inl (hzero p i t h1))
  have hst' : ∀ t l p e, HeirIn P n fs t l p e → st'[p]? = some (P.zero t) ∨ st'[p]? = some (backAs P oe vs fs e) := by
    intro t l p e h
    by_cases hw : ∃ v, OwnEntry ord oe (fun y t => y.toTV P.defs t) vs fs e v
    · obtain ⟨v, hw⟩ := hw
      exact .inr (g3 t l p e v h hw)
    · left
      obtain ⟨i, h1, _⟩ := h.start
      rw [g4 p fun t' l' e' v h' hw' => hw ⟨v, by rw [h.det h']; exact hw'⟩]
      exact hzero p i t h1
  obtain ⟨st2, k1, k2, k3, k4⟩ := run st' hst'
  have hfix : st2 = st' := by
    apply List.ext_getElem?
    intro p
    by_cases hw : ∃ t l e v, HeirIn P n fs t l p e ∧ OwnEntry ord oe (fun y t => y.toTV P.defs t) vs fs e v
    · obtain ⟨t, l, e, v, h1, h2⟩ := hw
      rw [k3 t l p e v h1 h2, g3 t l p e v h1 h2]
    · exact k4 p fun t l e v h1 h2 => hw ⟨t, l, e, v, h1, h2⟩
  subst hfix
  obtain ⟨hl, hnf⟩ := normf_spec (P := P) (oe := oe) vs fs hlen
  have heq : st2 = P.inherit (.struct n) (UV.normf P oe vs fs) := by
    apply List.ext_getElem?
    intro q
    have hl2 : st2.length = fs.length := by rw [g2]; simp
    rcases Nat.lt_or_ge q fs.length with hq | hq
    · obtain ⟨⟨i, t⟩, e2⟩ : ∃ f, fs[q]? = some f := ⟨_, List.getElem?_eq_getElem hq⟩
      have hright : (P.inherit (.struct n) (UV.normf P oe vs fs))[q]? = some ((UV.normf P oe vs fs).getD (P.heir n fs.length q) .nil) := by
        simp only [UEnv.inherit, List.getElem?_map, List.getElem?_range (by rw [hl]; exact hq : q < (UV.normf P oe vs fs).length), Option.map_some, hgetD]
      rw [hright]
      cases hi : i.ignore with
      | true =>
        obtain ⟨y, e1⟩ : ∃ y, vs[q]? = some y := ⟨_, List.getElem?_eq_getElem (by omega)⟩
        rw [heir_ignored hgetD e2 hi, List.getD_eq_getElem?_getD, hnf q y i t e1 e2, hi]
        rw [g4 q fun t' l e v h _ => ?_]
        · rw [hzero q i t e2]; simp
        · obtain ⟨i', h1, h2, _⟩ := h.start
          rw [e2] at h1; cases h1
          rw [hi] at h2; cases h2
      | false =>
        obtain ⟨l, _, hh⟩ := hheir q i t e2 hi
        generalize P.heir n fs.length q = e at hh ⊢
        obtain ⟨ie, s1, s2, s3, _⟩ := hh.stop
        obtain ⟨y, e1⟩ : ∃ y, vs[e]? = some y := ⟨_, List.getElem?_eq_getElem (by have := (List.getElem?_eq_some_iff.1 s1).1; omega)⟩
        rw [List.getD_eq_getElem?_getD, hnf e y ie t e1 s1, s2]
        by_cases hw : ∃ v, OwnEntry ord oe (fun y t => y.toTV P.defs t) vs fs e v
        · obtain ⟨v, hw⟩ := hw
          rw [g3 t l q e v hh hw]
          obtain ⟨y', i', t', w1, w2, w3, w4, w5⟩ := hw
          rw [e1] at w1; cases w1
          rw [s1] at w2; cases w2
          have hne : (oe && UV.empty P.defs y t (some ie)) = false := by
            have := mar_none_iff _ _ _ w5
            rw [empty_iff] at this
            simp only [reduceCtorEq, false_iff, not_and, Bool.not_eq_true] at this
            cases oe with
            | false => rfl
            | true => simp [this rfl]
          simp [backAs, e1, s1, hne]
        · rw [g4 q fun t' l' e' v h' hw' => hw ⟨v, by rw [hh.det h']; exact hw'⟩, hzero q i t e2]
          obtain ⟨o, ho'⟩ := htot e y ie t e1 s1 s2 s3
          cases o with
          | some v => exact absurd ⟨v, y, ie, t, e1, s1, s2, s3, ho'⟩ hw
          | none =>
            have := (mar_none_iff _ _ _ ho').1 rfl
            rw [empty_iff] at this
            simp [this.1, this.2]
    · rw [List.getElem?_eq_none (by rw [hl2]; exact hq), List.getElem?_eq_none (by simp only [UEnv.inherit, List.length_map, List.length_range, hl]; exact hq)]
  refine ⟨_, rfl, by rw [seen_dict]; trivial, ?_, ?_⟩
  · rw [seen_dict, zero_struct hD hn]
    simp only [J.unm, UEnv.alloc, dictInto, g1, Option.map_some, List.isEmpty_nil, if_true, UV.norm, Ty.fields, hgetD, ← heq, uok]
  · rw [seen_dict]
    simp only [UV.norm, Ty.fields, hgetD, ← heq]
    simp only [J.unm, UEnv.alloc, dictInto, k1, Option.map_some, List.isEmpty_nil, if_true, uok]

theorem norms_length {P : UEnv} {oe : Bool} : ∀ (xs : List UV) (t : Ty), (UV.norms P oe xs t).length = xs.length
  | [], _ => rfl
  | x :: xs, t => by simp only [UV.norms, List.length_cons, norms_length xs t]

mutual
theorem rt (hord : ∀ dep, (ord dep).Perm dep) (hP : P.RoundTripsD text) : ∀ (v : UV) (t : Ty), v.HasTy P.defs t → t.RoundTrips text → v.Restorable oe text → RTst ord oe text P v t
  | .nil, t, hv, ht, hr => by
    intro o ho
    simp only [UV.toTV, TV.mar, Leaf.marshal, Option.some.injEq] at ho
    refine ⟨fun _ => ?_, fun h => by simp [UV.nullLike] at h⟩
    cases oe <;> simp at ho <;> simp [← ho]
  | .bool b, t, hv, ht, hr => by
    simp only [UV.HasTy] at hv; subst hv
    exact rt_leaf (l := .bool b) (j := .bool b) rfl (by simp [Leaf.marshal, marshalBoolean, optFalse, optForce]) rfl (by rw [seen_bool]; trivial) (by rw [seen_bool]; rfl) (by rw [seen_bool]; trivial)
  | .int n, t, hv, ht, hr => by
    simp only [UV.HasTy] at hv
    refine rt_leaf (l := .int (wrapI 64 n)) (j := .int (wrapI 64 n)) rfl (by simp [Leaf.marshal, marshalInt64, optZero, optForce, newInt]) rfl ?_ ?_ (by rw [seen_int]; trivial)
    · rw [seen_int]; cases t <;> simp only at hv <;> trivial
    · rw [seen_int]
      cases t with
      | int b =>
        simp only at hv
        simp only [J.unm, UEnv.alloc, unmInt, UV.norm, wrapI_back b hv.1 hv.2.1 n hv.2.2.1 hv.2.2.2]
      | uint b =>
        simp only at hv
        simp only [J.unm, UEnv.alloc, unmInt, UV.norm, wrapU_back b hv.2.1 n hv.2.2.1 hv.2.2.2]
      | _ => simp only at hv
  | .float x, t, hv, ht, hr => by
    simp only [UV.HasTy] at hv
    rcases hv with ⟨rfl, hc⟩ | ⟨rfl, hc⟩
    · exact rt_leaf (l := .float64 x) (j := .float x 64) rfl (by simp [Leaf.marshal, marshalFloat64, optZero, optForce, newFloat64]) rfl (seen_float (P := P) x hc hr .nil).2 (seen_float x hc hr _).1 (seen_float (P := P) x hc hr .nil).2
    · simp only [Ty.RoundTrips] at ht
      subst ht
      refine rt_leaf (l := .float32 x) (j := .float x 32) rfl (by simp [Leaf.marshal, marshalFloat32, optZero, optForce, newFloat32]) rfl trivial ?_ trivial
      simp only [J.seen, Bool.false_eq_true, if_false, J.unm, UEnv.alloc, unmFloat, UV.norm, toF32_isF32 x hc]
  | .str s, t, hv, ht, hr => by
    simp only [UV.HasTy] at hv; subst hv
    exact rt_leaf (l := .str s) (j := .str s) rfl (by simp [Leaf.marshal, marshalString, optEmpty]) rfl (by rw [seen_str]; trivial) (by rw [seen_str]; rfl) (by rw [seen_str]; trivial)
  | .seq xs sp, t, hv, ht, hr => by
    simp only [UV.HasTy] at hv
    obtain ⟨t', rfl, h1, _⟩ := hv
    simp only [UV.Restorable] at hr
    intro o ho
    refine ⟨fun h => by simp [UV.nullLike] at h, fun _ => ?_⟩
    simp only [UV.toTV, Ty.elem, TV.mar] at ho
    rw [if_neg (by simp [optEmpty])] at ho
    split at ho
    · cases ho
    · rename_i ys hys
      cases ho
      obtain ⟨g1, g2, g3⟩ := rts hord hP xs t' h1 (by simpa only [Ty.RoundTrips] using ht) hr ys hys
      refine ⟨.arr ys, by simp [forceJ, optForce], by rw [seen_arr]; trivial, ?_, ?_⟩
      · rw [seen_arr]
        simp only [J.unm, UEnv.alloc, arrInto, UV.norm, Ty.elem]
        have hz : P.zero (.slice t') = .nil := rfl
        simp only [hz, UEnv.resize, List.length_map, g2, Option.map_some, uok]
      · rw [seen_arr]
        have hl : (ys.map (J.seen text)).length = (UV.norms P oe xs t').length := by rw [List.length_map, g1, norms_length]
        simp only [J.unm, UEnv.alloc, arrInto, UV.norm, Ty.elem, hl, resize_exact, g3, Option.map_some, uok]
  | .arr xs, t, hv, ht, hr => by
    simp only [UV.HasTy] at hv
    obtain ⟨t', rfl, h1⟩ := hv
    simp only [UV.Restorable] at hr
    intro o ho
    refine ⟨fun h => by simp [UV.nullLike] at h, fun _ => ?_⟩
    simp only [UV.toTV, Ty.elem, TV.mar] at ho
    rw [if_neg (by simp [optEmpty])] at ho
    split at ho
    · cases ho
    · rename_i ys hys
      cases ho
      obtain ⟨g1, g2, g3⟩ := rts hord hP xs t' h1 (by simpa only [Ty.RoundTrips] using ht) hr ys hys
      refine ⟨.arr ys, by simp [forceJ, optForce], by rw [seen_arr]; trivial, ?_, ?_⟩
      · rw [seen_arr]
        simp only [J.unm, UEnv.alloc, zero_array, arrInto, UV.norm, Ty.elem, List.length_map, g1, ne_eq, not_true_eq_false, if_false]
        rw [g1] at g2
        simp only [g2, Option.map_some, uok]
      · rw [seen_arr]
        simp only [J.unm, UEnv.alloc, arrInto, UV.norm, Ty.elem, List.length_map, g1, ne_eq, not_true_eq_false, if_false, g3, Option.map_some, uok]
  | .map kvs, t, hv, ht, hr => by
    simp only [UV.HasTy] at hv
    obtain ⟨hs, t', ht', h1⟩ := hv
    rcases ht' with rfl | rfl
    · simp only [UV.Restorable] at hr
      intro o ho
      refine ⟨fun h => by simp [UV.nullLike] at h, fun _ => ?_⟩
      simp only [UV.toTV, Ty.elem, TV.mar] at ho
      rw [if_neg (by simp [optEmpty])] at ho
      split at ho
      · cases ho
      · rename_i ps hps
        cases ho
        obtain ⟨g1, g2, g3⟩ := rtm hord hP kvs t' h1 (by simpa only [Ty.RoundTrips] using ht) hr ps hps
        have hsub : SMap.Sorted (UV.normm P oe kvs t') := by
          have hk : (kvs.map (·.1)).Pairwise (fun a b => blt a b = true) := List.pairwise_map.2 hs
          exact List.pairwise_map.1 (hk.sublist g2)
        have hsp : SMap.Sorted ps := by
          have : (ps.map (·.1)).Pairwise (fun a b => blt a b = true) := by rw [g1]; exact List.pairwise_map.2 hsub
          exact List.pairwise_map.1 this
        have hpd : ∀ {α : Type} (l : SMap α), SMap.Sorted l → pairsDict l = l := by
          intro α l hl
          have := foldl_smAdd_sorted l [] (by simpa using hl)
          simpa [pairsDict] using this
        refine ⟨.dict 0 ps, by simp [forceJ, optForce, hpd ps hsp], by rw [seen_dict]; trivial, ?_, ?_⟩
        · rw [seen_dict]
          have hz : P.zero (.map t') = .nil := rfl
          simp only [J.unm, UEnv.alloc, dictInto, hz, UV.entries, UV.norm, Ty.elem, g3, Option.map_some, uok]
          have := hpd _ hsub
          unfold pairsDict at this
          rw [this]
        · rw [seen_dict]
          simp only [J.unm, UEnv.alloc, dictInto, UV.entries, UV.norm, Ty.elem, g3, Option.map_some, uok]
          rw [foldl_smAdd_self hsub _ fun p hp => hp]
    · exact absurd ht (by simp [Ty.RoundTrips])
  | .ptr x, t, hv, ht, hr => by
    simp only [UV.HasTy] at hv
    obtain ⟨t', rfl, h1⟩ := hv
    simp only [UV.Restorable] at hr
    have ih := rt hord hP x t' h1 ht.1 hr
    intro o ho
    simp only [UV.toTV, Ty.elem, TV.mar] at ho
    obtain ⟨g1, g2⟩ := ih o ho
    simp only [UV.nullLike]
    refine ⟨g1, fun h => ?_⟩
    obtain ⟨j, e1, e2, e3, e4⟩ := g2 h
    refine ⟨j, e1, by simpa only [J.DocFor] using e2, ?_, ?_⟩
    · rw [unm_ptr_fresh P e2 ht, e3]
      simp only [uptr, uok, Option.map_some, UV.norm, Ty.elem]
    · simp only [UV.norm, Ty.elem]
      rw [unm_ptr_old P _ e2 ht, e4]
      simp only [uptr, uok, Option.map_some]
  | .struct vs, t, hv, ht, hr => by
    simp only [UV.HasTy] at hv
    obtain ⟨n, fs, rfl, h1, h2⟩ := hv
    simp only [UV.Restorable] at hr
    refine rt_struct hord hP h1 ((hasTyf_iff vs fs).1 h2).1 ?_
    exact rtf hord hP vs fs h2 (fun k i t h hi => ((hP.2 n fs h1).2 k i t h hi).1) hr
  | .any a, t, hv, ht, hr => by
    simp only [UV.HasTy] at hv; subst hv
    simp [Ty.RoundTrips] at ht
  | .json j, t, hv, ht, hr => by
    simp only [UV.HasTy] at hv
    have hnull : (UV.json j).nullLike = true ↔ j = .null := by
      cases j <;> simp [UV.nullLike]
    simp only [UV.Restorable] at hr
    have hnotptr := hr.1
    have hseen : j.seen text = j := by
      cases text with
      | false => rfl
      | true => exact reread_noFloat j (hr.2 rfl).1 (hr.2 rfl).2
    cases t with
    | jobj =>
      intro o ho
      simp only [UV.toTV, TV.mar, Leaf.marshal, Option.some.injEq] at ho
      subst ho
      refine ⟨fun h => .inr (by rw [hnull.1 h]), fun h => ⟨j, rfl, trivial, ?_⟩⟩
      rw [hseen]
      cases j with
      | null => simp [UV.nullLike] at h
      | ptr id => exact absurd rfl (hnotptr id)
      | _ => exact ⟨rfl, rfl⟩
    | jptr k =>
      intro o ho
      simp only [UV.toTV, TV.mar, Leaf.marshal, Option.some.injEq] at ho
      subst ho
      simp only at hv
      refine ⟨fun h => .inr (by rw [hnull.1 h]), fun h => ⟨j, rfl, trivial, ?_⟩⟩
      rw [hseen]
      cases j with
      | null => simp [J.HasKind] at hv
      | ptr id => simp [J.HasKind] at hv
      | _ => simp only [J.HasKind] at hv; subst hv; exact ⟨rfl, rfl⟩
    | jval k => simp [Ty.RoundTrips] at ht
    | _ => simp only at hv
theorem rts (hord : ∀ dep, (ord dep).Perm dep) (hP : P.RoundTripsD text) : ∀ (xs : List UV) (t : Ty), UV.HasTys P.defs xs t → t.RoundTrips text → UV.Restorables oe text true xs →
    ∀ ys, TV.mars ord oe (UV.toTVs P.defs xs t) = some ys → ys.length = xs.length ∧
      J.unms P (ys.map (J.seen text)) t (List.replicate ys.length (P.zero t)) = some (UV.norms P oe xs t, none) ∧
      J.unms P (ys.map (J.seen text)) t (UV.norms P oe xs t) = some (UV.norms P oe xs t, none)
  | [], t, _, _, _, ys, h => by
    simp only [UV.toTVs, TV.mars] at h; cases h
    exact ⟨rfl, rfl, rfl⟩
  | x :: xs, t, hv, ht, hr, ys, h => by
    simp only [UV.HasTys] at hv
    simp only [UV.Restorables] at hr
    simp only [UV.toTVs, TV.mars] at h
    split at h
    · cases h
    · rename_i o ho
      split at h
      · cases h
      · rename_i ys' hys
        cases h
        obtain ⟨g1, g2, g2'⟩ := rts hord hP xs t hv.2 ht hr.2.2 ys' hys
        obtain ⟨e1, e2⟩ := rt hord hP x t hv.1 ht hr.2.1 o ho
        have hsome : ∃ j, o = some j ∧ (j.seen text).unm P t (P.zero t) = uok (if x.nullLike then P.zero t else x.norm P oe t) ∧
            (j.seen text).unm P t (if x.nullLike then P.zero t else x.norm P oe t) = uok (if x.nullLike then P.zero t else x.norm P oe t) := by
          cases hx : x.nullLike with
          | true =>
            rcases e1 hx with h | h
            · subst h
              have := (mar_none_iff _ _ _ ho).1 rfl
              rw [empty_iff, empty_none_iff] at this
              rw [hr.1 this.1 (by trivial)] at this
              simp at this
            · exact ⟨_, h, by simp [seen_null, J.unm], by simp [seen_null, J.unm]⟩
          | false =>
            obtain ⟨j, h1, _, h3, h4⟩ := e2 hx
            exact ⟨j, h1, by simpa using h3, by simpa using h4⟩
        obtain ⟨j, rfl, hj, hj'⟩ := hsome
        refine ⟨by simp only [List.length_cons, g1], ?_, ?_⟩
        · simp only [List.map_cons, List.length_cons, List.replicate_succ, J.unms, hj, uok, g2, Option.map_some, UV.norms]
        · simp only [List.map_cons, J.unms, hj', uok, g2', Option.map_some, UV.norms]
theorem rtm (hord : ∀ dep, (ord dep).Perm dep) (hP : P.RoundTripsD text) : ∀ (kvs : List (Bytes × UV)) (t : Ty), UV.HasTym P.defs kvs t → t.RoundTrips text → UV.Restorablem oe text kvs →
    ∀ ps, TV.marm ord oe (UV.toTVm P.defs kvs t) = some ps → ps.map (·.1) = (UV.normm P oe kvs t).map (·.1) ∧
      ((UV.normm P oe kvs t).map (·.1)).Sublist (kvs.map (·.1)) ∧
      ∀ m, J.unmm P (ps.map fun p => (p.1, p.2.seen text)) t m = some ((UV.normm P oe kvs t).foldl (fun m p => smAdd m p.1 p.2) m, none)
  | [], t, _, _, _, ps, h => by
    simp only [UV.toTVm, TV.marm] at h; cases h
    exact ⟨rfl, by simp [UV.normm], fun m => rfl⟩
  | (k, x) :: xs, t, hv, ht, hr, ps, h => by
    simp only [UV.HasTym] at hv
    simp only [UV.Restorablem] at hr
    simp only [UV.toTVm, TV.marm] at h
    split at h
    · cases h
    · rename_i o ho
      split at h
      · cases h
      · rename_i ys' hys
        cases h
        obtain ⟨g1, g2, g3⟩ := rtm hord hP xs t hv.2 ht hr.2 ys' hys
        obtain ⟨e1, e2⟩ := rt hord hP x t hv.1 ht hr.1 o ho
        have hnone := mar_none_iff _ _ _ ho
        rw [empty_iff, empty_none_iff] at hnone
        simp only [UV.normm]
        cases o with
        | none =>
          have := hnone.1 rfl
          simp only [this.1, this.2, Bool.and_self, if_true]
          simp only [this.1] at g1 g2 g3
          exact ⟨g1, g2.trans (by simp), g3⟩
        | some j =>
          have hcond : (oe && x.nilLike) = false := by
            cases hoe : oe with
            | false => rfl
            | true =>
              cases hx : x.nilLike with
              | false => rfl
              | true => exact absurd (hnone.2 ⟨hoe, hx⟩) (by simp)
          have hj : (j.seen text).unm P t (P.zero t) = uok (if x.nullLike then P.zero t else x.norm P oe t) := by
            cases hx : x.nullLike with
            | true =>
              rcases e1 hx with h | h
              · cases h
              · cases h; simp [seen_null, J.unm]
            | false =>
              obtain ⟨j, h1, _, h3, _⟩ := e2 hx
              cases h1; simpa using h3
          simp only [hcond, Bool.false_eq_true, if_false, List.map_cons, g1, true_and]
          refine ⟨by simpa using g2, fun m => ?_⟩
          simp only [List.map_cons, J.unmm, hj, uok, List.foldl_cons]
          exact g3 _
theorem rtf (hord : ∀ dep, (ord dep).Perm dep) (hP : P.RoundTripsD text) : ∀ (vs : List UV) (fs : List (FInfo × Ty)), UV.HasTyf P.defs vs fs →
    (∀ (k : Nat) i t, fs[k]? = some (i, t) → i.ignore = false → t.RoundTrips text) → UV.Restorables oe text false vs →
    ∀ (k : Nat) x i t, vs[k]? = some x → fs[k]? = some (i, t) → i.ignore = false → RTst ord oe text P x t ∧ x.HasTy P.defs t
  | [], fs, _, _, _, k, x, i, t, h, _, _ => by simp at h
  | y :: ys, fs, hv, hf, hr, k, x, i, t, h, h', hi => by
    simp only [UV.HasTyf] at hv
    obtain ⟨i0, t0, r, rfl, h1, h2⟩ := hv
    simp only [UV.Restorables] at hr
    cases k with
    | zero =>
      simp only [List.getElem?_cons_zero, Option.some.injEq, Prod.mk.injEq] at h h'
      obtain ⟨rfl, rfl⟩ := h'
      subst h
      exact ⟨rt hord hP y t0 h1 (hf 0 i0 t0 rfl hi) hr.2.1, h1⟩
    | succ k =>
      exact rtf hord hP ys r h2 (fun k i t h hi => hf (k + 1) i t (by simpa using h) hi) hr.2.2 k x i t (by simpa using h) (by simpa using h') hi
end

end

end Jsonutils
