import Verif.Spec.Hooks
import Verif.Proofs.UnmarshalBase
import Verif.Proofs.SortedMap

/-! Methods of the user's types. -/

namespace Jsonutils

section
variable {H : Hooks} {P : UEnv}

/-! ### Allocation -/

theorem alloc_alloc (P : UEnv) : ∀ (t : Ty) (v : UV), P.alloc t (P.alloc t v) = P.alloc t v
  | .ptr t, v => by
    cases v <;> simp only [UEnv.alloc, alloc_alloc P t]
  | .jptr k, v => by cases v <;> cases k <;> rfl
  | .bool, _ => rfl
  | .int _, _ => rfl
  | .uint _, _ => rfl
  | .float32, _ => rfl
  | .float64, _ => rfl
  | .string, _ => rfl
  | .slice _, _ => rfl
  | .array _ _, _ => rfl
  | .map _, _ => rfl
  | .mapOther _, _ => rfl
  | .struct _, _ => rfl
  | .any, _ => rfl
  | .jobj, _ => rfl
  | .jval _, _ => rfl
  | .other, _ => rfl

theorem alloc_is_ptr (P : UEnv) (t : Ty) (v : UV) : ∃ x, P.alloc (.ptr t) v = .ptr x ∧ P.alloc t x = x := by
  cases v <;> exact ⟨_, rfl, alloc_alloc P t _⟩

/-! ### Types without methods -/

theorem bare_find {S : Nat → Prop} : ∀ t : Ty, t.Bare H S → H.find t = none
  | .ptr t, h => bare_find t (by simpa only [Ty.Bare] using h)
  | .jptr _, _ => rfl
  | .slice _, h => h.1
  | .array _ _, h => h.1
  | .map _, h => h.1
  | .struct _, h => h.1
  | .mapOther _, h => h
  | .bool, h => h
  | .int _, h => h
  | .uint _, h => h
  | .float32, h => h
  | .float64, h => h
  | .string, h => h
  | .any, h => h
  | .jobj, h => h
  | .jval _, h => h
  | .other, h => h

theorem bare_time (hH : H.Ok) {S : Nat → Prop} (t : Ty) (h : t.Bare H S) : H.isTime t = false := by
  cases ht : H.isTime t with
  | false => rfl
  | true =>
    obtain ⟨n, rfl⟩ := hH t ht
    rw [h.2.1] at ht; cases ht

theorem tryStd_none (h : H.find t = none) (text : Bytes) (v : UV) (rest : UV → URes) : H.tryStd P text t v rest = rest (P.alloc t v) := by
  simp only [Hooks.tryStd, h]

theorem strVal_bare (hH : H.Ok) {S : Nat → Prop} (s : Bytes) : ∀ (t : Ty) (v : UV), t.Bare H S → H.strVal P s t v = unmStr P s t (P.alloc t v) := by
  intro t
  induction t with
  | ptr t ih =>
    intro v h
    have ht := bare_time hH _ h
    have hf := bare_find _ h
    simp only [Hooks.strVal, ht, Bool.false_eq_true, if_false, tryStd_none hf]
    obtain ⟨x, hx, hx'⟩ := alloc_is_ptr P t v
    rw [hx]
    simp only [unmStr]
    rw [ih x (by simpa only [Ty.Bare] using h), hx']
  | slice t ih =>
    intro v h
    have ht := bare_time hH _ h
    have hf := bare_find _ h
    simp only [Hooks.strVal, ht, Bool.false_eq_true, if_false, tryStd_none hf, UEnv.alloc, unmStr]
    cases v.backing with
    | nil => simp only; rw [ih _ h.2]
    | cons x r => simp only; rw [ih _ h.2]
  | _ =>
    intro v h
    have ht := bare_time hH _ h
    have hf := bare_find _ h
    simp only [Hooks.strVal, ht, Bool.false_eq_true, if_false, tryStd_none hf]

theorem setLoop_congr {tys : List (FInfo × Ty)} {a1 a2 : Ty → UV → URes}
    {g1 g2 : Bytes → List Bytes → List UV → Option (List UV × List Bytes × Option UErr)} (ha : ∀ i t, (i, t) ∈ tys → ∀ v, a1 t v = a2 t v)
    (hg : ∀ k vis vs, g1 k vis vs = g2 k vis vs) : ∀ (is : List Nat) (vis : List Bytes) (vs : List UV),
    setLoop tys a1 g1 is vis vs = setLoop tys a2 g2 is vis vs
  | [], _, _ => rfl
  | i :: is, vis, vs => by
    simp only [setLoop]
    cases hty : tys[i]? with
    | none => rfl
    | some it =>
      obtain ⟨info, t⟩ := it
      cases vs[i]? with
      | none => rfl
      | some v =>
        simp only
        rw [ha info t (List.mem_of_getElem? hty) v]
        cases a2 t v with
        | none => rfl
        | some r =>
          obtain ⟨v', e⟩ := r
          cases e with
          | some e => rfl
          | none =>
            simp only
            cases info.deprecatedBy with
            | none => simp only; exact setLoop_congr ha hg is vis _
            | some k =>
              simp only [hg]
              cases g2 k vis (vs.set i v') with
              | none => rfl
              | some r =>
                obtain ⟨a, b, c⟩ := r
                cases c with
                | some c => rfl
                | none => simp only; exact setLoop_congr ha hg is _ _

theorem setKey_congr {idx : Bytes → List Nat} {tys : List (FInfo × Ty)} {a1 a2 : Ty → UV → URes} (ha : ∀ i t, (i, t) ∈ tys → ∀ v, a1 t v = a2 t v) :
    ∀ (f : Nat) (k : Bytes) (vis : List Bytes) (vs : List UV), setKey idx tys a1 f k vis vs = setKey idx tys a2 f k vis vs
  | 0, _, _, _ => rfl
  | f + 1, k, vis, vs => by
    simp only [setKey]
    rw [setLoop_congr ha (setKey_congr ha f)]

theorem arrInto_congr {xs : List J} {e1 e2 : Ty → List UV → Option (List UV × Option UErr)} {S : Nat → Prop} (t : Ty) (v : UV) (ht : t.Bare H S)
    (he : ∀ t', t'.Bare H S → ∀ vs, e1 t' vs = e2 t' vs) : arrInto P xs e1 t v = arrInto P xs e2 t v := by
  cases t with
  | slice t => simp only [arrInto, he t ht.2]
  | array n t => cases v <;> simp only [arrInto, he t ht.2]
  | jval k => cases k <;> cases v <;> first | rfl | (rename_i j; cases j <;> rfl)
  | jptr k => cases k <;> rfl
  | _ => rfl

theorem dictInto_congr {id : Int} {kvs : SMap J} {e1 e2 : Ty → SMap UV → Option (SMap UV × Option UErr)} {f1 f2 : Nat → List UV → Option (List UV × List UErr)}
    {S : Nat → Prop} (t : Ty) (v : UV) (ht : t.Bare H S) (he : ∀ t', t'.Bare H S → ∀ m, e1 t' m = e2 t' m) (hf : ∀ n, S n → ∀ vs, f1 n vs = f2 n vs) :
    dictInto id kvs e1 f1 t v = dictInto id kvs e2 f2 t v := by
  cases t with
  | map t => simp only [dictInto, he t ht.2]
  | struct n => cases v <;> simp only [dictInto, hf n ht.2.2]
  | jval k => cases k <;> cases v <;> first | rfl | (rename_i j; cases j <;> rfl)
  | jptr k => cases k <;> rfl
  | _ => rfl

mutual
theorem unmH_bare (hH : H.Ok) {S : Nat → Prop} (hS : H.Closed P S) : ∀ (j : J) (t : Ty) (v : UV), t.Bare H S → j.unmH H P t v = j.unm P t v
  | .null, t, v, _ => by simp only [J.unmH, J.unm]
  | .ptr _, t, v, _ => by simp only [J.unmH, J.unm]
  | .int n, t, v, ht => by simp only [J.unmH, J.unm, tryStd_none (bare_find t ht)]
  | .bool n, t, v, ht => by simp only [J.unmH, J.unm, tryStd_none (bare_find t ht)]
  | .float n b, t, v, ht => by simp only [J.unmH, J.unm, tryStd_none (bare_find t ht)]
  | .str s, t, v, ht => by simp only [J.unmH, J.unm]; exact strVal_bare hH s t v ht
  | .arr xs, t, v, ht => by
    simp only [J.unmH, J.unm, tryStd_none (bare_find t ht)]
    cases t with
    | ptr t =>
      obtain ⟨x, hx, _⟩ := alloc_is_ptr P t v
      simp only [hx]
      split
      · rw [arrInto_congr (S := S) t x (by simpa only [Ty.Bare] using ht) (fun t' h vs => unmHs_bare hH hS xs t' vs h)]
      · rfl
    | _ => exact arrInto_congr (S := S) _ _ ht (fun t' h vs => unmHs_bare hH hS xs t' vs h)
  | .dict id kvs, t, v, ht => by
    simp only [J.unmH, J.unm, tryStd_none (bare_find t ht)]
    have hf : ∀ n, S n → ∀ vs, (J.unmHf H P kvs n vs).map (fun p => (H.after n p.1, p.2)) = J.unmf P kvs n vs := by
      intro n hn vs
      rw [unmHf_bare hH hS kvs n vs hn]
      cases J.unmf P kvs n vs with
      | none => rfl
      | some p => simp only [Option.map_some, (hS n hn).1]
    cases t with
    | ptr t =>
      obtain ⟨x, hx, _⟩ := alloc_is_ptr P t v
      simp only [hx]
      split
      · rw [dictInto_congr (S := S) t x (by simpa only [Ty.Bare] using ht) (fun t' h m => unmHm_bare hH hS kvs t' m h) hf]
      · rfl
    | _ => exact dictInto_congr (S := S) _ _ ht (fun t' h m => unmHm_bare hH hS kvs t' m h) hf
theorem unmHs_bare (hH : H.Ok) {S : Nat → Prop} (hS : H.Closed P S) : ∀ (js : List J) (t : Ty) (vs : List UV), t.Bare H S → J.unmHs H P js t vs = J.unms P js t vs
  | [], _, _, _ => by simp only [J.unmHs, J.unms]
  | j :: js, t, [], _ => by simp only [J.unmHs, J.unms]
  | j :: js, t, v :: vs, ht => by
    simp only [J.unmHs, J.unms]
    rw [unmH_bare hH hS j t v ht, unmHs_bare hH hS js t vs ht]
    cases J.unm P j t v with
    | none => rfl
    | some r => obtain ⟨w, e⟩ := r; cases e <;> rfl
theorem unmHm_bare (hH : H.Ok) {S : Nat → Prop} (hS : H.Closed P S) : ∀ (js : List (Bytes × J)) (t : Ty) (m : SMap UV), t.Bare H S → J.unmHm H P js t m = J.unmm P js t m
  | [], _, _, _ => by simp only [J.unmHm, J.unmm]
  | (k, j) :: js, t, m, ht => by
    simp only [J.unmHm, J.unmm]
    rw [unmH_bare hH hS j t _ ht]
    cases J.unm P j t (P.zero t) with
    | none => rfl
    | some r =>
      obtain ⟨w, e⟩ := r
      cases e with
      | some e => rfl
      | none => exact unmHm_bare hH hS js t _ ht
theorem unmHf_bare (hH : H.Ok) {S : Nat → Prop} (hS : H.Closed P S) : ∀ (js : List (Bytes × J)) (n : Nat) (vs : List UV), S n → J.unmHf H P js n vs = J.unmf P js n vs
  | [], _, _, _ => by simp only [J.unmHf, J.unmf]
  | (k, j) :: js, n, vs, hn => by
    simp only [J.unmHf, J.unmf]
    rw [setKey_congr (a2 := fun t v => j.unm P t v) (fun i t hm v => unmH_bare hH hS j t v ((hS n hn).2 i t hm))]
    cases setKey (P.idx n) (P.defs.getD n []) (fun t v => j.unm P t v) ((P.defs.getD n []).length + 2) k [] vs with
    | none => rfl
    | some r =>
      obtain ⟨a, b, e⟩ := r
      simp only
      rw [unmHf_bare hH hS js n _ hn]
      cases e <;> rfl
end

/-! ### Calls of `UnmarshalJSON` -/

theorem find_ptrs {T : Ty} (hT : T.NoPointer) : ∀ k : Nat, H.find (T.ptrs k) = H.std T
  | 0 => by cases T <;> simp only [Ty.NoPointer] at hT <;> rfl
  | k + 1 => by simp only [Ty.ptrs, Hooks.find]; exact find_ptrs hT k

theorem alloc_pointee {T : Ty} (hT : T.NoPointer) (f : UV → URes) : ∀ (k : Nat) (v : UV),
    behindTy f (T.ptrs k) (P.alloc (T.ptrs k) v) = (f (P.pointee T k v)).map fun p => (p.1.ptrs k, p.2)
  | 0, v => by
    simp only [Ty.ptrs, UEnv.pointee, UV.ptrs]
    have : P.alloc T v = v := by cases T <;> simp only [Ty.NoPointer] at hT <;> rfl
    rw [this]
    have : behindTy f T v = f v := by cases T <;> simp only [Ty.NoPointer] at hT <;> rfl
    rw [this]
    cases f v <;> rfl
  | k + 1, v => by
    have hz : P.pointee T k (P.zero (T.ptrs k)) = P.zero T := by cases k <;> rfl
    have go : ∀ x, behindTy f (Ty.ptr (T.ptrs k)) (.ptr (P.alloc (T.ptrs k) x)) = (f (P.pointee T k x)).map fun p => (p.1.ptrs (k + 1), p.2) := by
      intro x
      simp only [behindTy, alloc_pointee hT f k x]
      cases f (P.pointee T k x) <;> rfl
    cases v with
    | ptr x => exact go x
    | _ => simp only [Ty.ptrs, UEnv.alloc, go, hz, UEnv.pointee]

/-- The document is no null and no reference. -/
def J.Real : J → Prop
  | .null => False
  | .ptr _ => False
  | _ => True

theorem tryStd_some {T : Ty} (hT : T.NoPointer) {h : Bytes → UV → URes} (hh : H.std T = some h) (k : Nat) (text : Bytes) (v : UV) (rest : UV → URes) :
    H.tryStd P text (T.ptrs k) v rest = (h text (P.pointee T k v)).map fun p => (p.1.ptrs k, p.2) := by
  simp only [Hooks.tryStd, find_ptrs hT k, hh]
  exact alloc_pointee hT _ k v

theorem unmH_called {T : Ty} (hT : T.NoPointer) {h : Bytes → UV → URes} (hh : H.std T = some h) (k : Nat) (j : J) (hj : j.Real)
    (hs : (∃ s, j = .str s) → H.isTime (T.ptrs k) = false) (v : UV) :
    j.unmH H P (T.ptrs k) v = (h j.toBytes (P.pointee T k v)).map fun p => (p.1.ptrs k, p.2) := by
  cases j with
  | null => cases hj
  | ptr _ => cases hj
  | int n => simp only [J.unmH]; exact tryStd_some hT hh ..
  | bool n => simp only [J.unmH]; exact tryStd_some hT hh ..
  | float n b => simp only [J.unmH]; exact tryStd_some hT hh ..
  | arr n => simp only [J.unmH]; exact tryStd_some hT hh ..
  | dict n b => simp only [J.unmH]; exact tryStd_some hT hh ..
  | str s =>
    have ht := hs ⟨s, rfl⟩
    have key := fun rest => tryStd_some (P := P) hT hh k (J.str s).toBytes v rest
    simp only [J.unmH]
    generalize he : T.ptrs k = t at ht key
    cases t with
    | ptr t => simp only [Hooks.strVal, ht, Bool.false_eq_true, if_false]; exact key _
    | slice t => simp only [Hooks.strVal, ht, Bool.false_eq_true, if_false]; exact key _
    | _ => simp only [Hooks.strVal, ht, Bool.false_eq_true, if_false]; exact key _

/-! ### Invariants -/

variable {I : Nat → List UV → Prop}

theorem invs_iff {D : Defs} {t : Ty} : ∀ xs : List UV, UV.Invs I D xs t ↔ ∀ x ∈ xs, x.Inv I D t
  | [] => by simp [UV.Invs]
  | x :: xs => by simp [UV.Invs, invs_iff xs]

theorem invm_iff {D : Defs} {t : Ty} : ∀ xs : List (Bytes × UV), UV.Invm I D xs t ↔ ∀ p ∈ xs, p.2.Inv I D t
  | [] => by simp [UV.Invm]
  | (k, x) :: xs => by simp [UV.Invm, invm_iff xs]

theorem invf_iff {D : Defs} : ∀ (xs : List UV) (fs : List (FInfo × Ty)), UV.Invf I D xs fs ↔
    ∀ (q : Nat) x i t, xs[q]? = some x → fs[q]? = some (i, t) → x.Inv I D t
  | [], fs => by simp [UV.Invf]
  | x :: xs, [] => by simp [UV.Invf]
  | x :: xs, (i, t) :: fs => by
    simp only [UV.Invf, invf_iff xs fs]
    constructor
    · rintro ⟨h1, h2⟩ q y i' t' hx hf
      cases q with
      | zero => simp at hx hf; obtain ⟨rfl, rfl⟩ := hf; subst hx; exact h1
      | succ q => exact h2 q y i' t' (by simpa using hx) (by simpa using hf)
    · intro h
      exact ⟨h 0 x i t rfl rfl, fun q y i' t' hx hf => h (q + 1) y i' t' (by simpa using hx) (by simpa using hf)⟩

/-- Values fine for the invariant, after a call. -/
def URes.Inv (I : Nat → List UV → Prop) (D : Defs) (t : Ty) (r : URes) : Prop := ∀ w e, r = some (w, e) → w.Inv I D t

theorem inv_uok {D : Defs} {t : Ty} {v : UV} (h : v.Inv I D t) : URes.Inv I D t (uok v) := by
  intro w e hw; cases hw; exact h
theorem inv_uerr {D : Defs} {t : Ty} {v : UV} {e : UErr} (h : v.Inv I D t) : URes.Inv I D t (uerr v e) := by
  intro w e hw; cases hw; exact h
theorem inv_none {D : Defs} {t : Ty} : URes.Inv I D t none := by intro w e hw; cases hw
theorem inv_uptr {D : Defs} {t : Ty} {r : URes} (h : URes.Inv I D t r) : URes.Inv I D (.ptr t) (uptr r) := by
  intro w e hw
  cases r with
  | none => cases hw
  | some p => cases hw; exact h _ _ rfl

theorem inv_alloc (hk : H.Keeps P I) : ∀ (t : Ty) (v : UV), v.Inv I P.defs t → (P.alloc t v).Inv I P.defs t
  | .ptr t, v, h => by
    cases v with
    | ptr x => exact inv_alloc hk t x h
    | _ => exact inv_alloc hk t _ (hk.zero t)
  | .jptr k, v, h => by
    cases v with
    | nil => cases k <;> trivial
    | _ => exact h
  | .bool, _, h => h
  | .int _, _, h => h
  | .uint _, _, h => h
  | .float32, _, h => h
  | .float64, _, h => h
  | .string, _, h => h
  | .slice _, _, h => h
  | .array _ _, _, h => h
  | .map _, _, h => h
  | .mapOther _, _, h => h
  | .struct _, _, h => h
  | .any, _, h => h
  | .jobj, _, h => h
  | .jval _, _, h => h
  | .other, _, h => h

/-- The variable behind the pointers is of the type with the method. -/
theorem inv_behindTy (hk : H.Keeps P I) (text : Bytes) : ∀ (t : Ty) (v : UV) (f : Bytes → UV → URes), H.find t = some f → (P.alloc t v).Inv I P.defs t →
    URes.Inv I P.defs t (behindTy (f text) t (P.alloc t v))
  | .ptr t, v, f, hf, hv => by
    obtain ⟨x, hx, hx'⟩ := alloc_is_ptr P t v
    rw [hx] at hv ⊢
    simp only [behindTy]
    apply inv_uptr
    rw [← hx']
    exact inv_behindTy hk text t x f hf (by rw [hx']; exact hv)
  | .jptr _, _, _, hf, _ => by simp [Hooks.find] at hf
  | .bool, _, f, hf, hv => fun w e hw => hk.std _ f hf text _ w e hv hw
  | .int _, _, f, hf, hv => fun w e hw => hk.std _ f hf text _ w e hv hw
  | .uint _, _, f, hf, hv => fun w e hw => hk.std _ f hf text _ w e hv hw
  | .float32, _, f, hf, hv => fun w e hw => hk.std _ f hf text _ w e hv hw
  | .float64, _, f, hf, hv => fun w e hw => hk.std _ f hf text _ w e hv hw
  | .string, _, f, hf, hv => fun w e hw => hk.std _ f hf text _ w e hv hw
  | .slice _, _, f, hf, hv => fun w e hw => hk.std _ f hf text _ w e hv hw
  | .array _ _, _, f, hf, hv => fun w e hw => hk.std _ f hf text _ w e hv hw
  | .map _, _, f, hf, hv => fun w e hw => hk.std _ f hf text _ w e hv hw
  | .mapOther _, _, f, hf, hv => fun w e hw => hk.std _ f hf text _ w e hv hw
  | .struct _, _, f, hf, hv => fun w e hw => hk.std _ f hf text _ w e hv hw
  | .any, _, f, hf, hv => fun w e hw => hk.std _ f hf text _ w e hv hw
  | .jobj, _, f, hf, hv => fun w e hw => hk.std _ f hf text _ w e hv hw
  | .jval _, _, f, hf, hv => fun w e hw => hk.std _ f hf text _ w e hv hw
  | .other, _, f, hf, hv => fun w e hw => hk.std _ f hf text _ w e hv hw

theorem inv_tryStd (hk : H.Keeps P I) {text : Bytes} {t : Ty} {v : UV} {rest : UV → URes} (hv : v.Inv I P.defs t)
    (hr : ∀ v, v.Inv I P.defs t → URes.Inv I P.defs t (rest v)) : URes.Inv I P.defs t (H.tryStd P text t v rest) := by
  simp only [Hooks.tryStd]
  split
  · rename_i f hf
    exact inv_behindTy hk text t v f hf (inv_alloc hk t v hv)
  · exact hr _ (inv_alloc hk t v hv)

theorem inv_unmInt {D : Defs} (n : Int) : ∀ (t : Ty) (v : UV), v.Inv I D t → URes.Inv I D t (unmInt n t v) := by
  intro t
  induction t with
  | ptr t ih =>
    intro v h
    cases v with
    | ptr x => exact inv_uptr (ih x h)
    | _ => exact inv_uerr h
  | jptr k => intro v h; cases k <;> first | exact inv_uok trivial | exact inv_uerr h
  | jval k => intro v h; cases k <;> first | exact inv_uok h | exact inv_uerr h
  | _ => intro v h; first | exact inv_uok trivial | exact inv_uerr h

theorem inv_unmBool {D : Defs} (n : Bool) : ∀ (t : Ty) (v : UV), v.Inv I D t → URes.Inv I D t (unmBool n t v) := by
  intro t
  induction t with
  | ptr t ih =>
    intro v h
    cases v with
    | ptr x => exact inv_uptr (ih x h)
    | _ => exact inv_uerr h
  | jptr k => intro v h; cases k <;> first | exact inv_uok trivial | exact inv_uerr h
  | jval k => intro v h; cases k <;> first | exact inv_uok h | exact inv_uerr h
  | _ => intro v h; first | exact inv_uok trivial | exact inv_uerr h | exact inv_none

theorem inv_unmFloat {D : Defs} (n : GoFloat) (b : Nat) : ∀ (t : Ty) (v : UV), v.Inv I D t → URes.Inv I D t (unmFloat P n b t v) := by
  intro t
  induction t with
  | ptr t ih =>
    intro v h
    cases v with
    | ptr x => exact inv_uptr (ih x h)
    | _ => exact inv_uerr h
  | jptr k => intro v h; cases k <;> first | exact inv_uok trivial | exact inv_uerr h
  | jval k => intro v h; cases k <;> first | exact inv_uok h | exact inv_uerr h
  | _ => intro v h; first | exact inv_uok trivial | exact inv_uerr h | exact inv_none

/-- The leaves of `unmStr`: everything but slices, whose elements go through `strVal`. -/
theorem inv_unmStr {D : Defs} (s : Bytes) (t : Ty) (ht : ∀ t', t ≠ .slice t') (ht' : ∀ t', t ≠ .ptr t') (v : UV) (h : v.Inv I D t) : URes.Inv I D t (unmStr P s t v) := by
  cases t with
  | slice t => exact absurd rfl (ht t)
  | ptr t => exact absurd rfl (ht' t)
  | jptr k => cases k <;> first | exact inv_uok trivial | exact inv_uerr h
  | jval k => cases k <;> first | exact inv_uok h | exact inv_uerr h
  | int b =>
    simp only [unmStr]
    split
    · exact inv_uok h
    · split
      · exact inv_uok trivial
      · exact inv_uerr h
  | uint b =>
    simp only [unmStr]
    split
    · exact inv_uok h
    · split
      · exact inv_uok trivial
      · exact inv_uerr h
  | float32 =>
    simp only [unmStr]
    split
    · exact inv_uok h
    · split
      · exact inv_uok trivial
      · exact inv_uerr h
  | float64 =>
    simp only [unmStr]
    split
    · exact inv_uok h
    · split
      · exact inv_uok trivial
      · exact inv_uerr h
  | _ => first | exact inv_uok trivial | exact inv_uerr h

theorem inv_time (hk : H.Keeps P I) {s : Bytes} {t : Ty} (ht : H.isTime t = true) : URes.Inv I P.defs t (uok (if s.isEmpty then P.zero t else H.parseTime s)) := by
  apply inv_uok
  split
  · exact hk.zero t
  · exact hk.time t ht s

theorem inv_backing {D : Defs} {t : Ty} {v : UV} (h : v.Inv I D (.slice t)) : ∀ x ∈ v.backing, x.Inv I D t := by
  intro x hx
  cases v with
  | seq xs sp =>
    simp only [UV.Inv, Ty.elem, invs_iff] at h
    rcases List.mem_append.1 hx with hx | hx
    · exact h.1 x hx
    · exact h.2 x hx
  | _ => simp [UV.backing] at hx

theorem inv_strVal (hk : H.Keeps P I) (s : Bytes) : ∀ (t : Ty) (v : UV), v.Inv I P.defs t → URes.Inv I P.defs t (H.strVal P s t v) := by
  intro t
  induction t with
  | ptr t ih =>
    intro v hv
    simp only [Hooks.strVal]
    split
    · rename_i ht; exact inv_time hk ht
    · refine inv_tryStd hk hv ?_
      intro v hv
      cases v with
      | ptr x => exact inv_uptr (ih x hv)
      | _ => exact inv_uerr hv
  | slice t ih =>
    intro v hv
    simp only [Hooks.strVal]
    split
    · rename_i ht; exact inv_time hk ht
    · refine inv_tryStd hk hv ?_
      intro v hv
      have hb := inv_backing hv
      cases hv' : v.backing with
      | nil =>
        simp only
        intro w e hw
        cases hz : H.strVal P s t (P.zero t) with
        | none => rw [hz] at hw; cases hw
        | some p =>
          rw [hz] at hw; cases hw
          exact ⟨⟨ih _ (hk.zero t) _ _ hz, trivial⟩, trivial⟩
      | cons x r =>
        rw [hv'] at hb
        simp only
        intro w e hw
        cases hz : H.strVal P s t x with
        | none => rw [hz] at hw; cases hw
        | some p =>
          rw [hz] at hw; cases hw
          exact ⟨⟨ih _ (hb x (List.mem_cons_self ..)) _ _ hz, trivial⟩, (invs_iff _).2 fun y hy => hb y (List.mem_cons_of_mem _ hy)⟩
  | _ =>
    intro v hv
    simp only [Hooks.strVal]
    split
    · rename_i ht; exact inv_time hk ht
    · refine inv_tryStd hk hv ?_
      intro v hv
      exact inv_unmStr s _ (by intro t' h; cases h) (by intro t' h; cases h) v hv

theorem inv_arrInto (hk : H.Keeps P I) {xs : List J} {el : Ty → List UV → Option (List UV × Option UErr)}
    (he : ∀ t vs p, (∀ x ∈ vs, x.Inv I P.defs t) → el t vs = some p → ∀ x ∈ p.1, x.Inv I P.defs t) (t : Ty) (v : UV) (hv : v.Inv I P.defs t) :
    URes.Inv I P.defs t (arrInto P xs el t v) := by
  cases t with
  | slice t =>
    simp only [arrInto]
    have hb := inv_backing hv
    have hr : (∀ x ∈ (P.resize t xs.length v).1, x.Inv I P.defs t) ∧ (∀ x ∈ (P.resize t xs.length v).2, x.Inv I P.defs t) := by
      unfold UEnv.resize
      split
      · split
        · exact ⟨fun x hx => by rw [(List.mem_replicate.1 hx).2]; exact hk.zero t, by simp⟩
        · exact ⟨fun x hx => hb x (List.mem_of_mem_take hx), fun x hx => hb x (List.mem_of_mem_drop hx)⟩
      · exact ⟨fun x hx => by rw [(List.mem_replicate.1 hx).2]; exact hk.zero t, by simp⟩
    intro w e hw
    cases hz : el t (P.resize t xs.length v).1 with
    | none => rw [hz] at hw; cases hw
    | some p =>
      rw [hz] at hw; cases hw
      exact ⟨(invs_iff _).2 (he _ _ _ hr.1 hz), (invs_iff _).2 hr.2⟩
  | array n t =>
    cases v with
    | arr vs =>
      simp only [arrInto]
      split
      · exact inv_uerr hv
      · intro w e hw
        cases hz : el t vs with
        | none => rw [hz] at hw; cases hw
        | some p =>
          rw [hz] at hw; cases hw
          exact (invs_iff _).2 (he _ _ _ ((invs_iff _).1 hv) hz)
    | _ => exact inv_uerr hv
  | jval k => cases k <;> cases v <;> first | exact inv_uerr hv | (rename_i j; cases j <;> first | exact inv_uok trivial | exact inv_uerr hv)
  | jptr k => cases k <;> first | exact inv_uok trivial | exact inv_uerr hv
  | _ => first | exact inv_uok trivial | exact inv_uerr hv

theorem inv_dictInto {id : Int} {kvs : SMap J} {en : Ty → SMap UV → Option (SMap UV × Option UErr)}
    {fl : Nat → List UV → Option (List UV × List UErr)}
    (he : ∀ t m p, (∀ q ∈ m, (q : Bytes × UV).2.Inv I P.defs t) → en t m = some p → ∀ q ∈ p.1, (q : Bytes × UV).2.Inv I P.defs t)
    (hf : ∀ n vs p, UV.Invf I P.defs vs (P.defs.getD n []) → fl n vs = some p → I n p.1 ∧ UV.Invf I P.defs p.1 (P.defs.getD n []))
    (t : Ty) (v : UV) (hv : v.Inv I P.defs t) : URes.Inv I P.defs t (dictInto id kvs en fl t v) := by
  have hm : ∀ q ∈ v.entries, (q : Bytes × UV).2.Inv I P.defs t.elem := by
    intro q hq
    cases v with
    | map m => exact (invm_iff _).1 hv q hq
    | _ => simp [UV.entries] at hq
  cases t with
  | map t =>
    simp only [dictInto]
    intro w e hw
    cases hz : en t v.entries with
    | none => rw [hz] at hw; cases hw
    | some p =>
      rw [hz] at hw; cases hw
      exact (invm_iff _).2 (he _ _ _ hm hz)
  | mapOther t => exact inv_uerr ((invm_iff _).2 hm)
  | struct n =>
    cases v with
    | struct vs =>
      simp only [dictInto]
      intro w e hw
      cases hz : fl n vs with
      | none => rw [hz] at hw; cases hw
      | some p =>
        rw [hz] at hw; cases hw
        obtain ⟨h1, h2⟩ := hf _ _ _ hv.2 hz
        exact ⟨fun m hm => by cases hm; exact h1, h2⟩
    | _ => exact inv_uerr hv
  | jval k => cases k <;> cases v <;> first | exact inv_uerr hv | (rename_i j; cases j <;> first | exact inv_uok trivial | exact inv_uerr hv)
  | jptr k => cases k <;> first | exact inv_uok trivial | exact inv_uerr hv
  | _ => first | exact inv_uok trivial | exact inv_uerr hv

theorem inv_setLoop {D : Defs} {tys : List (FInfo × Ty)} {assign : Ty → UV → URes}
    {again : Bytes → List Bytes → List UV → Option (List UV × List Bytes × Option UErr)}
    (ha : ∀ t v, v.Inv I D t → URes.Inv I D t (assign t v)) (hg : ∀ k vis vs p, UV.Invf I D vs tys → again k vis vs = some p → UV.Invf I D p.1 tys) :
    ∀ (is : List Nat) (vis : List Bytes) (vs : List UV) p, UV.Invf I D vs tys → setLoop tys assign again is vis vs = some p → UV.Invf I D p.1 tys
  | [], _, vs, p, h, hp => by simp only [setLoop, Option.some.injEq] at hp; subst hp; exact h
  | i :: is, vis, vs, p, h, hp => by
    simp only [setLoop] at hp
    split at hp
    · rename_i info t v hty hv
      have hset : ∀ v' e, assign t v = some (v', e) → UV.Invf I D (vs.set i v') tys := by
        intro v' e hav
        rw [invf_iff] at h ⊢
        intro q x i' t' hx hf
        by_cases hq : q = i
        · subst hq
          rw [hty] at hf; cases hf
          have : q < vs.length := by
            rcases Nat.lt_or_ge q vs.length with h | h
            · exact h
            · rw [List.getElem?_eq_none h] at hv; cases hv
          rw [List.getElem?_set_self this] at hx; cases hx
          exact ha t v (h q v info t hv hty) _ _ hav
        · rw [List.getElem?_set_ne (Ne.symm hq)] at hx
          exact h q x i' t' hx hf
      split at hp
      · cases hp
      · rename_i v' e hav
        cases hp; exact hset _ _ hav
      · rename_i v' hav
        split at hp
        · exact inv_setLoop ha hg is vis _ p (hset _ _ hav) hp
        · rename_i k _
          split at hp
          · cases hp
          · rename_i hag; cases hp; exact hg _ _ _ _ (hset _ _ hav) hag
          · rename_i hag
            exact inv_setLoop ha hg is _ _ p (hg _ _ _ _ (hset _ _ hav) hag) hp
    · cases hp

theorem inv_setKey {D : Defs} {idx : Bytes → List Nat} {tys : List (FInfo × Ty)} {assign : Ty → UV → URes}
    (ha : ∀ t v, v.Inv I D t → URes.Inv I D t (assign t v)) : ∀ (f : Nat) (k : Bytes) (vis : List Bytes) (vs : List UV) p, UV.Invf I D vs tys →
    setKey idx tys assign f k vis vs = some p → UV.Invf I D p.1 tys
  | 0, _, _, _, _, _, hp => by simp [setKey] at hp
  | f + 1, k, vis, vs, p, h, hp => by
    simp only [setKey] at hp
    split at hp
    · cases hp; exact h
    · exact inv_setLoop ha (fun k vis vs p => inv_setKey ha f k vis vs p) _ _ _ _ h hp

mutual
theorem inv_unmH (hk : H.Keeps P I) : ∀ (j : J) (t : Ty) (v : UV), v.Inv I P.defs t → URes.Inv I P.defs t (j.unmH H P t v)
  | .null, t, v, _ => by simp only [J.unmH]; exact inv_uok (hk.zero t)
  | .ptr _, t, v, h => by simp only [J.unmH]; exact inv_uok h
  | .int n, t, v, h => by simp only [J.unmH]; exact inv_tryStd hk h fun v hv => inv_unmInt n t v hv
  | .bool n, t, v, h => by simp only [J.unmH]; exact inv_tryStd hk h fun v hv => inv_unmBool n t v hv
  | .float n b, t, v, h => by simp only [J.unmH]; exact inv_tryStd hk h fun v hv => inv_unmFloat n b t v hv
  | .str s, t, v, h => by simp only [J.unmH]; exact inv_strVal hk s t v h
  | .arr xs, t, v, h => by
    simp only [J.unmH]
    refine inv_tryStd hk h fun v hv => ?_
    have go := fun t v hv => inv_arrInto hk (xs := xs) (el := fun t vs => J.unmHs H P xs t vs) (fun t vs p => inv_unmHs hk xs t vs p) t v hv
    split
    · rename_i t' x
      split
      · exact inv_uptr (go t' x hv)
      · exact inv_uerr hv
    · exact go _ _ hv
  | .dict id kvs, t, v, h => by
    simp only [J.unmH]
    refine inv_tryStd hk h fun v hv => ?_
    have go := fun t v hv => inv_dictInto (P := P) (id := id) (kvs := kvs) (en := fun t m => J.unmHm H P kvs t m)
      (fl := fun n vs => (J.unmHf H P kvs n vs).map fun p => (H.after n p.1, p.2)) (fun t m p => inv_unmHm hk kvs t m p) (by
        intro n vs p hvs hp
        cases hz : J.unmHf H P kvs n vs with
        | none => rw [hz] at hp; cases hp
        | some p' =>
          rw [hz] at hp; cases hp
          exact hk.after n p'.1 (inv_unmHf hk kvs n vs p' hvs hz)) t v hv
    split
    · rename_i t' x
      split
      · exact inv_uptr (go t' x hv)
      · exact inv_uerr hv
    · exact go _ _ hv
theorem inv_unmHs (hk : H.Keeps P I) : ∀ (js : List J) (t : Ty) (vs : List UV) p, (∀ x ∈ vs, x.Inv I P.defs t) → J.unmHs H P js t vs = some p → ∀ x ∈ p.1, x.Inv I P.defs t
  | [], t, vs, p, h, hp => by simp only [J.unmHs, Option.some.injEq] at hp; subst hp; exact h
  | j :: js, t, [], p, h, hp => by simp [J.unmHs] at hp
  | j :: js, t, v :: vs, p, h, hp => by
    simp only [J.unmHs] at hp
    have hv := inv_unmH hk j t v (h v (List.mem_cons_self ..))
    have hvs : ∀ x ∈ vs, x.Inv I P.defs t := fun x hx => h x (List.mem_cons_of_mem _ hx)
    split at hp
    · cases hp
    · rename_i hj; cases hp
      intro x hx
      rcases List.mem_cons.1 hx with rfl | hx
      · exact hv _ _ hj
      · exact hvs x hx
    · rename_i v' hj
      cases hz : J.unmHs H P js t vs with
      | none => rw [hz] at hp; cases hp
      | some p' =>
        rw [hz] at hp; cases hp
        intro x hx
        rcases List.mem_cons.1 hx with rfl | hx
        · exact hv _ _ hj
        · exact inv_unmHs hk js t vs p' hvs hz x hx
theorem inv_unmHm (hk : H.Keeps P I) : ∀ (js : List (Bytes × J)) (t : Ty) (m : SMap UV) p, (∀ q ∈ m, (q : Bytes × UV).2.Inv I P.defs t) → J.unmHm H P js t m = some p →
    ∀ q ∈ p.1, (q : Bytes × UV).2.Inv I P.defs t
  | [], t, m, p, h, hp => by simp only [J.unmHm, Option.some.injEq] at hp; subst hp; exact h
  | (k, j) :: js, t, m, p, h, hp => by
    simp only [J.unmHm] at hp
    have hv := inv_unmH hk j t _ (hk.zero t)
    split at hp
    · cases hp
    · cases hp; exact h
    · rename_i v' hj
      refine inv_unmHm hk js t _ p ?_ hp
      intro q hq
      rcases mem_smAdd hq with hq | hq
      · rw [hq]; exact hv _ _ hj
      · exact h q hq
theorem inv_unmHf (hk : H.Keeps P I) : ∀ (js : List (Bytes × J)) (n : Nat) (vs : List UV) p, UV.Invf I P.defs vs (P.defs.getD n []) → J.unmHf H P js n vs = some p →
    UV.Invf I P.defs p.1 (P.defs.getD n [])
  | [], n, vs, p, h, hp => by simp only [J.unmHf, Option.some.injEq] at hp; subst hp; exact h
  | (k, j) :: js, n, vs, p, h, hp => by
    simp only [J.unmHf] at hp
    split at hp
    · cases hp
    · rename_i vs' _ e hs
      cases hz : J.unmHf H P js n vs' with
      | none => rw [hz] at hp; cases hp
      | some p' =>
        rw [hz] at hp; cases hp
        exact inv_unmHf hk js n vs' p' (inv_setKey (fun t v hv => inv_unmH hk j t v hv) _ _ _ _ _ h hs) hz
end

/-! ### Embedded structs -/

mutual
theorem calls_present : ∀ e : Emb, e.calls = e.present.flatMap Emb.method
  | .mk name own es => by simp only [Emb.calls, Emb.present, List.flatMap_append, callss_present es, List.flatMap_cons, List.flatMap_nil, List.append_nil]
theorem callss_present : ∀ es : List (Bool × Emb), Emb.callss es = (Emb.presents es).flatMap Emb.method
  | [] => rfl
  | (b, e) :: es => by
    simp only [Emb.callss, Emb.presents, List.flatMap_append, callss_present es]
    cases b with
    | true => simp
    | false => simp [calls_present e]
end

theorem method_own (e : Emb) (h : e.own = true) : e.method = [⟨e.name, false⟩] := by
  cases e with
  | mk name own es => simp only [Emb.own] at h; subst h; simp [Emb.method, Emb.cands, Emb.name]

end

/-! ### Go's method sets -/

/-- The least depth with declarations, and these. -/
def Shallowest (f : Nat → List ACall) : Option (Nat × List ACall) → Prop
  | none => ∀ d, f d = []
  | some (d, ns) => f d = ns ∧ ns ≠ [] ∧ ∀ d' < d, f d' = []

mutual
theorem cands_spec : ∀ e : Emb, Shallowest e.decls e.cands
  | .mk name own es => by
    simp only [Emb.cands]
    cases own with
    | true => exact ⟨rfl, by simp, by simp⟩
    | false =>
      have := candss_spec es
      simp only [Bool.false_eq_true, if_false]
      cases hc : Emb.candss es with
      | none =>
        rw [hc] at this
        intro d
        cases d with
        | zero => rfl
        | succ d => exact this d
      | some p =>
        obtain ⟨d, ns⟩ := p
        rw [hc] at this
        refine ⟨this.1, this.2.1, fun d' hd => ?_⟩
        cases d' with
        | zero => rfl
        | succ d' => exact this.2.2 d' (by omega)
theorem candss_spec : ∀ es : List (Bool × Emb), Shallowest (Emb.declss es) (Emb.candss es)
  | [] => fun d => rfl
  | (isNil, e) :: es => by
    have h1 := cands_spec e
    have h2 := candss_spec es
    simp only [Emb.candss]
    cases hc : e.cands with
    | none =>
      rw [hc] at h1
      have hd : ∀ d, Emb.declss ((isNil, e) :: es) d = Emb.declss es d := by
        intro d; simp only [Emb.declss, h1 d, List.map_nil, List.nil_append]
      have : Emb.declss ((isNil, e) :: es) = Emb.declss es := funext hd
      rw [this]
      simpa only [Option.map_none] using h2
    | some p =>
      obtain ⟨d, ns⟩ := p
      rw [hc] at h1
      simp only [Option.map_some]
      cases hcs : Emb.candss es with
      | none =>
        rw [hcs] at h2
        refine ⟨?_, by simpa using h1.2.1, fun d' hd => ?_⟩
        · simp only [Emb.declss, h1.1, h2 d, List.append_nil]
        · simp only [Emb.declss, h1.2.2 d' hd, h2 d', List.map_nil, List.append_nil]
      | some q =>
        obtain ⟨d', ns'⟩ := q
        rw [hcs] at h2
        simp only
        split
        · rename_i hlt
          refine ⟨?_, by simpa using h1.2.1, fun d0 hd => ?_⟩
          · simp only [Emb.declss, h1.1, h2.2.2 d hlt, List.append_nil]
          · simp only [Emb.declss, h1.2.2 d0 hd, h2.2.2 d0 (by omega), List.map_nil, List.append_nil]
        · split
          · rename_i hnlt hlt
            refine ⟨?_, h2.2.1, fun d0 hd => ?_⟩
            · simp only [Emb.declss, h1.2.2 d' hlt, h2.1, List.map_nil, List.nil_append]
            · simp only [Emb.declss, h1.2.2 d0 (by omega), h2.2.2 d0 hd, List.map_nil, List.append_nil]
          · have he : d' = d := by omega
            subst he
            refine ⟨?_, by simp [h1.2.1], fun d0 hd => ?_⟩
            · simp only [Emb.declss, h1.1, h2.1]
            · simp only [Emb.declss, h1.2.2 d0 hd, h2.2.2 d0 hd, List.map_nil, List.append_nil]
end

theorem method_spec (e : Emb) : (∀ c, e.method = [c] ↔ ∃ d, e.decls d = [c] ∧ ∀ d' < d, e.decls d' = []) ∧ e.method.length ≤ 1 := by
  have h := cands_spec e
  unfold Emb.method
  cases hc : e.cands with
  | none =>
    rw [hc] at h
    refine ⟨fun c => ⟨by simp, ?_⟩, by simp⟩
    rintro ⟨d, hd, _⟩
    rw [h d] at hd; cases hd
  | some p =>
    obtain ⟨d, ns⟩ := p
    rw [hc] at h
    have uniq : ∀ c d1, e.decls d1 = [c] → (∀ d' < d1, e.decls d' = []) → d1 = d := by
      intro c d1 h1 h2
      rcases Nat.lt_trichotomy d1 d with hlt | he | hlt
      · rw [h.2.2 d1 hlt] at h1; cases h1
      · exact he
      · exact absurd (h.1.symm.trans (h2 d hlt)) h.2.1
    match ns, h with
    | [], h => exact absurd rfl h.2.1
    | [c0], h =>
      refine ⟨fun c => ⟨?_, ?_⟩, by simp⟩
      · intro hc; simp only [List.cons.injEq, and_true] at hc; subst hc; exact ⟨d, h.1, h.2.2⟩
      · rintro ⟨d1, h1, h2⟩
        have := uniq c d1 h1 h2
        subst this
        simp only
        exact h.1.symm.trans h1
    | c0 :: c1 :: r, h =>
      refine ⟨fun c => ⟨by simp, ?_⟩, by simp⟩
      rintro ⟨d1, h1, h2⟩
      have := uniq c d1 h1 h2
      subst this
      have := h.1.symm.trans h1
      simp at this

end Jsonutils
