import Verif.Proofs.UnmarshalBase
import Verif.Proofs.Dict

/-! Unmarshalling a document twice: scalars, and the loops. -/

namespace Jsonutils

theorem unms_fix {P : UEnv} {t : Ty} : ∀ (js : List J) (vs : List UV), vs.length = js.length →
    (∀ (i : Nat) j v, js[i]? = some j → vs[i]? = some v → j.unm P t v = uok v) → J.unms P js t vs = some (vs, none)
  | [], [], _, _ => rfl
  | [], _ :: _, h, _ => by simp at h
  | _ :: _, [], h, _ => by simp at h
  | j :: js, v :: vs, h, hf => by
    have h0 := hf 0 j v rfl rfl
    simp only [J.unms, h0, uok]
    rw [unms_fix js vs (by simpa using h) (fun i a b ha hb => hf (i + 1) a b (by simpa using ha) (by simpa using hb))]
    rfl

theorem unmm_fix {P : UEnv} {t : Ty} {m : SMap UV} (hm : SMap.Sorted m) : ∀ (kvs : List (Bytes × J)),
    (∀ k j, (k, j) ∈ kvs → ∃ w, j.unm P t (P.zero t) = uok w ∧ smGet m k = some w) → J.unmm P kvs t m = some (m, none)
  | [], _ => rfl
  | (k, j) :: r, h => by
    obtain ⟨w, h1, h2⟩ := h k j (List.mem_cons_self ..)
    simp only [J.unmm, h1, uok]
    rw [smAdd_same m hm k w h2]
    exact unmm_fix hm r fun k' j' hm' => h k' j' (List.mem_cons_of_mem _ hm')

theorem set_same {α : Type} {l : List α} {i : Nat} {x : α} (h : l[i]? = some x) : l.set i x = l := by
  apply List.ext_getElem?
  intro q
  by_cases hq : i = q
  · subst hq
    rw [List.getElem?_set_self (List.getElem?_eq_some_iff.1 h).1, h]
  · rw [List.getElem?_set_ne hq]

theorem alloc_idem (P : UEnv) : ∀ (t : Ty) (v : UV), P.alloc t (P.alloc t v) = P.alloc t v
  | .ptr t, v => by
    cases v <;> simp only [UEnv.alloc, alloc_idem P t]
  | .jptr k, v => by cases v <;> rfl
  | .bool, _ => rfl
  | .int _, _ => rfl
  | .uint _, _ => rfl
  | .float32, _ => rfl
  | .float64, _ => rfl
  | .string, _ => rfl
  | .slice _, _ => rfl
  | .array _ _, _ => rfl
  | .map _, _ => rfl
  | .mapOther _, _ => rfl
  | .struct _, _ => rfl
  | .any, _ => rfl
  | .jobj, _ => rfl
  | .jval _, _ => rfl
  | .other, _ => rfl

theorem uptr_ok {r : URes} {w : UV} (h : uptr r = uok w) : ∃ w', w = .ptr w' ∧ r = uok w' := by
  cases r with
  | none => simp [uptr, uok] at h
  | some p =>
    obtain ⟨a, e⟩ := p
    simp only [uptr, uok, Option.map_some, Option.some.injEq, Prod.mk.injEq] at h
    obtain ⟨rfl, rfl⟩ := h
    exact ⟨a, rfl, rfl⟩

theorem uok_inj {v w : UV} (h : uok v = uok w) : v = w := by simpa [uok] using h
theorem uerr_ok {v w : UV} {e : UErr} (h : uerr v e = uok w) : False := by simp [uerr, uok] at h

theorem unmInt_idem (P : UEnv) (n : Int) : ∀ (t : Ty) (x w : UV), P.alloc t x = x → unmInt n t x = uok w → P.alloc t w = w ∧ unmInt n t w = uok w
  | .ptr t, x, w, ha, h => by
    cases x with
    | ptr x =>
      simp only [UEnv.alloc, UV.ptr.injEq] at ha
      simp only [unmInt] at h
      obtain ⟨w', rfl, h'⟩ := uptr_ok h
      obtain ⟨g1, g2⟩ := unmInt_idem P n t x w' ha h'
      refine ⟨by simp only [UEnv.alloc, g1], ?_⟩
      simp only [unmInt, g2]; rfl
    | _ => exact (uerr_ok h).elim
  | .jptr k, x, w, ha, h => by
    cases k <;> first
      | exact (uerr_ok h).elim
      | (cases uok_inj h; exact ⟨rfl, rfl⟩)
  | .jval k, x, w, ha, h => by
    cases k <;> first
      | exact (uerr_ok h).elim
      | (cases uok_inj h; exact ⟨rfl, rfl⟩)
  | .bool, x, w, ha, h => by cases uok_inj h; exact ⟨rfl, rfl⟩
  | .int _, x, w, ha, h => by cases uok_inj h; exact ⟨rfl, rfl⟩
  | .uint _, x, w, ha, h => by cases uok_inj h; exact ⟨rfl, rfl⟩
  | .float32, x, w, ha, h => by cases uok_inj h; exact ⟨rfl, rfl⟩
  | .float64, x, w, ha, h => by cases uok_inj h; exact ⟨rfl, rfl⟩
  | .string, x, w, ha, h => by cases uok_inj h; exact ⟨rfl, rfl⟩
  | .any, x, w, ha, h => by cases uok_inj h; exact ⟨rfl, rfl⟩
  | .jobj, x, w, ha, h => by cases uok_inj h; exact ⟨rfl, rfl⟩
  | .slice _, x, w, ha, h => (uerr_ok h).elim
  | .array _ _, x, w, ha, h => (uerr_ok h).elim
  | .map _, x, w, ha, h => (uerr_ok h).elim
  | .mapOther _, x, w, ha, h => (uerr_ok h).elim
  | .struct _, x, w, ha, h => (uerr_ok h).elim
  | .other, x, w, ha, h => (uerr_ok h).elim

theorem unmBool_idem (P : UEnv) (b : Bool) : ∀ (t : Ty) (x w : UV), P.alloc t x = x → unmBool b t x = uok w → P.alloc t w = w ∧ unmBool b t w = uok w
  | .ptr t, x, w, ha, h => by
    cases x with
    | ptr x =>
      simp only [UEnv.alloc, UV.ptr.injEq] at ha
      simp only [unmBool] at h
      obtain ⟨w', rfl, h'⟩ := uptr_ok h
      obtain ⟨g1, g2⟩ := unmBool_idem P b t x w' ha h'
      refine ⟨by simp only [UEnv.alloc, g1], ?_⟩
      simp only [unmBool, g2]; rfl
    | _ => exact (uerr_ok h).elim
  | .jptr k, x, w, ha, h => by
    cases k <;> first
      | exact (uerr_ok h).elim
      | (cases uok_inj h; exact ⟨rfl, rfl⟩)
  | .jval k, x, w, ha, h => by
    cases k <;> first
      | exact (uerr_ok h).elim
      | (cases uok_inj h; exact ⟨rfl, rfl⟩)
  | .bool, x, w, ha, h => by cases uok_inj h; exact ⟨rfl, rfl⟩
  | .int _, x, w, ha, h => by cases uok_inj h; exact ⟨rfl, rfl⟩
  | .uint _, x, w, ha, h => by simp [unmBool, uok] at h
  | .float32, x, w, ha, h => by cases uok_inj h; exact ⟨rfl, rfl⟩
  | .float64, x, w, ha, h => by cases uok_inj h; exact ⟨rfl, rfl⟩
  | .string, x, w, ha, h => by cases uok_inj h; exact ⟨rfl, rfl⟩
  | .any, x, w, ha, h => by cases uok_inj h; exact ⟨rfl, rfl⟩
  | .jobj, x, w, ha, h => by cases uok_inj h; exact ⟨rfl, rfl⟩
  | .slice _, x, w, ha, h => (uerr_ok h).elim
  | .array _ _, x, w, ha, h => (uerr_ok h).elim
  | .map _, x, w, ha, h => (uerr_ok h).elim
  | .mapOther _, x, w, ha, h => (uerr_ok h).elim
  | .struct _, x, w, ha, h => (uerr_ok h).elim
  | .other, x, w, ha, h => (uerr_ok h).elim

theorem unmFloat_idem (P : UEnv) (f : GoFloat) (bit : Nat) : ∀ (t : Ty) (x w : UV), P.alloc t x = x → unmFloat P f bit t x = uok w →
    P.alloc t w = w ∧ unmFloat P f bit t w = uok w
  | .ptr t, x, w, ha, h => by
    cases x with
    | ptr x =>
      simp only [UEnv.alloc, UV.ptr.injEq] at ha
      simp only [unmFloat] at h
      obtain ⟨w', rfl, h'⟩ := uptr_ok h
      obtain ⟨g1, g2⟩ := unmFloat_idem P f bit t x w' ha h'
      refine ⟨by simp only [UEnv.alloc, g1], ?_⟩
      simp only [unmFloat, g2]; rfl
    | _ => exact (uerr_ok h).elim
  | .jptr k, x, w, ha, h => by
    cases k <;> first
      | exact (uerr_ok h).elim
      | (cases uok_inj h; exact ⟨rfl, rfl⟩)
  | .jval k, x, w, ha, h => by
    cases k <;> first
      | exact (uerr_ok h).elim
      | (cases uok_inj h; exact ⟨rfl, rfl⟩)
  | .bool, x, w, ha, h => by cases uok_inj h; exact ⟨rfl, rfl⟩
  | .int _, x, w, ha, h => by cases uok_inj h; exact ⟨rfl, rfl⟩
  | .uint _, x, w, ha, h => by simp [unmFloat, uok] at h
  | .float32, x, w, ha, h => by cases uok_inj h; exact ⟨rfl, rfl⟩
  | .float64, x, w, ha, h => by cases uok_inj h; exact ⟨rfl, rfl⟩
  | .string, x, w, ha, h => by cases uok_inj h; exact ⟨rfl, rfl⟩
  | .any, x, w, ha, h => by cases uok_inj h; exact ⟨rfl, rfl⟩
  | .jobj, x, w, ha, h => by cases uok_inj h; exact ⟨rfl, rfl⟩
  | .slice _, x, w, ha, h => (uerr_ok h).elim
  | .array _ _, x, w, ha, h => (uerr_ok h).elim
  | .map _, x, w, ha, h => (uerr_ok h).elim
  | .mapOther _, x, w, ha, h => (uerr_ok h).elim
  | .struct _, x, w, ha, h => (uerr_ok h).elim
  | .other, x, w, ha, h => (uerr_ok h).elim

theorem unmStr_idem (P : UEnv) (s : Bytes) : ∀ (t : Ty) (x w : UV), P.alloc t x = x → unmStr P s t x = uok w → P.alloc t w = w ∧ unmStr P s t w = uok w
  | .ptr t, x, w, ha, h => by
    cases x with
    | ptr x =>
      simp only [UEnv.alloc, UV.ptr.injEq] at ha
      simp only [unmStr] at h
      obtain ⟨w', rfl, h'⟩ := uptr_ok h
      obtain ⟨g1, g2⟩ := unmStr_idem P s t x w' ha h'
      refine ⟨by simp only [UEnv.alloc, g1], ?_⟩
      simp only [unmStr, g2]; rfl
    | _ => exact (uerr_ok h).elim
  | .jptr k, x, w, ha, h => by
    cases k <;> first
      | exact (uerr_ok h).elim
      | (cases uok_inj h; exact ⟨rfl, rfl⟩)
  | .jval k, x, w, ha, h => by
    cases k <;> first
      | exact (uerr_ok h).elim
      | (cases uok_inj h; exact ⟨rfl, rfl⟩)
  | .bool, x, w, ha, h => by cases uok_inj h; exact ⟨rfl, rfl⟩
  | .int _, x, w, ha, h => by
    refine ⟨rfl, ?_⟩
    simp only [unmStr] at h ⊢
    split at h
    · rename_i hs; rw [if_pos hs]
    · rename_i hs
      rw [if_neg hs]
      split at h
      · exact h
      · exact (uerr_ok h).elim
  | .uint _, x, w, ha, h => by
    refine ⟨rfl, ?_⟩
    simp only [unmStr] at h ⊢
    split at h
    · rename_i hs; rw [if_pos hs]
    · rename_i hs
      rw [if_neg hs]
      split at h
      · exact h
      · exact (uerr_ok h).elim
  | .float32, x, w, ha, h => by
    refine ⟨rfl, ?_⟩
    simp only [unmStr] at h ⊢
    split at h
    · rename_i hs; rw [if_pos hs]
    · rename_i hs
      rw [if_neg hs]
      split at h
      · exact h
      · exact (uerr_ok h).elim
  | .float64, x, w, ha, h => by
    refine ⟨rfl, ?_⟩
    simp only [unmStr] at h ⊢
    split at h
    · rename_i hs; rw [if_pos hs]
    · rename_i hs
      rw [if_neg hs]
      split at h
      · exact h
      · exact (uerr_ok h).elim
  | .string, x, w, ha, h => by cases uok_inj h; exact ⟨rfl, rfl⟩
  | .any, x, w, ha, h => by cases uok_inj h; exact ⟨rfl, rfl⟩
  | .jobj, x, w, ha, h => by cases uok_inj h; exact ⟨rfl, rfl⟩
  | .slice t, x, w, ha, h => by
    have key : ∀ (y : UV) (r : List UV), ((unmStr P s t (P.alloc t y)).map fun p => (UV.seq [p.1] r, p.2)) = uok w →
        unmStr P s (.slice t) w = uok w := by
      intro y r hy
      cases hu : unmStr P s t (P.alloc t y) with
      | none => rw [hu] at hy; simp [uok] at hy
      | some q =>
        obtain ⟨v, e⟩ := q
        rw [hu] at hy
        simp only [Option.map_some, uok, Option.some.injEq, Prod.mk.injEq] at hy
        obtain ⟨rfl, rfl⟩ := hy
        obtain ⟨g1, g2⟩ := unmStr_idem P s t _ v (alloc_idem P t y) hu
        simp only [unmStr, UV.backing, List.cons_append, List.nil_append, g1, g2]
        rfl
    refine ⟨rfl, ?_⟩
    simp only [unmStr] at h
    split at h
    · exact key _ [] h
    · exact key _ _ h
  | .array _ _, x, w, ha, h => (uerr_ok h).elim
  | .map _, x, w, ha, h => (uerr_ok h).elim
  | .mapOther _, x, w, ha, h => (uerr_ok h).elim
  | .struct _, x, w, ha, h => (uerr_ok h).elim
  | .other, x, w, ha, h => (uerr_ok h).elim

theorem resize_exact (P : UEnv) (t : Ty) (ys sp : List UV) : P.resize t ys.length (.seq ys sp) = (ys, sp) := by
  simp only [UEnv.resize]
  rw [if_neg (by omega), List.take_left, List.drop_left]

theorem alloc_seq (P : UEnv) {t : Ty} (h : t.isSeq = true) (v : UV) : P.alloc t v = v := by
  cases t <;> first | rfl | (exact absurd h (by simp [Ty.isSeq]))
theorem alloc_sm (P : UEnv) {t : Ty} (h : t.isStructOrMap = true) (v : UV) : P.alloc t v = v := by
  cases t <;> first | rfl | (exact absurd h (by simp [Ty.isStructOrMap]))

theorem unmInt_twice {P : UEnv} {n : Int} {t : Ty} {v w : UV} (h : (J.int n).unm P t v = uok w) : (J.int n).unm P t w = uok w := by
  simp only [J.unm] at h ⊢
  obtain ⟨g1, g2⟩ := unmInt_idem P n t _ w (alloc_idem P t v) h
  rw [g1, g2]

theorem unmBool_twice {P : UEnv} {b : Bool} {t : Ty} {v w : UV} (h : (J.bool b).unm P t v = uok w) : (J.bool b).unm P t w = uok w := by
  simp only [J.unm] at h ⊢
  obtain ⟨g1, g2⟩ := unmBool_idem P b t _ w (alloc_idem P t v) h
  rw [g1, g2]

theorem unmFloat_twice {P : UEnv} {x : GoFloat} {bit : Nat} {t : Ty} {v w : UV} (h : (J.float x bit).unm P t v = uok w) : (J.float x bit).unm P t w = uok w := by
  simp only [J.unm] at h ⊢
  obtain ⟨g1, g2⟩ := unmFloat_idem P x bit t _ w (alloc_idem P t v) h
  rw [g1, g2]

theorem unmStr_twice {P : UEnv} {s : Bytes} {t : Ty} {v w : UV} (h : (J.str s).unm P t v = uok w) : (J.str s).unm P t w = uok w := by
  simp only [J.unm] at h ⊢
  obtain ⟨g1, g2⟩ := unmStr_idem P s t _ w (alloc_idem P t v) h
  rw [g1, g2]

end Jsonutils
