import Verif.Proofs.SharedData

/-!
# `Unmarshal` on memory refines `Unmarshal` on values, and shares
-/

namespace Jsonutils

variable {D : DEnv} {S : Prop}

/-- The result on memory is the result on values; nothing that was in memory has changed; without error, the variable shares the document (under the condition `S`). -/
def Matches (D : DEnv) (S : Prop) (h : Heap) (a : Addr) (t : DTy) (res : DOut) : URes → Prop
  | none => res = .panic
  | some (u, e) => ∃ x' h', res = .ok ((x', e), h') ∧ h <+: h' ∧ x'.Is h' u ∧ (e = none → S → Shares D h a t x')

theorem Matches.ok {h h' : Heap} {a : Addr} {t : DTy} {x : DV} {u : UV} (hp : h <+: h') (hx : x.Is h' u) (hs : Shares D h a t x) :
    Matches D S h a t (dok x h') (uok u) := ⟨x, h', rfl, hp, hx, fun _ _ => hs⟩

theorem Matches.err {h h' : Heap} {a : Addr} {t : DTy} {x : DV} {u : UV} {e : UErr} (hp : h <+: h') (hx : x.Is h' u) :
    Matches D S h a t (derr x e h') (uerr u e) := ⟨x, h', rfl, hp, hx, (by intro he; cases he)⟩

theorem Matches.ptr {h : Heap} {a : Addr} {t : DTy} {res : DOut} {r : URes} (hA : Matches D S h a t res r) : Matches D S h a (.ptr t) (dptr res) (uptr r) := by
  cases r with
  | none => simp only [Matches] at hA; subst hA; rfl
  | some q =>
    obtain ⟨u, e⟩ := q
    obtain ⟨x', h', rfl, h1, h2, h3⟩ := hA
    exact ⟨.ptr x', h', rfl, h1, ⟨u, rfl, h2⟩, fun he hS => (h3 he hS).ptr⟩

theorem Matches.mono {h h1 : Heap} (hp : h <+: h1) {a : Addr} {t : DTy} {res : DOut} {r : URes} (hA : Matches D S h1 a t res r) : Matches D S h a t res r := by
  cases r with
  | none => exact hA
  | some q =>
    obtain ⟨u, e⟩ := q
    obtain ⟨x', h', rfl, g1, g2, g3⟩ := hA
    exact ⟨x', h', rfl, hp.trans g1, g2, fun he hS => (g3 he hS).mono hp⟩

/-! ### Blank variables -/

theorem blank_ptr {t : DTy} {x : DV} (hb : (DV.ptr x).Blank D (.ptr t)) : x.Blank D t := fun k b hv => hb k b (.ptr hv)
theorem blank_elem {t : DTy} {xs sp : List DV} (hb : (DV.seq xs sp).Blank D (.slice t)) {x : DV} (hx : x ∈ xs ++ sp) : x.Blank D t :=
  fun k b hv => hb k b (.elem hx hv)
theorem blank_field {n i : Nat} {fs : List DV} {tys : List (FInfo × DTy)} {info : FInfo} {t : DTy} {x : DV} (hb : (DV.struct fs).Blank D (.struct n))
    (hn : D.defs[n]? = some tys) (hi : tys[i]? = some (info, t)) (hx : fs[i]? = some x) : x.Blank D t :=
  fun k b hv => hb k b (.field hn hi hx hv)

/-! ### Contents by type -/

theorem is_nil {h : Heap} {x : DV} (hx : x.Is h .nil) : x = .nil := by
  cases x with
  | nil => rfl
  | sc y => obtain ⟨h1, h2⟩ := hx; subst h1; exact h2.elim
  | ref a => obtain ⟨_, h, _⟩ := hx; cases h
  | seq => obtain ⟨_, _, h, _⟩ := hx; cases h
  | map => obtain ⟨_, h, _⟩ := hx; cases h
  | ptr => obtain ⟨_, h, _⟩ := hx; cases h
  | struct => obtain ⟨_, h, _⟩ := hx; cases h

theorem is_json {h : Heap} {x : DV} {j : J} (hx : x.Is h (.json j)) : ∃ a, x = .ref a ∧ j.Seen h a := by
  cases x with
  | nil => cases hx
  | sc y => obtain ⟨h1, h2⟩ := hx; subst h1; exact h2.elim
  | ref a => obtain ⟨_, h, h2⟩ := hx; cases h; exact ⟨a, rfl, h2⟩
  | seq => obtain ⟨_, _, h, _⟩ := hx; cases h
  | map => obtain ⟨_, h, _⟩ := hx; cases h
  | ptr => obtain ⟨_, h, _⟩ := hx; cases h
  | struct => obtain ⟨_, h, _⟩ := hx; cases h

theorem is_pointer {h : Heap} {x : DV} {w : UV} (hx : x.Is h (.ptr w)) : ∃ y, x = .ptr y ∧ y.Is h w := by
  cases x with
  | nil => cases hx
  | sc y => obtain ⟨h1, h2⟩ := hx; subst h1; exact h2.elim
  | ref a => obtain ⟨_, h, h2⟩ := hx; cases h
  | seq => obtain ⟨_, _, h, _⟩ := hx; cases h
  | map => obtain ⟨_, h, _⟩ := hx; cases h
  | ptr y => obtain ⟨_, h, h2⟩ := hx; cases h; exact ⟨y, rfl, h2⟩
  | struct => obtain ⟨_, h, _⟩ := hx; cases h

theorem is_seq {h : Heap} {x : DV} {us ss : List UV} (hx : x.Is h (.seq us ss)) : ∃ xs sp, x = .seq xs sp ∧ DV.Iss h xs us ∧ DV.Iss h sp ss := by
  cases x with
  | nil => cases hx
  | sc y => obtain ⟨h1, h2⟩ := hx; subst h1; exact h2.elim
  | ref a => obtain ⟨_, h, h2⟩ := hx; cases h
  | seq xs sp => obtain ⟨_, _, h, h2, h3⟩ := hx; cases h; exact ⟨xs, sp, rfl, h2, h3⟩
  | map => obtain ⟨_, h, _⟩ := hx; cases h
  | ptr y => obtain ⟨_, h, h2⟩ := hx; cases h
  | struct => obtain ⟨_, h, _⟩ := hx; cases h

theorem is_map {h : Heap} {x : DV} {us : List (Bytes × UV)} (hx : x.Is h (.map us)) : ∃ m, x = .map m ∧ DV.Ism h m us := by
  cases x with
  | nil => cases hx
  | sc y => obtain ⟨h1, h2⟩ := hx; subst h1; exact h2.elim
  | ref a => obtain ⟨_, h, h2⟩ := hx; cases h
  | seq xs sp => obtain ⟨_, _, h, h2, h3⟩ := hx; cases h
  | map m => obtain ⟨_, h, h2⟩ := hx; cases h; exact ⟨m, rfl, h2⟩
  | ptr y => obtain ⟨_, h, h2⟩ := hx; cases h
  | struct => obtain ⟨_, h, _⟩ := hx; cases h

theorem is_struct {h : Heap} {x : DV} {us : List UV} (hx : x.Is h (.struct us)) : ∃ fs, x = .struct fs ∧ DV.Iss h fs us := by
  cases x with
  | nil => cases hx
  | sc y => obtain ⟨h1, h2⟩ := hx; subst h1; exact h2.elim
  | ref a => obtain ⟨_, h, h2⟩ := hx; cases h
  | seq xs sp => obtain ⟨_, _, h, h2, h3⟩ := hx; cases h
  | map m => obtain ⟨_, h, h2⟩ := hx; cases h
  | ptr y => obtain ⟨_, h, h2⟩ := hx; cases h
  | struct fs => obtain ⟨_, h, h2⟩ := hx; cases h; exact ⟨fs, rfl, h2⟩

theorem is_plain {h : Heap} {x : DV} {u : UV} (hu : u.IsPlain) (hx : x.Is h u) : x = .sc u := by
  cases x with
  | nil => simp only [DV.Is] at hx; subst hx; exact hu.elim
  | sc y => obtain ⟨h1, h2⟩ := hx; subst h1; rfl
  | ref a => obtain ⟨_, h, h2⟩ := hx; subst h; exact hu.elim
  | seq xs sp => obtain ⟨_, _, h, h2, h3⟩ := hx; subst h; exact hu.elim
  | map m => obtain ⟨_, h, h2⟩ := hx; subst h; exact hu.elim
  | ptr y => obtain ⟨_, h, h2⟩ := hx; subst h; exact hu.elim
  | struct fs => obtain ⟨_, h, h2⟩ := hx; subst h; exact hu.elim

theorem ty_plain {Ds : Defs} {s : Sc} {u : UV} (hu : u.HasTy Ds s.ty) : u.IsPlain := by
  cases u with
  | nil => cases s <;> exact hu.elim
  | bool => trivial
  | int => trivial
  | float => trivial
  | str => trivial
  | seq => obtain ⟨_, h, _⟩ := hu; cases s <;> cases h
  | arr => obtain ⟨_, h, _⟩ := hu; cases s <;> cases h
  | map => obtain ⟨_, _, h | h, _⟩ := hu <;> cases s <;> cases h
  | ptr => obtain ⟨_, h, _⟩ := hu; cases s <;> cases h
  | struct => obtain ⟨_, _, h, _⟩ := hu; cases s <;> cases h
  | any => simp only [UV.HasTy] at hu; cases s <;> cases hu
  | json => cases s <;> exact hu.elim

theorem ty_ptr {Ds : Defs} {t : Ty} {u : UV} (hu : u.HasTy Ds (.ptr t)) : u = .nil ∨ ∃ w, u = .ptr w ∧ w.HasTy Ds t := by
  cases u with
  | nil => exact .inl rfl
  | bool => cases hu
  | int => exact hu.elim
  | float => rcases hu with h | h <;> cases h.1
  | str => cases hu
  | seq => obtain ⟨_, h, _⟩ := hu; cases h
  | arr => obtain ⟨_, h, _⟩ := hu; cases h
  | map => obtain ⟨_, _, h | h, _⟩ := hu <;> cases h
  | ptr w => obtain ⟨_, h, h2⟩ := hu; cases h; exact .inr ⟨w, rfl, h2⟩
  | struct => obtain ⟨_, _, h, _⟩ := hu; cases h
  | any => cases hu
  | json => exact hu.elim

theorem ty_jptr {Ds : Defs} {k : JKind} {u : UV} (hu : u.HasTy Ds (.jptr k)) : u = .nil ∨ ∃ j, u = .json j ∧ j.HasKind k := by
  cases u with
  | nil => exact .inl rfl
  | bool => cases hu
  | int => exact hu.elim
  | float => rcases hu with h | h <;> cases h.1
  | str => cases hu
  | seq => obtain ⟨_, h, _⟩ := hu; cases h
  | arr => obtain ⟨_, h, _⟩ := hu; cases h
  | map => obtain ⟨_, _, h | h, _⟩ := hu <;> cases h
  | ptr w => obtain ⟨_, h, h2⟩ := hu; cases h
  | struct => obtain ⟨_, _, h, _⟩ := hu; cases h
  | any => cases hu
  | json j => exact .inr ⟨j, rfl, hu⟩

theorem ty_slice {Ds : Defs} {t : Ty} {u : UV} (hu : u.HasTy Ds (.slice t)) : u = .nil ∨ ∃ us ss, u = .seq us ss ∧ UV.HasTys Ds us t ∧ UV.HasTys Ds ss t := by
  cases u with
  | nil => exact .inl rfl
  | bool => cases hu
  | int => exact hu.elim
  | float => rcases hu with h | h <;> cases h.1
  | str => cases hu
  | seq us ss => obtain ⟨_, h, h2, h3⟩ := hu; cases h; exact .inr ⟨us, ss, rfl, h2, h3⟩
  | arr => obtain ⟨_, h, _⟩ := hu; cases h
  | map => obtain ⟨_, _, h | h, _⟩ := hu <;> cases h
  | ptr w => obtain ⟨_, h, h2⟩ := hu; cases h
  | struct => obtain ⟨_, _, h, _⟩ := hu; cases h
  | any => cases hu
  | json j => exact hu.elim

theorem ty_map {Ds : Defs} {t : Ty} {u : UV} (hu : u.HasTy Ds (.map t)) : u = .nil ∨ ∃ m, u = .map m := by
  cases u with
  | nil => exact .inl rfl
  | bool => cases hu
  | int => exact hu.elim
  | float => rcases hu with h | h <;> cases h.1
  | str => cases hu
  | seq us ss => obtain ⟨_, h, h2, h3⟩ := hu; cases h
  | arr => obtain ⟨_, h, _⟩ := hu; cases h
  | map m => exact .inr ⟨m, rfl⟩
  | ptr w => obtain ⟨_, h, h2⟩ := hu; cases h
  | struct => obtain ⟨_, _, h, _⟩ := hu; cases h
  | any => cases hu
  | json j => exact hu.elim

theorem ty_struct {Ds : Defs} {n : Nat} {u : UV} (hu : u.HasTy Ds (.struct n)) : ∃ us fs, u = .struct us ∧ Ds[n]? = some fs ∧ UV.HasTyf Ds us fs := by
  cases u with
  | nil => exact hu.elim
  | bool => cases hu
  | int => exact hu.elim
  | float => rcases hu with h | h <;> cases h.1
  | str => cases hu
  | seq us ss => obtain ⟨_, h, h2, h3⟩ := hu; cases h
  | arr => obtain ⟨_, h, _⟩ := hu; cases h
  | map => obtain ⟨_, _, h | h, _⟩ := hu <;> cases h
  | ptr w => obtain ⟨_, h, h2⟩ := hu; cases h
  | struct us => obtain ⟨_, fs, h, h2, h3⟩ := hu; cases h; exact ⟨us, fs, rfl, h2, h3⟩
  | any => cases hu
  | json j => exact hu.elim

/-! ### Scalars -/

/-- Numbers, booleans and texts. -/
def Obj.IsScalar : Obj → Prop
  | .bool _ => True
  | .int _ => True
  | .float _ _ => True
  | .str _ => True
  | _ => False

theorem Obj.IsScalar.refs {o : Obj} (h : o.IsScalar) : o.refs = [] := by cases o <;> first | rfl | exact h.elim
theorem Obj.IsScalar.ne {o : Obj} (h : o.IsScalar) : o ≠ .null := by cases o <;> first | exact h.elim | (intro e; cases e)

theorem scalar_unm_ptr {o : Obj} (ho : o.IsScalar) (P : UEnv) (t : Ty) (u : UV) :
    o.scalar.unm P (.ptr t) u = uptr (o.scalar.unm P t (match u with | .ptr w => w | _ => P.zero t)) := by
  cases o <;> first | exact ho.elim | (cases u <;> simp only [Obj.scalar, J.unm, UEnv.alloc, unmInt, unmBool, unmFloat, unmStr])

theorem scalar_seen {o : Obj} (ho : o.IsScalar) {h : Heap} {a : Addr} (ha : h[a]? = some o) : o.scalar.Seen h a := by
  cases o <;> first | exact ho.elim | exact ⟨trivial, ha⟩

/-- A plain new object spells its value. -/
theorem fresh_seen {o : Obj} (ho : o.IsScalar) (h : Heap) : o.scalar.Seen (h ++ [o]) h.length := scalar_seen ho (by simp)

theorem putPtr_agrees {o : Obj} {a : Addr} {h : Heap} (ha : h[a]? = some o) {j : J} (hj : j.Seen h a) (hn : o ≠ .null) (k : JKind) {x : DV} {u : UV} (hu : u.HasTy D.env.defs (.jptr k))
    (hx : x.Is h u) (hb : x.Blank D (.jptr k)) (r : URes)
    (hr : match convert D.trunc o k with
      | .same => o.IsKind k ∧ r = uok (.json j)
      | .write o' => k.Soft ∧ ¬ o.IsKind k ∧ o'.IsScalar ∧ r = uok (.json o'.scalar)
      | .mismatch => r = uerr (D.env.alloc (.jptr k) u) .mismatch) :
    Matches D S h a (.jptr k) (putPtr D a o k (D.alloc (.jptr k) h x).2 (D.alloc (.jptr k) h x).1) r := by
  have hz : k.zero.Seen (h ++ [k.zeroObj]) h.length := by
    cases k <;> simp [J.Seen, JKind.zero, JKind.zeroObj, J.At, J.Ats, J.Atf]
  rcases ty_jptr hu with rfl | ⟨j', rfl, _⟩
  · have := is_nil hx
    subst this
    simp only [DEnv.alloc, Heap.alloc, putPtr]
    cases hc : convert D.trunc o k with
    | same =>
      rw [hc] at hr
      rw [hr.2]
      exact .ok ⟨_, rfl⟩ ⟨j, rfl, At_prefix ⟨_, rfl⟩ hj⟩ (shares_jptr ha hn (fun _ => rfl) fun h => absurd hr.1 h)
    | mismatch =>
      rw [hc] at hr
      simp only at hr
      rw [hr]
      exact .err ⟨_, rfl⟩ ⟨_, rfl, hz⟩
    | write o' =>
      rw [hc] at hr
      obtain ⟨h1, h2, h3, h4⟩ := hr
      rw [h4]
      have hset : (h ++ [k.zeroObj]).set h.length o' = h ++ [o'] := by simp
      simp only [hset]
      exact .ok ⟨_, rfl⟩ ⟨_, rfl, fresh_seen h3 h⟩ (shares_jptr ha hn (fun h => absurd h h2) fun _ => ⟨_, rfl, Nat.le_refl _⟩)
  · obtain ⟨c, rfl, hs⟩ := is_json hx
    simp only [DEnv.alloc, putPtr]
    cases hc : convert D.trunc o k with
    | same =>
      rw [hc] at hr
      rw [hr.2]
      exact .ok (List.prefix_refl _) ⟨j, rfl, hj⟩ (shares_jptr ha hn (fun _ => rfl) fun h => absurd hr.1 h)
    | mismatch =>
      rw [hc] at hr
      simp only at hr
      rw [hr]
      exact .err (List.prefix_refl _) hx
    | write o' =>
      rw [hc] at hr
      exact absurd hr.1 (hb k c (.here _ _))

theorem scalar_agrees (hP : D.env.Ok) {o : Obj} (ho : o.IsScalar) (hw : o.scalar.WF) {a : Addr} : ∀ (t : DTy) (h : Heap) (x : DV) (u : UV), h[a]? = some o →
    t.ty.Valid D.env.defs → u.HasTy D.env.defs t.ty → x.Is h u → x.Blank D t →
    Matches D S h a t (putScalar D a o t (D.alloc t h x).2 (D.alloc t h x).1) (o.scalar.unm D.env t.ty u)
  | .sc s, h, x, u, ha, hv, hu, hx, hb => by
    have hup : u.IsPlain := ty_plain hu
    have := is_plain hup hx
    subst this
    simp only [DEnv.alloc, putScalar, DV.plain, DTy.ty]
    cases hr : o.scalar.unm D.env s.ty u with
    | none => rfl
    | some q =>
      obtain ⟨u', e⟩ := q
      refine ⟨_, _, rfl, List.prefix_refl _, ⟨rfl, ?_⟩, fun _ _ => shares_leaf (t := .sc s) ha ho.refs trivial _⟩
      exact ty_plain ((unm_fine (S := False) hP _ hw s.ty u hv hu (fun h => h.elim)).2 _ hr)
  | .obj, h, x, u, ha, hv, hu, hx, hb => by
    simp only [DEnv.alloc, putScalar, DTy.ty]
    have : o.scalar.unm D.env .jobj u = uok (.json o.scalar) := by
      cases o <;> first | exact ho.elim | simp only [Obj.scalar, J.unm, UEnv.alloc, unmInt, unmBool, unmFloat, unmStr]
    rw [this]
    exact .ok (List.prefix_refl _) ⟨_, rfl, scalar_seen ho ha⟩ (shares_obj ha ho.ne)
  | .jptr k, h, x, u, ha, hv, hu, hx, hb => by
    simp only [putScalar]
    refine putPtr_agrees ha (scalar_seen ho ha) ho.ne k hu hx hb _ ?_
    cases o <;> first
      | exact ho.elim
      | (cases k <;> simp only [convert, Obj.scalar, J.unm, DTy.ty, unmInt, unmBool, unmFloat, unmStr, Obj.IsKind, JKind.Soft, Obj.IsScalar, DEnv.env,
          reduceCtorEq, not_false_eq_true, and_self] <;> rfl)
  | .ptr t, h, x, u, ha, hv, hu, hx, hb => by
    simp only [DTy.ty]
    rw [scalar_unm_ptr ho]
    rcases ty_ptr hu with rfl | ⟨w, rfl, hwt⟩
    · have := is_nil hx
      subst this
      simp only [DEnv.alloc, putScalar]
      exact (scalar_agrees hP ho hw t h (D.zero t) _ ha hv (zero_hasTy hP t.ty hv) (zero_is h t) (zero_blank t t)).ptr
    · obtain ⟨y, rfl, hy⟩ := is_pointer hx
      simp only [DEnv.alloc, putScalar]
      exact (scalar_agrees hP ho hw t h y w ha hv hwt hy (blank_ptr hb)).ptr
  | .map t, h, x, u, ha, hv, hu, hx, hb => by
    have : o.scalar.unm D.env (.map t.ty) u = uerr u .mismatch := by
      cases o <;> first | exact ho.elim | simp only [Obj.scalar, J.unm, UEnv.alloc, unmInt, unmBool, unmFloat, unmStr]
    simp only [DTy.ty, this, DEnv.alloc, putScalar]
    exact .err (List.prefix_refl _) hx
  | .struct n, h, x, u, ha, hv, hu, hx, hb => by
    have : o.scalar.unm D.env (.struct n) u = uerr u .mismatch := by
      cases o <;> first | exact ho.elim | simp only [Obj.scalar, J.unm, UEnv.alloc, unmInt, unmBool, unmFloat, unmStr]
    simp only [DTy.ty, this, DEnv.alloc, putScalar]
    exact .err (List.prefix_refl _) hx
  | .slice t, h, x, u, ha, hv, hu, hx, hb => by
    cases o with
    | str s =>
      simp only [DTy.ty, DEnv.alloc, putScalar, Obj.scalar, J.unm, UEnv.alloc]
      have key : ∀ (y : DV) (w : UV) (bs : List DV) (ws : List UV), w.HasTy D.env.defs t.ty → y.Is h w → y.Blank D t → DV.Iss h bs ws →
          Matches D S h a (.slice t) ((putScalar D a (.str s) t (D.alloc t h y).2 (D.alloc t h y).1).map fun p => ((.seq [p.1.1] bs, p.1.2), p.2))
            ((unmStr D.env s t.ty (D.env.alloc t.ty w)).map fun p => (.seq [p.1] ws, p.2)) := by
        intro y w bs ws hwt hy hyb hbs
        have hA := scalar_agrees hP ho hw t h y w ha hv hwt hy hyb
        simp only [Obj.scalar, J.unm] at hA
        cases hr : unmStr D.env s t.ty (D.env.alloc t.ty w) with
        | none => rw [hr] at hA; simp only [Matches] at hA; rw [hA]; rfl
        | some q =>
          obtain ⟨u', e⟩ := q
          rw [hr] at hA
          obtain ⟨x', h', h1, h2, h3, h4⟩ := hA
          rw [h1]
          exact ⟨_, _, rfl, h2, ⟨_, _, rfl, ⟨_, _, rfl, h3, rfl⟩, Iss_mono h2 _ _ hbs⟩, fun _ _ => shares_leaf (t := .slice t) ha rfl trivial _⟩
      rcases ty_slice hu with rfl | ⟨us, ss, rfl, hus, hss⟩
      · have := is_nil hx
        subst this
        exact key _ _ [] [] (zero_hasTy hP t.ty hv) (zero_is h t) (zero_blank t t) rfl
      · obtain ⟨xs, sp, rfl, h1, h2⟩ := is_seq hx
        have h12 := Iss_append h1 h2
        have hty : ∀ w ∈ us ++ ss, w.HasTy D.env.defs t.ty := by
          intro w hm
          rcases List.mem_append.1 hm with hm | hm
          · exact (hasTys_iff _).1 hus w hm
          · exact (hasTys_iff _).1 hss w hm
        have hbl : ∀ y ∈ xs ++ sp, y.Blank D t := fun y hm => blank_elem hb hm
        simp only [unmStr, DV.backing, UV.backing]
        cases hxs : xs ++ sp with
        | nil =>
          rw [hxs] at h12
          simp only [DV.Iss] at h12
          rw [h12]
          exact key _ _ [] [] (zero_hasTy hP t.ty hv) (zero_is h t) (zero_blank t t) rfl
        | cons y ys =>
          rw [hxs] at h12
          obtain ⟨w, ws, h3, h4, h5⟩ := h12
          rw [h3]
          exact key y w ys ws (hty w (by rw [h3]; exact List.mem_cons_self ..)) h4 (hbl y (by rw [hxs]; exact List.mem_cons_self ..)) h5
    | int n =>
      simp only [DTy.ty, DEnv.alloc, putScalar, Obj.scalar, J.unm, UEnv.alloc, unmInt]
      exact .err (List.prefix_refl _) hx
    | bool n =>
      simp only [DTy.ty, DEnv.alloc, putScalar, Obj.scalar, J.unm, UEnv.alloc, unmBool]
      exact .err (List.prefix_refl _) hx
    | float n b =>
      simp only [DTy.ty, DEnv.alloc, putScalar, Obj.scalar, J.unm, UEnv.alloc, unmFloat]
      exact .err (List.prefix_refl _) hx
    | null => exact ho.elim
    | arr => exact ho.elim
    | dict => exact ho.elim
    | ptr => exact ho.elim

end Jsonutils
