import Verif.Spec.Marshal
import Verif.Proofs.Deprecated

namespace Jsonutils

variable {ord : SMap Bytes → List (Bytes × Bytes)} {oe : Bool}

/-! ### More fuel, same result -/

section mono
variable {d d' : MSess → Option FInfo → Nat → Option (MSess × Option MJ)}

theorem marshalPtr_mono {a : Nat} {s : MSess} {b b' : MSess → Option (MSess × Option MJ)} (hb : ∀ s r, b s = some r → b' s = some r)
    {r : MSess × Option MJ} (h : marshalPtr a s b = some r) : marshalPtr a s b' = some r := by
  unfold marshalPtr at h ⊢
  split at h
  · exact h
  · simp only at h ⊢
    split at h
    · cases h
    · rename_i s' o hr
      rw [hb _ _ hr]; exact h

mutual
theorem mar_mono (hd : ∀ s info a r, d s info a = some r → d' s info a = some r) : ∀ (g : GV) (s : MSess) (info : Option FInfo) (r : MSess × Option MJ),
    GV.mar ord oe d g s info = some r → GV.mar ord oe d' g s info = some r
  | .leaf l, s, info, r, h => by simpa only [GV.mar] using h
  | .jsonPtr j, s, info, r, h => by simpa only [GV.mar] using h
  | .seq xs, s, info, r, h => by
    simp only [GV.mar] at h ⊢
    split at h
    · rename_i hc; rw [if_pos hc]; exact h
    · rename_i hc; rw [if_neg hc]
      split at h
      · cases h
      · rename_i s' ys hr; rw [mars_mono hd xs s _ hr]; exact h
  | .map xs, s, info, r, h => by
    simp only [GV.mar] at h ⊢
    split at h
    · rename_i hc; rw [if_pos hc]; exact h
    · rename_i hc; rw [if_neg hc]
      split at h
      · cases h
      · rename_i s' ys hr; rw [marm_mono hd xs s _ hr]; exact h
  | .struct xs, s, info, r, h => by
    simp only [GV.mar] at h ⊢
    split at h
    · cases h
    · rename_i s' ys dep hr; rw [marf_mono hd xs s _ hr]; exact h
  | .iface x, s, info, r, h => by
    simp only [GV.mar] at h ⊢
    exact mar_mono hd x s info r h
  | .ptr a, s, info, r, h => by
    simp only [GV.mar] at h ⊢
    exact marshalPtr_mono (fun s r => hd s info a r) h
  | .shared a, s, info, r, h => by
    simp only [GV.mar] at h ⊢
    exact hd _ _ _ _ h
theorem mars_mono (hd : ∀ s info a r, d s info a = some r → d' s info a = some r) : ∀ (xs : List GV) (s : MSess) (r : MSess × List MJ),
    GV.mars ord oe d xs s = some r → GV.mars ord oe d' xs s = some r
  | [], s, r, h => by simpa only [GV.mars] using h
  | x :: xs, s, r, h => by
    simp only [GV.mars] at h ⊢
    split at h
    · cases h
    · rename_i s1 o hx
      rw [mar_mono hd x s none _ hx]
      simp only at h ⊢
      split at h
      · cases h
      · rename_i s2 ys hs
        rw [mars_mono hd xs s1 _ hs]; exact h
theorem marm_mono (hd : ∀ s info a r, d s info a = some r → d' s info a = some r) : ∀ (xs : List (Bytes × GV)) (s : MSess) (r : MSess × List (Bytes × MJ)),
    GV.marm ord oe d xs s = some r → GV.marm ord oe d' xs s = some r
  | [], s, r, h => by simpa only [GV.marm] using h
  | (k, x) :: xs, s, r, h => by
    simp only [GV.marm] at h ⊢
    split at h
    · cases h
    · rename_i s1 o hx
      rw [mar_mono hd x s none _ hx]
      simp only at h ⊢
      split at h
      · cases h
      · rename_i s2 ys hs
        rw [marm_mono hd xs s1 _ hs]; exact h
theorem marf_mono (hd : ∀ s info a r, d s info a = some r → d' s info a = some r) : ∀ (xs : List (FInfo × GV)) (s : MSess) (r : MSess × List (Bytes × MJ) × SMap Bytes),
    GV.marf ord oe d xs s = some r → GV.marf ord oe d' xs s = some r
  | [], s, r, h => by simpa only [GV.marf] using h
  | (i, x) :: xs, s, r, h => by
    simp only [GV.marf] at h ⊢
    split at h
    · rename_i hi; rw [if_pos hi]; exact marf_mono hd xs s r h
    · rename_i hi; rw [if_neg hi]
      split at h
      · rename_i k hk
        split at h
        · cases h
        · rename_i s' ps dep hr; rw [marf_mono hd xs s _ hr]; exact h
      · rename_i hk
        split at h
        · cases h
        · rename_i s1 o hx
          rw [mar_mono hd x s _ _ hx]
          simp only at h ⊢
          split at h
          · cases h
          · rename_i s2 ps dep hs
            rw [marf_mono hd xs s1 _ hs]; exact h
end
end mono

theorem gmar_mono {h : List GV} : ∀ (n m : Nat), n ≤ m → ∀ (g : GV) (s : MSess) (info : Option FInfo) (r : MSess × Option MJ),
    gmar ord oe h n g s info = some r → gmar ord oe h m g s info = some r := by
  intro n
  induction n with
  | zero =>
    intro m _ g s info r hr
    cases m with
    | zero => exact hr
    | succ m =>
      simp only [gmar] at hr ⊢
      exact mar_mono (fun _ _ _ _ h => by cases h) g s info r hr
  | succ n ih =>
    intro m hm g s info r hr
    obtain ⟨m, rfl⟩ : ∃ k, m = k + 1 := ⟨m - 1, by omega⟩
    simp only [gmar] at hr ⊢
    refine mar_mono (fun s info a r hd => ?_) g s info r hr
    split at hd
    · cases hd
    · exact ih m (by omega) _ _ _ _ hd

theorem marshal_mono {pick : List Nat → Nat} {h : List GV} {n m : Nat} (hnm : n ≤ m) {g : GV} {j : J}
    (hr : marshal ord pick oe h n g = some j) : marshal ord pick oe h m g = some j := by
  unfold marshal at hr ⊢
  split at hr
  · cases hr
  · rename_i hg; rw [gmar_mono n m hnm _ _ _ _ hg]; exact hr
  · rename_i hg; rw [gmar_mono n m hnm _ _ _ _ hg]; exact hr

/-! ### Marshalling a tree -/

def forceJ (info : Option FInfo) (j : J) : J := if optForce info then .str j.toBytes else j

def structJ (ord : SMap Bytes → List (Bytes × Bytes)) (oe : Bool) (info : Option FInfo) (pairs : List (Bytes × J)) (dep : SMap Bytes) : Option (Option J) :=
  match depPairs dep (dep.length + 1) pairs (ord dep) with
  | none => none
  | some dps =>
    if (pairs ++ dps).isEmpty ∧ optEmpty info ∧ oe then some none
    else some (some (forceJ info (.dict 0 (pairsDict (pairs ++ dps)))))

section tree
variable (ord : SMap Bytes → List (Bytes × Bytes)) (oe : Bool)
mutual
/-- Marshalling a tree of values, without any session. -/
def TV.mar : TV → Option FInfo → Option (Option J)
  | .leaf l, info => some (l.marshal info oe)
  | .seq xs, info =>
    if xs.isEmpty ∧ optEmpty info ∧ oe then some none
    else match TV.mars xs with
      | none => none
      | some ys => some (some (forceJ info (.arr ys)))
  | .map kvs, info =>
    if kvs.isEmpty ∧ optEmpty info ∧ oe then some none
    else match TV.marm kvs with
      | none => none
      | some ps => some (some (forceJ info (.dict 0 (pairsDict ps))))
  | .struct fs, info => match TV.marf fs with
    | none => none
    | some (pairs, dep) => structJ ord oe info pairs dep
  | .iface x, info => TV.mar x info
  | .ptr x, info => TV.mar x info
def TV.mars : List TV → Option (List J)
  | [] => some []
  | x :: xs => match TV.mar x none with
    | none => none
    | some o => match TV.mars xs with
      | none => none
      | some ys => some (match o with | some y => y :: ys | none => ys)
def TV.marm : List (Bytes × TV) → Option (List (Bytes × J))
  | [] => some []
  | (k, x) :: xs => match TV.mar x none with
    | none => none
    | some o => match TV.marm xs with
      | none => none
      | some ys => some (match o with | some y => (k, y) :: ys | none => ys)
def TV.marf : List (FInfo × TV) → Option (List (Bytes × J) × SMap Bytes)
  | [] => some ([], [])
  | (i, x) :: xs =>
    if i.ignore then TV.marf xs
    else match i.deprecatedBy with
      | some k => match TV.marf xs with
        | none => none
        | some (ps, dep) => some (ps, match smGet dep i.name with
          | some _ => dep
          | none => smAdd dep i.name k)
      | none => match TV.mar x (some i) with
        | none => none
        | some o => match TV.marf xs with
          | none => none
          | some (ps, dep) => some ((match o with | some y => (i.name, y) :: ps | none => ps), dep)
end
end tree

/-! ### `plain` -/

theorem finishs_map (live : Nat → Bool) (pick : List Nat → Nat) (xs : List MJ) : MJ.finishs live pick xs = xs.map (·.finish live pick) := by
  induction xs with
  | nil => rfl
  | cons x xs ih => simp only [MJ.finishs, List.map_cons, ih]

theorem finishf_map (live : Nat → Bool) (pick : List Nat → Nat) (xs : List (Bytes × MJ)) :
    MJ.finishf live pick xs = xs.map fun p => (p.1, p.2.finish live pick) := by
  induction xs with
  | nil => rfl
  | cons x xs ih => obtain ⟨k, x⟩ := x; simp only [MJ.finishf, List.map_cons, ih]

theorem smAdd_map {α β : Type} (f : α → β) (m : SMap α) (k : Bytes) (v : α) :
    (smAdd m k v).map (fun p => (p.1, f p.2)) = smAdd (m.map fun p => (p.1, f p.2)) k (f v) := by
  induction m with
  | nil => rfl
  | cons e m ih =>
    obtain ⟨k', v'⟩ := e
    simp only [smAdd, List.map_cons]
    split
    · rw [List.map_cons, ih]
    · split
      · rfl
      · rfl

theorem pairsDict_map {α β : Type} (f : α → β) (ps : List (Bytes × α)) :
    (pairsDict ps).map (fun p => (p.1, f p.2)) = pairsDict (ps.map fun p => (p.1, f p.2)) := by
  unfold pairsDict
  suffices H : ∀ (m : SMap α), (ps.foldl (fun m p => smAdd m p.1 p.2) m).map (fun p => (p.1, f p.2)) =
      (ps.map fun p => (p.1, f p.2)).foldl (fun m p => smAdd m p.1 p.2) (m.map fun p => (p.1, f p.2)) from H []
  induction ps with
  | nil => intro m; rfl
  | cons e ps ih => intro m; simp only [List.foldl_cons, List.map_cons]; rw [ih, smAdd_map]

theorem findValueByKey_map {α β : Type} (f : α → β) (ps : List (Bytes × α)) (k : Bytes) :
    findValueByKey (ps.map fun p => (p.1, f p.2)) k = (findValueByKey ps k).map f := by
  induction ps with
  | nil => rfl
  | cons e ps ih =>
    obtain ⟨k', v⟩ := e
    simp only [List.map_cons, findValueByKey]
    split
    · rfl
    · exact ih

theorem depPairs_map {α β : Type} (f : α → β) (dep : SMap Bytes) (n : Nat) (ps : List (Bytes × α)) (todo : List (Bytes × Bytes)) :
    depPairs dep n (ps.map fun p => (p.1, f p.2)) todo = (depPairs dep n ps todo).map (·.map fun p => (p.1, f p.2)) := by
  induction todo with
  | nil => rfl
  | cons e todo ih =>
    obtain ⟨d, k⟩ := e
    simp only [depPairs]
    cases chaseDep dep d n k with
    | none => rfl
    | some found =>
      simp only
      rw [ih]
      cases depPairs dep n ps todo with
      | none => rfl
      | some q =>
        cases found with
        | none => rfl
        | some k' =>
          simp only [Option.map_some, findValueByKey_map]
          cases findValueByKey ps k' <;> rfl

def plainPairs (ps : List (Bytes × MJ)) : List (Bytes × J) := ps.map fun p => (p.1, p.2.plain)

theorem plain_dict (ms : List Nat) (ps : List (Bytes × MJ)) : (MJ.dict ms (pairsDict ps)).plain = .dict 0 (pairsDict (plainPairs ps)) := by
  simp only [MJ.plain, MJ.finish, finishf_map]
  have h1 : (ms.filter fun _ => false) = [] := by simp
  rw [h1]
  simp only [List.isEmpty_nil, if_true]
  rw [pairsDict_map (fun m : MJ => m.finish (fun _ => false) (fun _ => 0))]
  rfl

theorem plain_arr (xs : List MJ) : (MJ.arr xs).plain = .arr (xs.map MJ.plain) := by
  simp only [MJ.plain, MJ.finish, finishs_map]
  rfl

theorem plain_force (info : Option FInfo) (m : MJ) : (forceStr info m).plain = forceJ info m.plain := by
  unfold forceStr forceJ
  split <;> simp [MJ.plain, MJ.finish]

theorem plain_mark (id : Nat) (m : MJ) : (m.mark id).plain = m.plain := by
  cases m <;> simp [MJ.mark, MJ.plain, MJ.finish]

theorem structDict_plain {info : Option FInfo} {pairs : List (Bytes × MJ)} {dep : SMap Bytes} :
    structJ ord oe info (plainPairs pairs) dep = (structDict ord oe info pairs dep).map (·.map MJ.plain) := by
  unfold structJ structDict
  unfold plainPairs
  rw [depPairs_map MJ.plain]
  cases depPairs dep (dep.length + 1) pairs (ord dep) with
  | none => rfl
  | some q =>
    simp only [Option.map_some]
    have e : ((pairs.map fun p => (p.1, p.2.plain)) ++ q.map fun p => (p.1, p.2.plain)) = plainPairs (pairs ++ q) := by
      simp [plainPairs]
    rw [e]
    have e2 : (plainPairs (pairs ++ q)).isEmpty = (pairs ++ q).isEmpty := by
      cases pairs ++ q <;> rfl
    rw [e2]
    split
    · rfl
    · simp only [Option.map_some, plain_force, plain_dict]

/-! ### The unfolding is unique -/

/-- Induction over unfoldings. -/
theorem Unf.induct {h : List GV} {P : GV → TV → Prop} {Ps : List GV → List TV → Prop} {Pm : List (Bytes × GV) → List (Bytes × TV) → Prop}
    {Pf : List (FInfo × GV) → List (FInfo × TV) → Prop}
    (leaf : ∀ l, P (.leaf l) (.leaf l)) (jsonPtr : ∀ j, P (.jsonPtr j) (.leaf (.jsonIface j)))
    (seq : ∀ {xs ts}, Unfs h xs ts → Ps xs ts → P (.seq xs) (.seq ts)) (map : ∀ {xs ts}, Unfm h xs ts → Pm xs ts → P (.map xs) (.map ts))
    (struct : ∀ {xs ts}, Unff h xs ts → Pf xs ts → P (.struct xs) (.struct ts)) (iface : ∀ {x t}, Unf h x t → P x t → P (.iface x) (.iface t))
    (ptr : ∀ {a g t}, h[a]? = some g → Unf h g t → P g t → P (.ptr a) (.ptr t))
    (shared : ∀ {a g t}, h[a]? = some g → Unf h g t → P g t → P (.shared a) t)
    (snil : Ps [] []) (scons : ∀ {x xs t ts}, Unf h x t → Unfs h xs ts → P x t → Ps xs ts → Ps (x :: xs) (t :: ts))
    (mnil : Pm [] []) (mcons : ∀ {k x xs t ts}, Unf h x t → Unfm h xs ts → P x t → Pm xs ts → Pm ((k, x) :: xs) ((k, t) :: ts))
    (fnil : Pf [] []) (fcons : ∀ {i x xs t ts}, Unf h x t → Unff h xs ts → P x t → Pf xs ts → Pf ((i, x) :: xs) ((i, t) :: ts)) :
    (∀ {g t}, Unf h g t → P g t) ∧ (∀ {g t}, Unfs h g t → Ps g t) ∧ (∀ {g t}, Unfm h g t → Pm g t) ∧ (∀ {g t}, Unff h g t → Pf g t) := by
  refine ⟨fun hu => ?_, fun hu => ?_, fun hu => ?_, fun hu => ?_⟩
  · exact Unf.rec (motive_1 := fun g t _ => P g t) (motive_2 := fun g t _ => Ps g t) (motive_3 := fun g t _ => Pm g t) (motive_4 := fun g t _ => Pf g t)
      leaf jsonPtr seq map struct iface ptr shared snil scons mnil mcons fnil fcons hu
  · exact Unfs.rec (motive_1 := fun g t _ => P g t) (motive_2 := fun g t _ => Ps g t) (motive_3 := fun g t _ => Pm g t) (motive_4 := fun g t _ => Pf g t)
      leaf jsonPtr seq map struct iface ptr shared snil scons mnil mcons fnil fcons hu
  · exact Unfm.rec (motive_1 := fun g t _ => P g t) (motive_2 := fun g t _ => Ps g t) (motive_3 := fun g t _ => Pm g t) (motive_4 := fun g t _ => Pf g t)
      leaf jsonPtr seq map struct iface ptr shared snil scons mnil mcons fnil fcons hu
  · exact Unff.rec (motive_1 := fun g t _ => P g t) (motive_2 := fun g t _ => Ps g t) (motive_3 := fun g t _ => Pm g t) (motive_4 := fun g t _ => Pf g t)
      leaf jsonPtr seq map struct iface ptr shared snil scons mnil mcons fnil fcons hu

theorem unf_fun {h : List GV} {g : GV} {t t' : TV} (h1 : Unf h g t) (h2 : Unf h g t') : t = t' := by
  refine (Unf.induct (h := h) (P := fun g t => ∀ t', Unf h g t' → t = t') (Ps := fun g t => ∀ t', Unfs h g t' → t = t')
    (Pm := fun g t => ∀ t', Unfm h g t' → t = t') (Pf := fun g t => ∀ t', Unff h g t' → t = t')
    ?_ ?_ ?_ ?_ ?_ ?_ ?_ ?_ ?_ ?_ ?_ ?_ ?_ ?_).1 h1 t' h2
  · intro l t' h; cases h; rfl
  · intro l t' h; cases h; rfl
  · intro _ _ _ ih t' h; cases h with | seq h => rw [ih _ h]
  · intro _ _ _ ih t' h; cases h with | map h => rw [ih _ h]
  · intro _ _ _ ih t' h; cases h with | struct h => rw [ih _ h]
  · intro _ _ _ ih t' h; cases h with | iface h => rw [ih _ h]
  · intro _ _ _ ha _ ih t' h; cases h with | ptr ha' h => rw [ha] at ha'; cases ha'; rw [ih _ h]
  · intro _ _ _ ha _ ih t' h; cases h with | shared ha' h => rw [ha] at ha'; cases ha'; rw [ih _ h]
  · intro t' h; cases h; rfl
  · intro _ _ _ _ _ _ i1 i2 t' h; cases h with | cons a b => rw [i1 _ a, i2 _ b]
  · intro t' h; cases h; rfl
  · intro _ _ _ _ _ _ _ i1 i2 t' h; cases h with | cons a b => rw [i1 _ a, i2 _ b]
  · intro t' h; cases h; rfl
  · intro _ _ _ _ _ _ _ i1 i2 t' h; cases h with | cons a b => rw [i1 _ a, i2 _ b]

/-! ### Acyclic values: the session has no effect -/

mutual
def TV.size : TV → Nat
  | .leaf _ => 1
  | .seq xs => 1 + TV.sizes xs
  | .map xs => 1 + TV.sizem xs
  | .struct xs => 1 + TV.sizef xs
  | .iface x => 1 + x.size
  | .ptr x => 1 + x.size
def TV.sizes : List TV → Nat
  | [] => 0
  | x :: xs => x.size + TV.sizes xs
def TV.sizem : List (Bytes × TV) → Nat
  | [] => 0
  | (_, x) :: xs => x.size + TV.sizem xs
def TV.sizef : List (FInfo × TV) → Nat
  | [] => 0
  | (_, x) :: xs => x.size + TV.sizef xs
end

/-- The trace holds strictly larger trees than the one at hand, and nothing has been found yet. -/
def Above (h : List GV) (n : Nat) (tr : List TEntry) : Prop :=
  ∀ e ∈ tr, ∃ t, Unf h (.ptr e.inf) t ∧ n < t.size

theorem Above.mono {h : List GV} {n m : Nat} {tr : List TEntry} (ha : Above h n tr) (hm : m ≤ n) : Above h m tr :=
  fun e he => by obtain ⟨t, h1, h2⟩ := ha e he; exact ⟨t, h1, by omega⟩

theorem traceFind_miss {a : Nat} : ∀ (tr : List TEntry), (∀ e ∈ tr, e.inf ≠ a) → traceFind a none tr = (none, tr) := by
  intro tr
  induction tr with
  | nil => intro _; rfl
  | cons e tr ih =>
    intro hn
    simp only [traceFind]
    rw [if_neg (hn e (by simp))]
    rw [ih fun e' he => hn e' (by simp [he])]
    simp

theorem tracePop_push (tr : List TEntry) (id a : Nat) : tracePop (tr ++ [⟨id, a, 1⟩]) = tr := by
  simp [tracePop]

/-- What marshalling with a session does, compared with the tree. -/
def Agrees (r : Option (MSess × Option MJ)) (s : MSess) (t : Option (Option J)) : Prop :=
  match t with
  | none => r = none
  | some o => ∃ k m, r = some (⟨k, s.trace⟩, m) ∧ m.map MJ.plain = o

def AgreesL {α β : Type} (f : α → β) (r : Option (MSess × α)) (s : MSess) (t : Option β) : Prop :=
  match t with
  | none => r = none
  | some o => ∃ k m, r = some (⟨k, s.trace⟩, m) ∧ f m = o

theorem gmar_eq {h : List GV} (n : Nat) : ∃ d, gmar ord oe h n = GV.mar ord oe d := by
  cases n <;> exact ⟨_, rfl⟩

/-- The loops at fuel `n`. -/
def gd (ord : SMap Bytes → List (Bytes × Bytes)) (oe : Bool) (h : List GV) : Nat → MSess → Option FInfo → Nat → Option (MSess × Option MJ)
  | 0 => fun _ _ _ => none
  | n + 1 => fun s info a => match h[a]? with
    | none => none
    | some v => gmar ord oe h n v s info

theorem gmar_gd {h : List GV} (n : Nat) : gmar ord oe h n = GV.mar ord oe (gd ord oe h n) := by
  cases n <;> rfl

theorem gd_succ {h : List GV} {a : Nat} {g : GV} (hg : h[a]? = some g) (n : Nat) (s : MSess) (info : Option FInfo) :
    gd ord oe h (n + 1) s info a = GV.mar ord oe (gd ord oe h n) g s info := by
  rw [← gmar_gd]
  show (match h[a]? with
    | none => none
    | some v => gmar ord oe h n v s info) = _
  rw [hg]

mutual
theorem finish_dead (pick : List Nat → Nat) : ∀ m : MJ, m.finish (fun _ => false) pick = m.finish (fun _ => false) (fun _ => 0)
  | .json j => rfl
  | .ref id => rfl
  | .arr xs => by simp only [MJ.finish]; rw [finishs_dead pick xs]
  | .dict ms kvs => by
    simp only [MJ.finish]; rw [finishf_dead pick kvs]
    have h1 : (ms.filter fun _ => false) = [] := by simp
    rw [h1]; rfl
theorem finishs_dead (pick : List Nat → Nat) : ∀ m : List MJ, MJ.finishs (fun _ => false) pick m = MJ.finishs (fun _ => false) (fun _ => 0) m
  | [] => rfl
  | x :: xs => by simp only [MJ.finishs]; rw [finish_dead pick x, finishs_dead pick xs]
theorem finishf_dead (pick : List Nat → Nat) : ∀ m : List (Bytes × MJ), MJ.finishf (fun _ => false) pick m = MJ.finishf (fun _ => false) (fun _ => 0) m
  | [] => rfl
  | (k, x) :: xs => by simp only [MJ.finishf]; rw [finish_dead pick x, finishf_dead pick xs]
end

theorem mar_unf {h : List GV} {g : GV} {t : TV} (hu : Unf h g t) : ∃ N, ∀ n, N ≤ n → ∀ (s : MSess) (info : Option FInfo), Above h t.size s.trace →
    AgreesL (·.map MJ.plain) (GV.mar ord oe (gd ord oe h n) g s info) s (t.mar ord oe info) := by
  refine (Unf.induct (h := h) (P := fun g t => ∃ N, ∀ n, N ≤ n → ∀ (s : MSess) (info : Option FInfo), Above h t.size s.trace →
      AgreesL (·.map MJ.plain) (GV.mar ord oe (gd ord oe h n) g s info) s (t.mar ord oe info))
    (Ps := fun g t => ∃ N, ∀ n, N ≤ n → ∀ (s : MSess), Above h (TV.sizes t) s.trace →
      AgreesL (·.map MJ.plain) (GV.mars ord oe (gd ord oe h n) g s) s (TV.mars ord oe t))
    (Pm := fun g t => ∃ N, ∀ n, N ≤ n → ∀ (s : MSess), Above h (TV.sizem t) s.trace →
      AgreesL plainPairs (GV.marm ord oe (gd ord oe h n) g s) s (TV.marm ord oe t))
    (Pf := fun g t => ∃ N, ∀ n, N ≤ n → ∀ (s : MSess), Above h (TV.sizef t) s.trace →
      AgreesL (fun p : List (Bytes × MJ) × SMap Bytes => (plainPairs p.1, p.2)) (GV.marf ord oe (gd ord oe h n) g s) s (TV.marf ord oe t))
    ?_ ?_ ?_ ?_ ?_ ?_ ?_ ?_ ?_ ?_ ?_ ?_ ?_ ?_).1 hu
  · intro l
    refine ⟨0, fun n _ s info _ => ?_⟩
    simp only [GV.mar, TV.mar, AgreesL]
    refine ⟨s.nodeIndex, _, rfl, ?_⟩
    cases l.marshal info oe <;> simp [MJ.plain, MJ.finish]
  · intro l
    refine ⟨0, fun n _ s info _ => ?_⟩
    simp only [GV.mar, TV.mar, AgreesL, Leaf.marshal]
    exact ⟨_, _, rfl, by simp [MJ.plain, MJ.finish]⟩
  · intro xs ts hs ⟨N, ih⟩
    refine ⟨N, fun n hn s info ha => ?_⟩
    have e : xs.isEmpty = ts.isEmpty := by cases hs <;> rfl
    have := ih n hn s (ha.mono (by simp only [TV.size]; omega))
    simp only [GV.mar, TV.mar, e]
    split
    · exact ⟨_, _, rfl, rfl⟩
    · cases hr : TV.mars ord oe ts with
      | none => rw [hr] at this; simp only [AgreesL] at this ⊢; rw [this]
      | some ys =>
        rw [hr] at this
        obtain ⟨k, m, h1, h2⟩ := this
        simp only [AgreesL, h1]
        refine ⟨_, _, rfl, ?_⟩
        simp only [Option.map_some, plain_force, plain_arr, h2]
  · intro xs ts hs ⟨N, ih⟩
    refine ⟨N, fun n hn s info ha => ?_⟩
    have e : xs.isEmpty = ts.isEmpty := by cases hs <;> rfl
    have := ih n hn s (ha.mono (by simp only [TV.size]; omega))
    simp only [GV.mar, TV.mar, e]
    split
    · exact ⟨_, _, rfl, rfl⟩
    · cases hr : TV.marm ord oe ts with
      | none => rw [hr] at this; simp only [AgreesL] at this ⊢; rw [this]
      | some ys =>
        rw [hr] at this
        obtain ⟨k, m, h1, h2⟩ := this
        simp only [AgreesL, h1]
        refine ⟨_, _, rfl, ?_⟩
        simp only [Option.map_some, plain_force, plain_dict, h2]
  · intro xs ts hs ⟨N, ih⟩
    refine ⟨N, fun n hn s info ha => ?_⟩
    have := ih n hn s (ha.mono (by simp only [TV.size]; omega))
    simp only [GV.mar, TV.mar]
    cases hr : TV.marf ord oe ts with
    | none => rw [hr] at this; simp only [AgreesL] at this ⊢; rw [this]
    | some ys =>
      rw [hr] at this
      obtain ⟨k, m, h1, h2⟩ := this
      obtain ⟨pairs, dep⟩ := m
      subst h2
      simp only [h1, structDict_plain]
      cases structDict ord oe info pairs dep with
      | none => rfl
      | some o => exact ⟨_, _, rfl, rfl⟩
  · intro x t _ ⟨N, ih⟩
    refine ⟨N, fun n hn s info ha => ?_⟩
    simp only [GV.mar, TV.mar]
    exact ih n hn s info (ha.mono (by simp only [TV.size]; omega))
  · intro a g t hga hu ⟨N, ih⟩
    refine ⟨N + 1, fun n hn s info ha => ?_⟩
    obtain ⟨n, rfl⟩ : ∃ k, n = k + 1 := ⟨n - 1, by omega⟩
    simp only [GV.mar, TV.mar]
    have hmiss : ∀ e ∈ s.trace, e.inf ≠ a := by
      intro e he hea
      obtain ⟨t', h1, h2⟩ := ha e he
      rw [hea] at h1
      rw [unf_fun h1 (.ptr hga hu)] at h2
      simp only [TV.size] at h2; omega
    unfold marshalPtr
    rw [traceFind_miss _ hmiss]
    simp only [gd_succ hga]
    have := ih n (by omega) ⟨s.nodeIndex + 1, s.trace ++ [⟨s.nodeIndex + 1, a, 1⟩]⟩ info (by
      intro e he
      simp only [List.mem_append, List.mem_singleton] at he
      rcases he with he | rfl
      · obtain ⟨t', h1, h2⟩ := ha e he
        exact ⟨t', h1, by simp only [TV.size] at h2; omega⟩
      · exact ⟨.ptr t, .ptr hga hu, by simp only [TV.size]; omega⟩)
    cases hr : TV.mar ord oe t info with
    | none => rw [hr] at this; simp only [AgreesL] at this ⊢; rw [this]
    | some o =>
      rw [hr] at this
      obtain ⟨k, m, h1, h2⟩ := this
      simp only [h1]
      refine ⟨k, m.map (MJ.mark (s.nodeIndex + 1)), by rw [tracePop_push], ?_⟩
      rw [← h2]
      cases m with
      | none => rfl
      | some m => simp only [Option.map_some, plain_mark]
  · intro a g t hga hu ⟨N, ih⟩
    refine ⟨N + 1, fun n hn s info ha => ?_⟩
    obtain ⟨n, rfl⟩ : ∃ k, n = k + 1 := ⟨n - 1, by omega⟩
    simp only [GV.mar, gd_succ hga]
    exact ih n (by omega) s info ha
  · exact ⟨0, fun n _ s _ => ⟨_, _, rfl, rfl⟩⟩
  · intro x xs t ts _ _ ⟨N1, i1⟩ ⟨N2, i2⟩
    refine ⟨max N1 N2, fun n hn s ha => ?_⟩
    have a1 := i1 n (by omega) s none (ha.mono (by simp only [TV.sizes]; omega))
    simp only [GV.mars, TV.mars]
    cases hr : TV.mar ord oe t none with
    | none => rw [hr] at a1; simp only [AgreesL] at a1 ⊢; rw [a1]
    | some o =>
      rw [hr] at a1
      obtain ⟨k, m, h1, h2⟩ := a1
      have a2 := i2 n (by omega) ⟨k, s.trace⟩ (ha.mono (by simp only [TV.sizes]; omega))
      simp only [h1]
      cases hr2 : TV.mars ord oe ts with
      | none => rw [hr2] at a2; simp only [AgreesL] at a2 ⊢; rw [a2]
      | some ys =>
        rw [hr2] at a2
        obtain ⟨k2, m2, h3, h4⟩ := a2
        simp only [h3]
        refine ⟨_, _, rfl, ?_⟩
        subst h2; subst h4
        cases m <;> rfl
  · exact ⟨0, fun n _ s _ => ⟨_, _, rfl, rfl⟩⟩
  · intro key x xs t ts _ _ ⟨N1, i1⟩ ⟨N2, i2⟩
    refine ⟨max N1 N2, fun n hn s ha => ?_⟩
    have a1 := i1 n (by omega) s none (ha.mono (by simp only [TV.sizem]; omega))
    simp only [GV.marm, TV.marm]
    cases hr : TV.mar ord oe t none with
    | none => rw [hr] at a1; simp only [AgreesL] at a1 ⊢; rw [a1]
    | some o =>
      rw [hr] at a1
      obtain ⟨k, m, h1, h2⟩ := a1
      have a2 := i2 n (by omega) ⟨k, s.trace⟩ (ha.mono (by simp only [TV.sizem]; omega))
      simp only [h1]
      cases hr2 : TV.marm ord oe ts with
      | none => rw [hr2] at a2; simp only [AgreesL] at a2 ⊢; rw [a2]
      | some ys =>
        rw [hr2] at a2
        obtain ⟨k2, m2, h3, h4⟩ := a2
        simp only [h3]
        refine ⟨_, _, rfl, ?_⟩
        subst h2; subst h4
        cases m <;> rfl
  · exact ⟨0, fun n _ s _ => ⟨_, _, rfl, rfl⟩⟩
  · intro i x xs t ts _ _ ⟨N1, i1⟩ ⟨N2, i2⟩
    refine ⟨max N1 N2, fun n hn s ha => ?_⟩
    simp only [GV.marf, TV.marf]
    split
    · exact i2 n (by omega) s (ha.mono (by simp only [TV.sizef]; omega))
    · cases hk : i.deprecatedBy with
      | some k =>
        simp only
        have a2 := i2 n (by omega) s (ha.mono (by simp only [TV.sizef]; omega))
        cases hr2 : TV.marf ord oe ts with
        | none => rw [hr2] at a2; simp only [AgreesL] at a2 ⊢; rw [a2]
        | some ys =>
          rw [hr2] at a2
          obtain ⟨k2, m2, h3, h4⟩ := a2
          obtain ⟨ps, dep⟩ := m2
          subst h4
          simp only [h3]
          exact ⟨_, _, rfl, rfl⟩
      | none =>
        simp only
        have a1 := i1 n (by omega) s (some i) (ha.mono (by simp only [TV.sizef]; omega))
        cases hr : TV.mar ord oe t (some i) with
        | none => rw [hr] at a1; simp only [AgreesL] at a1 ⊢; rw [a1]
        | some o =>
          rw [hr] at a1
          obtain ⟨k, m, h1, h2⟩ := a1
          have a2 := i2 n (by omega) ⟨k, s.trace⟩ (ha.mono (by simp only [TV.sizef]; omega))
          simp only [h1]
          cases hr2 : TV.marf ord oe ts with
          | none => rw [hr2] at a2; simp only [AgreesL] at a2 ⊢; rw [a2]
          | some ys =>
            rw [hr2] at a2
            obtain ⟨k2, m2, h3, h4⟩ := a2
            obtain ⟨ps, dep⟩ := m2
            subst h4
            subst h2
            simp only [h3]
            refine ⟨_, _, rfl, ?_⟩
            cases m <;> rfl

/-- On acyclic values `Marshal` is tree marshalling. -/
theorem marshal_unf {pick : List Nat → Nat} {h : List GV} {g : GV} {t : TV} (hu : Unf h g t) :
    ∃ N, ∀ n, N ≤ n → marshal ord pick oe h n g = (t.mar ord oe none).map (·.getD .null) := by
  obtain ⟨N, hN⟩ := mar_unf (ord := ord) (oe := oe) hu
  refine ⟨N, fun n hn => ?_⟩
  have := hN n hn .init none (by intro e he; cases he)
  unfold marshal
  rw [gmar_gd]
  cases hr : TV.mar ord oe t none with
  | none => rw [hr] at this; simp only [AgreesL] at this; rw [this]; rfl
  | some o =>
    rw [hr] at this
    obtain ⟨k, m, h1, h2⟩ := this
    rw [h1]
    subst h2
    cases m with
    | none => rfl
    | some m =>
      have : MSess.live ⟨k, MSess.init.trace⟩ = fun _ => false := by funext id; rfl
      simp only [this, Option.map_some, Option.getD_some, MJ.plain]
      have key : ∀ m : MJ, m.finish (fun _ => false) pick = m.finish (fun _ => false) (fun _ => 0) := finish_dead pick
      rw [key]

end Jsonutils
