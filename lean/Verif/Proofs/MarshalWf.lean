import Verif.Proofs.MarshalRefs

/-! # What `Marshal` returns is a well-formed document -/

namespace Jsonutils

variable {ord : SMap Bytes → List (Bytes × Bytes)} {oe : Bool}

mutual
def MJ.Wf : MJ → Prop
  | .json j => j.WF ∧ j.Refable
  | .ref _ => True
  | .arr xs => MJ.Wfs xs
  | .dict _ kvs => SMap.Sorted kvs ∧ MJ.Wff kvs
def MJ.Wfs : List MJ → Prop
  | [] => True
  | x :: xs => x.Wf ∧ MJ.Wfs xs
def MJ.Wff : List (Bytes × MJ) → Prop
  | [] => True
  | (k, x) :: xs => k ≠ jsonPointerKey ∧ x.Wf ∧ MJ.Wff xs
end

theorem wff_all (kvs : List (Bytes × MJ)) : MJ.Wff kvs ↔ ∀ p ∈ kvs, p.1 ≠ jsonPointerKey ∧ p.2.Wf := by
  induction kvs with
  | nil => simp [MJ.Wff]
  | cons p kvs ih => simp only [MJ.Wff, List.forall_mem_cons, ih, and_assoc]

theorem pairsDict_mem {α : Type} {ps : List (Bytes × α)} {e : Bytes × α} (h : e ∈ pairsDict ps) : e ∈ ps := by
  unfold pairsDict at h
  suffices H : ∀ (ps : List (Bytes × α)) (m : SMap α), e ∈ ps.foldl (fun m p => smAdd m p.1 p.2) m → e ∈ ps ∨ e ∈ m by
    rcases H ps [] h with h | h
    · exact h
    · cases h
  intro ps
  induction ps with
  | nil => intro m h; exact .inr h
  | cons p ps ih =>
    intro m h
    rw [List.foldl_cons] at h
    rcases ih _ h with h | h
    · exact .inl (List.mem_cons_of_mem _ h)
    · rcases mem_smAdd h with h | h
      · left; rw [h]; exact List.mem_cons_self ..
      · exact .inr h

theorem findValueByKey_mem' {α : Type} {ps : List (Bytes × α)} {k : Bytes} {v : α} (h : findValueByKey ps k = some v) : (k, v) ∈ ps := by
  induction ps with
  | nil => cases h
  | cons e ps ih =>
    obtain ⟨k', v'⟩ := e
    simp only [findValueByKey] at h
    split at h
    · rename_i hk; subst hk; cases h; simp
    · exact List.mem_cons_of_mem _ (ih h)

theorem forceStr_wf {info : Option FInfo} {m : MJ} (h : m.Wf) : (forceStr info m).Wf := by
  unfold forceStr
  split
  · simp only [MJ.Wf, J.WF, J.Refable, and_self]
  · exact h

theorem dict_wf {ps : List (Bytes × MJ)} (h : MJ.Wff ps) : (MJ.dict [] (pairsDict ps)).Wf := by
  simp only [MJ.Wf]
  refine ⟨pairsDict_sorted ps, ?_⟩
  rw [wff_all] at h ⊢
  exact fun p hp => h p (pairsDict_mem hp)

theorem mark_wf {id : Nat} {m : MJ} (h : m.Wf) : (m.mark id).Wf := by
  cases m <;> simpa [MJ.mark, MJ.Wf] using h

theorem leaf_wf {l : Leaf} (hl : l.Ok) {info : Option FInfo} {j : J} (h : l.marshal info oe = some j) : j.WF ∧ j.Refable := by
  cases l with
  | nil => simp only [Leaf.marshal] at h; split at h <;> cases h; simp [J.WF, J.Refable]
  | bool b => simp only [Leaf.marshal, marshalBoolean] at h; split at h <;> (try split at h) <;> cases h <;> simp [J.WF, J.Refable]
  | int n => simp only [Leaf.marshal, marshalInt64] at h; split at h <;> (try split at h) <;> cases h <;> simp [J.WF, J.Refable, newInt]; exact hl
  | float32 b => simp only [Leaf.marshal, marshalFloat32] at h; split at h <;> (try split at h) <;> cases h <;> simp [J.WF, J.Refable, newFloat32]; exact hl
  | float64 b => simp only [Leaf.marshal, marshalFloat64] at h; split at h <;> (try split at h) <;> cases h <;> simp [J.WF, J.Refable, newFloat64]; exact hl
  | str s => simp only [Leaf.marshal, marshalString] at h; split at h <;> cases h; simp [J.WF, J.Refable]
  | tri t => cases t <;> simp only [Leaf.marshal, marshalTristate] at h <;> (try split at h) <;> cases h <;> simp [J.WF, J.Refable]
  | time t => cases t <;> simp only [Leaf.marshal, marshalTime] at h <;> (try split at h) <;> cases h <;> simp [J.WF, J.Refable]
  | jsonVal j => simp only [Leaf.marshal] at h; split at h <;> cases h; exact hl
  | jsonIface j => simp only [Leaf.marshal] at h; cases h; exact hl
  | std j => simp only [Leaf.marshal] at h; cases h; exact hl
  | other => simp only [Leaf.marshal] at h; cases h; simp [J.WF, J.Refable]

def WfO : Option MJ → Prop
  | none => True
  | some m => m.Wf

section wf
variable {d : MSess → Option FInfo → Nat → Option (MSess × Option MJ)}

theorem structDict_wf (hord : ∀ dep, (ord dep).Perm dep) {info : Option FInfo} {ps : List (Bytes × MJ)} {dep : SMap Bytes} {o : Option MJ}
    (hp : MJ.Wff ps) (hdep : ∀ k k', smGet dep k = some k' → k ≠ jsonPointerKey) (hs : SMap.Sorted dep) (h : structDict ord oe info ps dep = some o) : WfO o := by
  unfold structDict at h
  split at h
  · cases h
  · rename_i dps hd
    simp only at h
    split at h
    · cases h; trivial
    · cases h
      refine forceStr_wf (dict_wf ?_)
      rw [wff_all] at hp ⊢
      intro p hm
      rcases List.mem_append.1 hm with hm | hm
      · exact hp p hm
      · obtain ⟨k, v⟩ := p
        obtain ⟨t, e, h1, _, h3⟩ := (depPairs_mem hd k v).1 hm
        refine ⟨?_, (hp _ (findValueByKey_mem' h3)).2⟩
        exact hdep k t (smGet_of_mem hs ((hord dep).subset h1))

mutual
theorem mar_wf (hord : ∀ dep, (ord dep).Perm dep) (hd : ∀ s info a r, d s info a = some r → WfO r.2) : ∀ (g : GV) (s : MSess) (info : Option FInfo) (s' : MSess) (o : Option MJ),
    g.Ok → GV.mar ord oe d g s info = some (s', o) → WfO o
  | .leaf l, s, info, s', o, hc, hr => by
    simp only [GV.mar] at hr
    simp only [GV.Ok] at hc
    cases hr
    cases hl : l.marshal info oe with
    | none => trivial
    | some j => simp only [Option.map_some, WfO, MJ.Wf]; exact leaf_wf hc hl
  | .jsonPtr j, s, info, s', o, hc, hr => by
    simp only [GV.mar] at hr
    simp only [GV.Ok] at hc
    cases hr
    simpa only [WfO, MJ.Wf] using hc
  | .seq xs, s, info, s', o, hc, hr => by
    simp only [GV.mar] at hr
    simp only [GV.Ok] at hc
    split at hr
    · cases hr; trivial
    · split at hr
      · cases hr
      · rename_i hx
        cases hr
        exact forceStr_wf (by simpa only [MJ.Wf] using mars_wf hord hd xs _ _ _ hc hx)
  | .map xs, s, info, s', o, hc, hr => by
    simp only [GV.mar] at hr
    simp only [GV.Ok] at hc
    split at hr
    · cases hr; trivial
    · split at hr
      · cases hr
      · rename_i hx
        cases hr
        exact forceStr_wf (dict_wf (marm_wf hord hd xs _ _ _ hc hx))
  | .struct fs, s, info, s', o, hc, hr => by
    simp only [GV.mar] at hr
    simp only [GV.Ok] at hc
    cases hx : GV.marf ord oe d fs s with
    | none => rw [hx] at hr; cases hr
    | some r =>
      obtain ⟨s1, ps, dep⟩ := r
      rw [hx] at hr
      simp only at hr
      have hdep := marf_dep_gv fs _ _ _ _ hx
      subst hdep
      cases hsd : structDict ord oe info ps (depMap fs) with
      | none => rw [hsd] at hr; cases hr
      | some o' =>
        rw [hsd] at hr
        cases hr
        refine structDict_wf hord (marf_wf hord hd fs _ _ _ _ hc hx) ?_ (depMap_sorted fs) hsd
        intro k k' hk
        obtain ⟨i, x, h1, _, h3, _⟩ := depMap_mem fs k k' hk
        rw [← h3]
        exact okf_name hc h1
  | .iface x, s, info, s', o, hc, hr => by
    simp only [GV.mar] at hr
    simp only [GV.Ok] at hc
    exact mar_wf hord hd x s info s' o hc hr
  | .ptr a, s, info, s', o, hc, hr => by
    simp only [GV.mar] at hr
    unfold marshalPtr at hr
    split at hr
    · cases hr; simp only [WfO, MJ.Wf]
    · simp only at hr
      split at hr
      · cases hr
      · rename_i s2 o2 hb
        have := hd _ _ _ _ hb
        cases hr
        cases o2 with
        | none => trivial
        | some m => exact mark_wf this
  | .shared a, s, info, s', o, hc, hr => by
    simp only [GV.mar] at hr
    exact hd _ _ _ _ hr
theorem mars_wf (hord : ∀ dep, (ord dep).Perm dep) (hd : ∀ s info a r, d s info a = some r → WfO r.2) : ∀ (xs : List GV) (s s' : MSess) (ys : List MJ),
    GV.Oks xs → GV.mars ord oe d xs s = some (s', ys) → MJ.Wfs ys
  | [], s, s', ys, _, hr => by simp only [GV.mars] at hr; cases hr; trivial
  | x :: xs, s, s', ys, hc, hr => by
    simp only [GV.mars] at hr
    simp only [GV.Oks] at hc
    split at hr
    · cases hr
    · rename_i s1 o hx
      split at hr
      · cases hr
      · rename_i s2 ys' hr2
        have a1 := mar_wf hord hd x s none s1 o hc.1 hx
        have a2 := mars_wf hord hd xs s1 s2 ys' hc.2 hr2
        cases o with
        | none => cases hr; exact a2
        | some y => cases hr; simp only [MJ.Wfs]; exact ⟨a1, a2⟩
theorem marm_wf (hord : ∀ dep, (ord dep).Perm dep) (hd : ∀ s info a r, d s info a = some r → WfO r.2) : ∀ (xs : List (Bytes × GV)) (s s' : MSess) (ys : List (Bytes × MJ)),
    GV.Okm xs → GV.marm ord oe d xs s = some (s', ys) → MJ.Wff ys
  | [], s, s', ys, _, hr => by simp only [GV.marm] at hr; cases hr; trivial
  | (k, x) :: xs, s, s', ys, hc, hr => by
    simp only [GV.marm] at hr
    simp only [GV.Okm] at hc
    split at hr
    · cases hr
    · rename_i s1 o hx
      split at hr
      · cases hr
      · rename_i s2 ys' hr2
        have a1 := mar_wf hord hd x s none s1 o hc.2.1 hx
        have a2 := marm_wf hord hd xs s1 s2 ys' hc.2.2 hr2
        cases o with
        | none => cases hr; exact a2
        | some y => cases hr; simp only [MJ.Wff]; exact ⟨hc.1, a1, a2⟩
theorem marf_wf (hord : ∀ dep, (ord dep).Perm dep) (hd : ∀ s info a r, d s info a = some r → WfO r.2) : ∀ (xs : List (FInfo × GV)) (s s' : MSess) (ys : List (Bytes × MJ)) (dep : SMap Bytes),
    GV.Okf xs → GV.marf ord oe d xs s = some (s', ys, dep) → MJ.Wff ys
  | [], s, s', ys, dep, _, hr => by simp only [GV.marf] at hr; cases hr; trivial
  | (i, x) :: xs, s, s', ys, dep, hc, hr => by
    simp only [GV.marf] at hr
    simp only [GV.Okf] at hc
    split at hr
    · exact marf_wf hord hd xs s s' ys dep hc.2.2 hr
    · split at hr
      · split at hr
        · cases hr
        · rename_i hr2
          cases hr
          exact marf_wf hord hd xs _ _ _ _ hc.2.2 hr2
      · split at hr
        · cases hr
        · rename_i s1 o hx
          split at hr
          · cases hr
          · rename_i hr2
            have a1 := mar_wf hord hd x s (some i) s1 o hc.2.1 hx
            have a2 := marf_wf hord hd xs _ _ _ _ hc.2.2 hr2
            cases o with
            | none => cases hr; exact a2
            | some y => cases hr; simp only [MJ.Wff]; exact ⟨hc.1, a1, a2⟩
theorem okf_name : ∀ {fs : List (FInfo × GV)}, GV.Okf fs → ∀ {i x}, (i, x) ∈ fs → i.name ≠ jsonPointerKey
  | [], _, _, _, h => by cases h
  | (i, x) :: fs, hc, i', x', h => by
    simp only [GV.Okf] at hc
    rcases List.mem_cons.1 h with h | h
    · cases h; exact hc.1
    · exact okf_name hc.2.2 h
end
end wf

theorem gd_wf (hord : ∀ dep, (ord dep).Perm dep) {h : List GV} (hh : ∀ x ∈ h, x.Ok) : ∀ n s info a r, gd ord oe h n s info a = some r → WfO r.2 := by
  intro n
  induction n with
  | zero => intro s info a r hr; cases hr
  | succ n ih =>
    intro s info a r hr
    obtain ⟨g, hga⟩ := gd_dang _ _ _ _ _ hr
    rw [gd_succ hga] at hr
    exact mar_wf hord ih g s info r.1 r.2 (hh g (List.mem_of_getElem? hga)) hr

theorem sorted_mapKeys {α β : Type} (f : α → β) {m : SMap α} (h : SMap.Sorted m) : SMap.Sorted (m.map fun p => (p.1, f p.2)) := by
  unfold SMap.Sorted at h ⊢
  rw [List.pairwise_map]
  exact h

mutual
theorem finish_wf (live : Nat → Bool) (pick : List Nat → Nat) : ∀ m : MJ, m.Wf → (m.finish live pick).WF ∧
    ((∀ id, id ∈ (m.finish live pick).ptrIds ∨ id ∈ (m.finish live pick).nodeIds → InI64 id) → (m.finish live pick).Refable)
  | .json j, h => by simp only [MJ.Wf] at h; simp only [MJ.finish]; exact ⟨h.1, fun _ => h.2⟩
  | .ref id, h => by
    simp only [MJ.finish, J.WF, J.Refable, J.ptrIds, J.nodeIds]
    exact ⟨trivial, fun h => h _ (.inl (by simp))⟩
  | .arr xs, h => by
    simp only [MJ.Wf] at h
    simp only [MJ.finish, J.WF, J.Refable, J.ptrIds, J.nodeIds]
    exact finishs_wf live pick xs h
  | .dict ms kvs, h => by
    simp only [MJ.Wf] at h
    simp only [MJ.finish, J.WF, J.Refable, J.ptrIds, J.nodeIds]
    obtain ⟨h1, h2⟩ := finishf_wf live pick kvs h.2
    refine ⟨⟨by rw [finishf_map]; exact sorted_mapKeys _ h.1, h1⟩, fun hid => ⟨?_, h2 fun id hi => hid id ?_⟩⟩
    · generalize hn : (if (ms.filter live).isEmpty then (0 : Int) else (pick (ms.filter live) : Nat)) = n at hid ⊢
      by_cases h0 : 0 < n
      · exact hid n (.inr (by simp [h0]))
      · have : 0 ≤ n := by rw [← hn]; split <;> omega
        have : n = 0 := by omega
        rw [this]; unfold InI64 i64min i64max; decide
    · rcases hi with hi | hi
      · exact .inl hi
      · exact .inr (List.mem_append_left _ hi)
theorem finishs_wf (live : Nat → Bool) (pick : List Nat → Nat) : ∀ m : List MJ, MJ.Wfs m → J.WFs (MJ.finishs live pick m) ∧
    ((∀ id, id ∈ J.ptrIdss (MJ.finishs live pick m) ∨ id ∈ J.nodeIdss (MJ.finishs live pick m) → InI64 id) → J.Refables (MJ.finishs live pick m))
  | [], _ => by simp [MJ.finishs, J.WFs, J.Refables]
  | x :: xs, h => by
    simp only [MJ.Wfs] at h
    simp only [MJ.finishs, J.WFs, J.Refables, J.ptrIdss, J.nodeIdss, List.mem_append]
    obtain ⟨a1, a2⟩ := finish_wf live pick x h.1
    obtain ⟨b1, b2⟩ := finishs_wf live pick xs h.2
    exact ⟨⟨a1, b1⟩, fun hid => ⟨a2 fun id hi => hid id (hi.imp .inl .inl), b2 fun id hi => hid id (hi.imp .inr .inr)⟩⟩
theorem finishf_wf (live : Nat → Bool) (pick : List Nat → Nat) : ∀ m : List (Bytes × MJ), MJ.Wff m → J.WFf (MJ.finishf live pick m) ∧
    ((∀ id, id ∈ J.ptrIdsf (MJ.finishf live pick m) ∨ id ∈ J.nodeIdsf (MJ.finishf live pick m) → InI64 id) → J.Refablef (MJ.finishf live pick m))
  | [], _ => by simp [MJ.finishf, J.WFf, J.Refablef]
  | (k, x) :: xs, h => by
    simp only [MJ.Wff] at h
    simp only [MJ.finishf, J.WFf, J.Refablef, J.ptrIdsf, J.nodeIdsf, List.mem_append]
    obtain ⟨a1, a2⟩ := finish_wf live pick x h.2.1
    obtain ⟨b1, b2⟩ := finishf_wf live pick xs h.2.2
    exact ⟨⟨a1, b1⟩, fun hid => ⟨h.1, a2 fun id hi => hid id (hi.imp .inl .inl), b2 fun id hi => hid id (hi.imp .inr .inr)⟩⟩
end

theorem marshal_wf (hord : ∀ dep, (ord dep).Perm dep) {pick : List Nat → Nat} {h : List GV} {g : GV} (hv : ValuesOk h g) {n : Nat} {j : J}
    (hm : marshal ord pick oe h n g = some j) : j.WF ∧ ((∀ id, id ∈ j.ptrIds ∨ id ∈ j.nodeIds → InI64 id) → j.Refable) := by
  unfold marshal at hm
  rw [gmar_gd] at hm
  cases hr : GV.mar ord oe (gd ord oe h n) g .init none with
  | none => rw [hr] at hm; cases hm
  | some r =>
    obtain ⟨s, o⟩ := r
    rw [hr] at hm
    have hw := mar_wf hord (gd_wf hord hv.2 n) g .init none s o hv.1 hr
    cases o with
    | none => cases hm; exact ⟨trivial, fun _ => trivial⟩
    | some m =>
      simp only [Option.some.injEq] at hm
      subst hm
      exact finish_wf _ _ m hw

end Jsonutils
