import Verif.Proofs.Equals
import Verif.Proofs.StrconvInt

/-! Lemmas about copies, `Interface`, conversions of texts and the utilities. -/

namespace Jsonutils

/-! ### DeepCopy on values -/

theorem nodup_keys_fun {α} {ps : List (Bytes × α)} (h : (ps.map (·.1)).Nodup) {k : Bytes} {v v' : α}
    (h1 : (k, v) ∈ ps) (h2 : (k, v') ∈ ps) : v = v' := by
  induction ps with
  | nil => simp at h1
  | cons e ps ih =>
    rw [List.map_cons, List.nodup_cons] at h
    rcases List.mem_cons.1 h1 with a | a <;> rcases List.mem_cons.1 h2 with b | b
    · rw [← a] at b; cases b; rfl
    · exfalso; apply h.1; rw [← a]; exact List.mem_map.2 ⟨_, b, rfl⟩
    · exfalso; apply h.1; rw [← b]; exact List.mem_map.2 ⟨_, a, rfl⟩
    · exact ih h.2 a b

theorem lastValue_eq_of_nodup {α} (ps : List (Bytes × α)) (h : (ps.map (·.1)).Nodup) (k : Bytes) (v : α) :
    lastValue ps k = some v ↔ (k, v) ∈ ps := by
  unfold lastValue
  rw [Option.map_eq_some_iff]
  constructor
  · rintro ⟨⟨k', v'⟩, h1, h2⟩
    have h3 := List.find?_some h1
    have h4 := List.mem_of_find?_eq_some h1
    simp only [decide_eq_true_eq] at h3
    simp only at h2
    subst h3; subst h2
    simpa using h4
  · intro hm
    cases hf : ps.reverse.find? (fun p => decide (p.1 = k)) with
    | none =>
      have := List.find?_eq_none.1 hf (k, v) (by simpa using hm)
      simp at this
    | some e =>
      refine ⟨e, rfl, ?_⟩
      have h3 := List.find?_some hf
      have h4 : e ∈ ps := by simpa using List.mem_of_find?_eq_some hf
      simp only [decide_eq_true_eq] at h3
      obtain ⟨k', v'⟩ := e
      simp only at h3
      subst h3
      exact nodup_keys_fun h h4 hm

theorem newDict_perm {m : SMap J} (h : SMap.Sorted m) (ps : List (Bytes × J)) (hp : ps.Perm m) : newDict ps = .dict 0 m := by
  have hnd : (m.map (·.1)).Nodup := sorted_keys_nodup h
  have hnd' : (ps.map (·.1)).Nodup := ((hp.map (·.1)).nodup_iff).2 hnd
  have he : ∀ k, lastValue ps k = lastValue m k := by
    intro k
    apply Option.ext
    intro v
    rw [lastValue_eq_of_nodup ps hnd', lastValue_eq_of_nodup m hnd]
    exact hp.mem_iff
  unfold newDict
  rw [foldl_smAdd_canonical ps m he, foldl_smAdd_sorted m [] (by simpa using h)]
  rfl

theorem dropIdsf_map (kvs : List (Bytes × J)) : J.dropIdsf kvs = kvs.map fun kv => (kv.1, kv.2.dropIds) := by
  induction kvs with
  | nil => rfl
  | cons e kvs ih => simp only [J.dropIdsf, ih, List.map_cons]

theorem dropIdss_map (xs : List J) : J.dropIdss xs = xs.map J.dropIds := by
  induction xs with
  | nil => rfl
  | cons e kvs ih => simp only [J.dropIdss, ih, List.map_cons]

theorem sorted_map_snd {α β} {m : SMap α} (f : α → β) (h : SMap.Sorted m) : SMap.Sorted (m.map fun kv => (kv.1, f kv.2)) := by
  unfold SMap.Sorted
  rw [List.pairwise_map]
  exact h

theorem smGet_map {α β} (m : SMap α) (f : α → β) (k : Bytes) : smGet (m.map fun kv => (kv.1, f kv.2)) k = (smGet m k).map f := by
  induction m with
  | nil => rfl
  | cons e m ih =>
    obtain ⟨k', v⟩ := e
    simp only [List.map_cons, smGet, ih]
    split <;> rfl

theorem deepCopy_eq (ord : List (Bytes × J) → List (Bytes × J)) (ho : ∀ l, (ord l).Perm l) (v : J) (hw : v.WF) (hp : v.NoPtr) :
    v.deepCopy ord = some v.dropIds := by
  have key : ∀ xs : List J, (∀ (i : Nat) x, xs[i]? = some x → x.deepCopy ord = some x.dropIds) →
      J.deepCopys ord xs = some (J.dropIdss xs) := by
    intro xs
    induction xs with
    | nil => intro _; rfl
    | cons x xs ih =>
      intro h
      simp only [J.deepCopys, h 0 x rfl, ih fun i y hy => h (i + 1) y (by simpa using hy), J.dropIdss]
  have key2 : ∀ kvs : List (Bytes × J), (∀ k x, (k, x) ∈ kvs → x.deepCopy ord = some x.dropIds) →
      J.deepCopyf ord kvs = some (J.dropIdsf kvs) := by
    intro kvs
    induction kvs with
    | nil => intro _; rfl
    | cons e kvs ih =>
      intro h
      simp only [J.deepCopyf, h e.1 e.2 (by simp), ih fun k y hy => h k y (by simp [hy]), J.dropIdsf]
  induction v using J.ind with
  | arr xs ih =>
    simp only [J.WF] at hw
    simp only [J.NoPtr] at hp
    simp only [J.deepCopy, J.dropIds]
    rw [key xs fun i x hx => ih i x hx (wfs_get hw hx) (noPtrs_get hp hx)]
    rfl
  | dict i kvs ih =>
    have hs := WF_dict_sorted hw
    simp only [J.NoPtr] at hp
    simp only [J.deepCopy, J.dropIds]
    rw [key2 kvs fun k x hx => ih k x hx ((wf_dict_iff.1 hw).2 _ hx) (noPtrf_get hp hx)]
    simp only [Option.map_some]
    rw [newDict_perm (m := J.dropIdsf kvs) _ _ (ho _)]
    rw [dropIdsf_map]
    exact sorted_map_snd _ hs
  | ptr i => simp [J.NoPtr] at hp
  | _ => rfl

theorem alike_dropIds (v : J) (hp : v.NoPtr) (hn : v.NoNaN) : Alike v v.dropIds := by
  induction v using J.ind with
  | arr xs ih =>
    simp only [J.NoPtr] at hp
    simp only [J.NoNaN, J.FloatsSat] at hn
    simp only [J.dropIds, dropIdss_map]
    refine .arr (by simp) fun i x y hx hy => ?_
    rw [List.getElem?_map, hx] at hy
    cases hy
    exact ih i x hx (noPtrs_get hp hx) (floatsSats_get hn hx)
  | dict i kvs ih =>
    simp only [J.NoPtr] at hp
    simp only [J.NoNaN, J.FloatsSat] at hn
    simp only [J.dropIds, dropIdsf_map]
    refine .dict (fun k => by rw [smGet_map]; cases smGet kvs k <;> rfl) fun k x y hx hy => ?_
    rw [smGet_map, hx] at hy
    cases hy
    exact ih k x (smGet_mem hx) (noPtrf_get hp (smGet_mem hx)) (floatsSatf_get hn (smGet_mem hx))
  | float x b => exact Alike.refl _ hp hn
  | null => exact .null
  | bool b => exact .bool b
  | int b => exact .int b
  | str b => exact .str b
  | ptr i => simp [J.NoPtr] at hp

theorem wfs_of {xs : List J} (h : ∀ (i : Nat) x, xs[i]? = some x → x.WF) : J.WFs xs := by
  induction xs with
  | nil => trivial
  | cons x xs ih => exact ⟨h 0 x rfl, ih fun i y hy => h (i + 1) y (by simpa using hy)⟩

theorem dropIds_wf (v : J) (hw : v.WF) : v.dropIds.WF := by
  induction v using J.ind with
  | arr xs ih =>
    simp only [J.WF] at hw
    simp only [J.dropIds, dropIdss_map, J.WF]
    refine wfs_of fun i x hx => ?_
    rw [List.getElem?_map, Option.map_eq_some_iff] at hx
    obtain ⟨y, h1, rfl⟩ := hx
    exact ih i y h1 (wfs_get hw h1)
  | dict i kvs ih =>
    simp only [J.dropIds, dropIdsf_map]
    rw [wf_dict_iff] at hw ⊢
    refine ⟨sorted_map_snd _ hw.1, fun e he => ?_⟩
    obtain ⟨e', h1, rfl⟩ := List.mem_map.1 he
    exact ih e'.1 e'.2 h1 (hw.2 _ h1)
  | _ => exact hw


theorem dropIds_eq : ∀ v : J, v.NoIds → v.dropIds = v := by
  apply J.rec (motive_1 := fun v => v.NoIds → v.dropIds = v) (motive_2 := fun xs => J.NoIdss xs → J.dropIdss xs = xs)
    (motive_3 := fun kvs => J.NoIdsf kvs → J.dropIdsf kvs = kvs)
    (motive_4 := fun kv => kv.2.NoIds → kv.2.dropIds = kv.2)
  case arr => intro xs ih h; simp only [J.NoIds] at h; simp only [J.dropIds, ih h]
  case dict => intro i kvs ih h; simp only [J.NoIds] at h; simp only [J.dropIds, ih h.2, h.1]
  case nil => intro _; rfl
  case cons => intro x xs h1 h2 h; simp only [J.NoIdss] at h; simp only [J.dropIdss, h1 h.1, h2 h.2]
  case nil => intro _; rfl
  case cons =>
    intro x xs h1 h2 h
    obtain ⟨k, x⟩ := x
    simp only [J.NoIdsf] at h
    simp only [J.dropIdsf, h2 h.2]
    rw [h1 h.1]
  case mk => intro k x h; exact h
  all_goals intros; rfl

/-! ### Interface -/

theorem interfaces_map (xs : List J) : J.interfaces xs = xs.map J.interface := by
  induction xs with
  | nil => rfl
  | cons e kvs ih => simp only [J.interfaces, ih, List.map_cons]

theorem interfacef_map (kvs : List (Bytes × J)) : J.interfacef kvs = kvs.map fun kv => (kv.1, kv.2.interface) := by
  induction kvs with
  | nil => rfl
  | cons e kvs ih => simp only [J.interfacef, ih, List.map_cons]

theorem interface_at (p : List Sel) (v : J) : v.interface.at p = (v.at p).map J.interface := by
  induction p generalizing v with
  | nil => cases v <;> simp [Iface.at, J.at]
  | cons s p ih =>
    cases v with
    | arr xs =>
      cases s with
      | idx i =>
        simp only [J.interface, Iface.at, J.at, interfaces_map, List.getElem?_map]
        cases xs[i]? with
        | none => rfl
        | some x => exact ih x
      | key k => rfl
    | dict i kvs =>
      cases s with
      | key k =>
        simp only [J.interface, Iface.at, J.at, interfacef_map, smGet_map]
        cases smGet kvs k with
        | none => rfl
        | some x => exact ih x
      | idx k => rfl
    | _ => cases s <;> rfl

theorem interface_inj (v : J) : ∀ w, v.NoPtr → w.NoPtr → v.NoNaN → v.interface = w.interface → Alike v w := by
  induction v using J.ind with
  | null => intro w _ hw _ h; cases w <;> simp [J.interface, J.NoPtr] at h hw; exact .null
  | bool b => intro w _ hw _ h; cases w <;> simp [J.interface, J.NoPtr] at h hw; subst h; exact .bool b
  | int b => intro w _ hw _ h; cases w <;> simp [J.interface, J.NoPtr] at h hw; subst h; exact .int b
  | str b => intro w _ hw _ h; cases w <;> simp [J.interface, J.NoPtr] at h hw; subst h; exact .str b
  | float x b =>
    intro w _ hw hn h; cases w <;> simp [J.interface, J.NoPtr] at h hw
    subst h; exact .float _ _ (feq_refl (by simpa [J.NoNaN, J.FloatsSat] using hn))
  | ptr i => intro w h; simp [J.NoPtr] at h
  | arr xs ih =>
    intro w hp hw hn h
    cases w <;> simp [J.interface] at h
    rename_i ys
    simp only [J.NoPtr] at hp hw
    simp only [J.NoNaN, J.FloatsSat] at hn
    rw [interfaces_map, interfaces_map] at h
    refine .arr (by simpa using congrArg List.length h) fun i x y hx hy => ?_
    refine ih i x hx y (noPtrs_get hp hx) (noPtrs_get hw hy) (floatsSats_get hn hx) ?_
    have := congrArg (fun l => l[i]?) h
    simpa [List.getElem?_map, hx, hy] using this
  | dict i kvs ih =>
    intro w hp hw hn h
    cases w <;> simp [J.interface, J.NoPtr] at h hw
    rename_i j kvs2
    simp only [J.NoPtr] at hp
    simp only [J.NoNaN, J.FloatsSat] at hn
    rw [interfacef_map, interfacef_map] at h
    have hk : ∀ k, (smGet kvs k).map J.interface = (smGet kvs2 k).map J.interface := fun k => by
      rw [← smGet_map, ← smGet_map, h]
    refine .dict (fun k => ?_) fun k x y hx hy => ?_
    · have := congrArg Option.isSome (hk k)
      simpa using this
    · have := hk k
      rw [hx, hy] at this
      exact ih k x (smGet_mem hx) y (noPtrf_get hp (smGet_mem hx)) (noPtrf_get hw (smGet_mem hy))
        (floatsSatf_get hn (smGet_mem hx)) (by simpa using this)

end Jsonutils
