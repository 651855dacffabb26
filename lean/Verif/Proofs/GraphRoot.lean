import Verif.Proofs.GraphPanic

namespace Jsonutils

variable {P : UEnv} {τ : Int → Ty}

/-- The session at the beginning. -/
def UH.start (M : List HV) : UH := ⟨M, fun _ => none⟩

theorem pre_start {evs : List NodeEv} (h : (defIds evs).Nodup) (M : List HV) : Pre τ evs (UH.start M) :=
  ⟨fun _ => Or.inl rfl, fun _ _ ⟨_, hp⟩ => by simp [UH.start] at hp, h⟩

theorem good_start {evs : List NodeEv} (M : List HV) : Good evs (UH.start M) ↔ NoForward evs :=
  ⟨fun h pre id post e => (h pre id post e).2, fun h pre id post e => ⟨rfl, h pre id post e⟩⟩

theorem step_start {evs : List NodeEv} {M : List HV} {s : UH} (h : Step τ evs (UH.start M) s) (id : Int) :
    s.where id ≠ none ↔ .defn id ∈ evs := by
  have hk : ¬ Known τ (UH.start M) id := fun ⟨_, hp⟩ => by simp [UH.start] at hp
  constructor
  · intro hw
    refine Classical.byContradiction fun hd => hw ?_
    by_cases hu : .use id ∈ evs
    · exact (h.pend id hd hk hu).where
    · simp only [UH.where, h.same id hd hu, UH.start]
  · intro hd
    obtain ⟨p, hp⟩ := h.got id hd
    simp [UH.where, hp]

/-- What holds of a variable holds of a pointer to it. -/
theorem holds_ptr {F F' : Nat → Prop} {M : List HV} {D : Int → Option Loc} {l : Loc} {t : Ty} {c : HV} (hF : ∀ b, F b → F' b) (hl : F' l.base) (hg : memGet M l = some c) :
    ∀ (j : J), j ≠ .null → (∀ id, j ≠ .ptr id) → j.Holds P F M D t c → j.Holds P F' M D (.ptr t) (.ptr l) := by
  intro j hn hp h
  have h := holds_mono (F' := F') (M' := M) (D' := D) hF (fun _ _ _ => rfl) j t c (fun _ _ => rfl) h
  cases j with
  | null => exact absurd rfl hn
  | ptr id => exact absurd rfl (hp id)
  | arr xs =>
    obtain ⟨t', c', o, h1, h2⟩ := h
    exact ⟨t', c', _, .there hl hg h1, h2⟩
  | dict id kvs =>
    obtain ⟨t', c', o, h1, h2, h3⟩ := h
    refine ⟨t', c', _, .there hl hg h1, fun hi => ?_, h3⟩
    obtain ⟨k1, k2⟩ := h2 hi
    obtain ⟨x, rfl⟩ := Option.isSome_iff_exists.1 k1
    exact ⟨rfl, k2⟩
  | bool b => obtain ⟨t', c', o, h1, h2⟩ := h; exact ⟨t', c', _, .there hl hg h1, h2⟩
  | int n => obtain ⟨t', c', o, h1, h2⟩ := h; exact ⟨t', c', _, .there hl hg h1, h2⟩
  | float x b => obtain ⟨t', c', o, h1, h2⟩ := h; exact ⟨t', c', _, .there hl hg h1, h2⟩
  | str s => obtain ⟨t', c', o, h1, h2⟩ := h; exact ⟨t', c', _, .there hl hg h1, h2⟩

theorem hunmarshal_root {j : J} (h : j.Rootable) (t : Ty) (l : Loc) (M : List HV) :
    j.hunmarshal P [] t l M = (j.hunm P t l (UH.start M)).map fun r => (r.1.mem, r.2) := by
  cases j <;> first | rfl | exact (show False from h).elim

theorem rootable_ne {j : J} (h : j.Rootable) : j ≠ .null ∧ ∀ id, j ≠ .ptr id := by
  cases j <;> first | exact (show False from h).elim | simp

/-- The outcome of `Unmarshal` into a variable that is zero. -/
def RootDone (P : UEnv) (j : J) (t : Ty) (l : Loc) (M : List HV) : Prop :=
  ∃ c new D, j.hunmarshal P [] t l M = some (memSet M l c ++ new, none) ∧
    j.Holds P (fun b => M.length ≤ b ∨ b = l.base) (memSet M l c ++ new) D (.ptr t) (.ptr l) ∧
    ∀ id, D id ≠ none ↔ .defn id ∈ j.events

theorem memGet_result {M : List HV} {l : Loc} {c₀ : HV} (hz : memGet M l = some c₀) (c : HV) (new : List HV) : memGet (memSet M l c ++ new) l = some c := by
  rw [memGet_append (by rw [memSet_length]; exact memGet_lt hz)]
  exact memGet_set hz _

theorem root_done (hw : P.defs.Wf) {j : J} {t : Ty} {l : Loc} {M : List HV} (hr : j.Rootable) (hf : j.Fits P τ t)
    (hz : memGet M l = some (P.hzero t)) (hids : (defIds j.events).Nodup) (hnf : NoForward j.events) : RootDone P j t l M := by
  obtain ⟨c, new, f, h1, h2, h3⟩ := hunm_done hw j t l (UH.start M) hf hz (pre_start hids M) ((good_start M).2 hnf)
  refine ⟨c, new, _, ?_, holds_ptr (F := (M.length ≤ ·)) (F' := fun b => M.length ≤ b ∨ b = l.base) (fun _ hb => Or.inl hb) (Or.inr rfl) (memGet_result hz c new) j (rootable_ne hr).1 (rootable_ne hr).2 h2, step_start h3⟩
  rw [hunmarshal_root hr, h1]; rfl

theorem root_panic (hw : P.defs.Wf) {j : J} {t : Ty} {l : Loc} {M : List HV} (hr : j.Rootable) (hf : j.Fits P τ t)
    (hz : memGet M l = some (P.hzero t)) (hids : (defIds j.events).Nodup) (hnf : ¬ NoForward j.events) : j.hunmarshal P [] t l M = none := by
  rw [hunmarshal_root hr, hunm_panic hw j t l (UH.start M) hf hz (pre_start hids M) (fun h => hnf ((good_start M).1 h))]
  rfl

theorem hdict_id {id : Int} {kvs : List (Bytes × J)} {e f} {t : Ty} (h : t.isStructOrMap = true) (l : Loc) (s : UH) :
    hdict id kvs e f t l s = hdict 0 kvs e f t l s := by
  cases t <;> first | rfl | simp [Ty.isStructOrMap] at h

theorem hunm_dict_noted (P : UEnv) (id : Int) (kvs : List (Bytes × J)) {t : Ty} (h : t.isStructOrMap = true) (l : Loc) (s : UH) (hid : s.sess id = none) :
    (J.dict id kvs).hunm P t l s = (J.dict 0 kvs).hunm P t l (noted s id (l, t)) := by
  have := saveNode_new (s := s) (id := id) (fun _ => hid) (l, t)
  rw [hunm_dict P 0 kvs h l _ (by omega), ← hdict_id (id := id) h]
  cases t <;> first | (rw [J.hunm.eq_def]; simp only [this]; rfl) | simp [Ty.isStructOrMap] at h

theorem fits_dict_ptr {id : Int} {kvs : List (Bytes × J)} {t : Ty} (h : (J.dict id kvs).Fits P τ (.ptr t)) :
    t.isStructOrMap = true ∧ (0 < id → τ id = t) ∧ (J.dict 0 kvs).Fits P τ t := by
  rw [J.Fits] at h ⊢
  obtain ⟨e, h1, h2, h3⟩ := h
  rcases h1 with ⟨h1, _⟩ | h1
  · rw [← h1] at h3; exact (show False from h3).elim
  · cases h1
    refine ⟨?_, h2, t, Or.inl ⟨rfl, by omega⟩, by omega, h3⟩
    cases t <;> first | rfl | exact (show False from h3).elim

theorem dict_root (hw : P.defs.Wf) {id : Int} {kvs : List (Bytes × J)} {t : Ty} {l : Loc} {M : List HV} (hf : (J.dict id kvs).Fits P τ (.ptr t))
    (hz : memGet M l = some (P.hzero t)) (hids : (defIds (J.dict id kvs).events).Nodup) :
    (NoForward (J.dict id kvs).events → RootDone P (.dict id kvs) t l M) ∧
    (¬ NoForward (J.dict id kvs).events → (J.dict id kvs).hunmarshal P [] t l M = none) := by
  obtain ⟨hsm, hτ, hf0⟩ := fits_dict_ptr hf
  have hpre := pre_start (τ := τ) hids M
  have hst : Step τ (if 0 < id then [.defn id] else []) (UH.start M) (noted (UH.start M) id (l, t)) := step_noted (fun _ => rfl) rfl hτ
  have hz' : (noted (UH.start M) id (l, t)).get l = some (P.hzero t) := by
    rw [UH.get, noted_mem]; exact hz
  have hev : (J.dict 0 kvs).events = J.eventsf kvs := by simp [J.events]
  have hev' : (J.dict id kvs).events = (if 0 < id then [.defn id] else []) ++ J.eventsf kvs := by rw [J.events]
  have hmem : (noted (UH.start M) id (l, t)).mem = M := noted_mem ..
  rw [hev'] at hpre
  rw [hunmarshal_root (j := .dict id kvs) trivial, hunm_dict_noted P id kvs hsm l (UH.start M) rfl]
  constructor
  · intro hnf
    have hg := (good_start M).2 hnf
    rw [hev'] at hg
    obtain ⟨c, new, f, h1, h2, h3⟩ := hunm_done hw (.dict 0 kvs) t l (noted (UH.start M) id (l, t)) hf0 hz' (by rw [hev]; exact hpre.right hst) (by rw [hev]; exact hg.right hpre hst)
    rw [hev] at h3
    rw [hmem] at h1 h2 h3
    refine ⟨c, new, UH.where ⟨memSet M l c ++ new, f⟩, ?_, ?_, ?_⟩
    · rw [hunmarshal_root (j := .dict id kvs) trivial, hunm_dict_noted P id kvs hsm l (UH.start M) rfl, h1]; rfl
    · have h2 := holds_ptr (F := (M.length ≤ ·)) (F' := fun b => M.length ≤ b ∨ b = l.base) (fun _ hb => Or.inl hb) (Or.inr rfl) (memGet_result hz c new)
        (.dict 0 kvs) (by simp) (by simp) h2
      obtain ⟨t', c', o, k1, _, k3⟩ := h2
      have ho : o = some l := by
        cases k1 with
        | here hn => exact absurd rfl (hn t)
        | there q1 q2 q3 =>
          cases q3 with
          | here _ => rfl
          | there _ _ _ => simp [Ty.isStructOrMap] at hsm
      refine ⟨t', c', o, k1, fun hi => ?_, k3⟩
      have hk : Known τ (noted (UH.start M) id (l, t)) id := ⟨l, by simp [noted, hi, UH.note, hτ hi]⟩
      have hfi : f id = _ := h3.keep id hk
      simp only [noted, hi, if_true, UH.note] at hfi
      rw [ho]
      refine ⟨rfl, ?_⟩
      simp only [UH.where, hfi]
    · intro i
      rw [hev']
      exact step_start (hst.append h3) i
  · intro hnf
    rw [hunm_panic hw (.dict 0 kvs) t l (noted (UH.start M) id (l, t)) hf0 hz' (by rw [hev]; exact hpre.right hst)]
    · rfl
    · intro hg2
      rw [hev] at hg2
      refine hnf ((good_start M).1 ?_)
      rw [hev']
      refine Good.append ?_ hg2 hpre hst
      intro pre i post e
      refine ⟨rfl, ?_⟩
      by_cases hi : 0 < id
      · simp only [hi, if_true] at e
        cases pre with
        | nil => simp
        | cons a pre => simp at e
      · simp [hi] at e

theorem fits_arr_ptr {xs : List J} {t : Ty} (h : (J.arr xs).Fits P τ (.ptr t)) : (J.arr xs).Fits P τ t := by
  rw [J.Fits] at h ⊢
  obtain ⟨e, h1, h2⟩ := h
  rcases h1 with h1 | h1
  · rw [← h1] at h2; exact (show False from h2).elim
  · cases h1; exact ⟨t, Or.inl rfl, h2⟩

theorem fits_str_ptr {s : Bytes} {t : Ty} (h : (J.str s).Fits P τ (.ptr t)) : (J.str s).Fits P τ t := h

theorem root_exact (hw : P.defs.Wf) {j : J} {t : Ty} {l : Loc} {M : List HV} (hr : j.Rootable) (hf : j.Fits P τ t ∨ j.Fits P τ (.ptr t))
    (hz : memGet M l = some (P.hzero t)) (hids : (defIds j.events).Nodup) :
    (NoForward j.events → RootDone P j t l M) ∧ (¬ NoForward j.events → j.hunmarshal P [] t l M = none) := by
  rcases hf with hf | hf
  · exact ⟨root_done hw hr hf hz hids, root_panic hw hr hf hz hids⟩
  · cases j with
    | dict id kvs => exact dict_root hw hf hz hids
    | arr xs => exact ⟨root_done hw hr (fits_arr_ptr hf) hz hids, root_panic hw hr (fits_arr_ptr hf) hz hids⟩
    | str s => exact ⟨root_done hw hr (fits_str_ptr hf) hz hids, root_panic hw hr (fits_str_ptr hf) hz hids⟩
    | _ => exact (show False from hr).elim

end Jsonutils
