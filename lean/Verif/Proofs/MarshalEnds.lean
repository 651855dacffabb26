import Verif.Proofs.MarshalStruct

/-! # `Marshal` ends on every finite pointer graph -/

namespace Jsonutils

variable {ord : SMap Bytes → List (Bytes × Bytes)} {oe : Bool}

theorem traceFind_infs (a : Nat) : ∀ (ret : Option Nat) (tr : List TEntry), (traceFind a ret tr).2.map (·.inf) = tr.map (·.inf)
  | _, [] => rfl
  | ret, e :: tr => by
    simp only [traceFind, List.map_cons]
    rw [traceFind_infs]
    congr 1
    split <;> split <;> rfl

theorem traceFind_none (a : Nat) : ∀ (tr : List TEntry), (traceFind a none tr).1 = none → a ∉ tr.map (·.inf)
  | [], _ => by simp
  | e :: tr, h => by
    simp only [traceFind] at h
    have some' : ∀ (tr : List TEntry) (i : Nat), (traceFind a (some i) tr).1 ≠ none := by
      intro tr
      induction tr with
      | nil => intro i; simp [traceFind]
      | cons e tr ih =>
        intro i
        simp only [traceFind]
        split <;> exact ih _
    split at h
    · exact absurd h (some' _ _)
    · rename_i hne
      rw [List.map_cons, List.mem_cons, not_or]
      exact ⟨fun h => hne h.symm, traceFind_none a tr h⟩

/-- How many addresses are not on the trace. -/
def freeCount (N : Nat) (s : MSess) : Nat := ((List.range N).filter fun a => decide (a ∉ s.trace.map (·.inf))).length

/-- The trace only grows at the end. -/
def Grows (s s' : MSess) : Prop := s.trace.map (·.inf) <+: s'.trace.map (·.inf)

theorem Grows.refl (s : MSess) : Grows s s := List.prefix_refl _
theorem Grows.trans {a b c : MSess} (h1 : Grows a b) (h2 : Grows b c) : Grows a c := List.IsPrefix.trans h1 h2

theorem filter_length_mono {α : Type} {p q : α → Bool} : ∀ (l : List α), (∀ x ∈ l, p x = true → q x = true) → (l.filter p).length ≤ (l.filter q).length
  | [], _ => by simp
  | x :: l, h => by
    have ih := filter_length_mono l (fun y hy => h y (by simp [hy]))
    simp only [List.filter_cons]
    have hx := h x (by simp)
    cases hp : p x with
    | true => rw [hx hp]; simpa using ih
    | false =>
      simp only [Bool.false_eq_true, if_false]
      split
      · simp only [List.length_cons]; omega
      · exact ih

theorem filter_length_lt {α : Type} {p q : α → Bool} : ∀ (l : List α), (∀ x ∈ l, p x = true → q x = true) → (∃ x ∈ l, p x = false ∧ q x = true) →
    (l.filter p).length < (l.filter q).length
  | [], _, h => by simp at h
  | x :: l, h, ⟨y, hy, h1, h2⟩ => by
    have hx := h x (by simp)
    simp only [List.filter_cons]
    rcases List.mem_cons.1 hy with rfl | hy
    · have ih := filter_length_mono l (fun z hz => h z (by simp [hz]))
      simp only [h1, h2, Bool.false_eq_true, if_false, if_true, List.length_cons]; omega
    · have ih := filter_length_lt l (fun z hz => h z (by simp [hz])) ⟨y, hy, h1, h2⟩
      cases hp : p x with
      | true => rw [hx hp]; simpa using ih
      | false =>
        simp only [Bool.false_eq_true, if_false]
        split
        · simp only [List.length_cons]; omega
        · exact ih

theorem Grows.free {N : Nat} {s s' : MSess} (h : Grows s s') : freeCount N s' ≤ freeCount N s := by
  refine filter_length_mono _ fun a _ ha => ?_
  simp only [decide_eq_true_eq] at ha ⊢
  exact fun hm => ha (h.subset hm)

theorem marf_dep_gv {d : MSess → Option FInfo → Nat → Option (MSess × Option MJ)} : ∀ (fs : List (FInfo × GV)) (s s' : MSess) (ps : List (Bytes × MJ)) (dep : SMap Bytes),
    GV.marf ord oe d fs s = some (s', ps, dep) → dep = depMap fs
  | [], s, s', ps, dep, h => by simp only [GV.marf] at h; cases h; rfl
  | (i, x) :: fs, s, s', ps, dep, h => by
    simp only [GV.marf] at h
    simp only [depMap]
    split at h
    · rename_i hi
      rw [hi]; exact marf_dep_gv fs s s' ps dep h
    · rename_i hi
      simp only [Bool.not_eq_true] at hi
      rw [hi]
      split at h
      · rename_i k hk
        split at h
        · cases h
        · rename_i hr
          cases h
          rw [hk, marf_dep_gv fs _ _ _ _ hr]; rfl
      · rename_i hk
        split at h
        · cases h
        · split at h
          · cases h
          · rename_i hr
            cases h
            rw [hk, marf_dep_gv fs _ _ _ _ hr]

theorem structDict_ends (hord : ∀ dep, (ord dep).Perm dep) {info : Option FInfo} {ps : List (Bytes × MJ)} {fs : List (FInfo × GV)} (hd : DepOk fs) :
    structDict ord oe info ps (depMap fs) ≠ none := by
  obtain ⟨f, dps, h⟩ := (Props.C41_terminates_iff (depMap fs) (depMap_sorted fs) ps (ord (depMap fs)) (hord _)).2 hd
  unfold structDict
  rw [depPairs_bound h]
  simp only
  split <;> simp

section ends
variable {h : List GV} {n : Nat} {d : MSess → Option FInfo → Nat → Option (MSess × Option MJ)}

/-- `d` ends, if there is enough fuel for the addresses not on the trace. -/
def DEnds (h : List GV) (n : Nat) (d : MSess → Option FInfo → Nat → Option (MSess × Option MJ)) : Prop :=
  ∀ s info a, a < h.length → freeCount h.length s < n → ∃ r, d s info a = some r ∧ Grows s r.1

mutual
theorem mar_ends (hord : ∀ dep, (ord dep).Perm dep) (hd : DEnds h n d) : ∀ (g : GV) (s : MSess) (info : Option FInfo), g.Finite h → g.DepsOk → freeCount h.length s ≤ n →
    ∃ r, GV.mar ord oe d g s info = some r ∧ Grows s r.1
  | .leaf l, s, info, _, _, _ => by simp only [GV.mar]; exact ⟨_, rfl, Grows.refl s⟩
  | .jsonPtr j, s, info, _, _, _ => by simp only [GV.mar]; exact ⟨_, rfl, Grows.refl s⟩
  | .seq xs, s, info, hf, hdp, hn => by
    simp only [GV.mar]
    split
    · exact ⟨_, rfl, Grows.refl s⟩
    · obtain ⟨r, h1, h2⟩ := mars_ends hord hd xs s (by simpa only [GV.Finite] using hf) (by simpa only [GV.DepsOk] using hdp) hn
      rw [h1]; exact ⟨_, rfl, h2⟩
  | .map xs, s, info, hf, hdp, hn => by
    simp only [GV.mar]
    split
    · exact ⟨_, rfl, Grows.refl s⟩
    · obtain ⟨r, h1, h2⟩ := marm_ends hord hd xs s (by simpa only [GV.Finite] using hf) (by simpa only [GV.DepsOk] using hdp) hn
      rw [h1]; exact ⟨_, rfl, h2⟩
  | .struct fs, s, info, hf, hdp, hn => by
    simp only [GV.DepsOk] at hdp
    obtain ⟨⟨s', ps, dep⟩, h1, h2⟩ := marf_ends hord hd fs s (by simpa only [GV.Finite] using hf) hdp.2 hn
    simp only [GV.mar, h1]
    rw [marf_dep_gv fs _ _ _ _ h1]
    cases hs : structDict ord oe info ps (depMap fs) with
    | none => exact absurd hs (structDict_ends hord hdp.1)
    | some o => exact ⟨_, rfl, h2⟩
  | .iface x, s, info, hf, hdp, hn => by
    simp only [GV.mar]
    exact mar_ends hord hd x s info (by simpa only [GV.Finite] using hf) (by simpa only [GV.DepsOk] using hdp) hn
  | .ptr a, s, info, hf, hdp, hn => by
    simp only [GV.Finite] at hf
    simp only [GV.mar]
    unfold marshalPtr
    have hi := traceFind_infs a none s.trace
    have hnm := traceFind_none a s.trace
    cases hr : traceFind a none s.trace with
    | mk found t =>
      rw [hr] at hi hnm
      simp only at hi hnm
      cases found with
      | some id =>
        refine ⟨_, rfl, ?_⟩
        simp only [Grows, hi]
        exact List.prefix_refl _
      | none =>
        simp only
        have hlt : freeCount h.length ⟨s.nodeIndex + 1, t ++ [⟨s.nodeIndex + 1, a, 1⟩]⟩ < freeCount h.length s := by
          refine filter_length_lt _ ?_ ⟨a, List.mem_range.2 hf, ?_, ?_⟩
          · intro b _ hb
            simp only [decide_eq_true_eq, List.map_append, List.mem_append, not_or, hi] at hb ⊢
            exact hb.1
          · simp
          · simpa using hnm rfl
        obtain ⟨r, h1, h2⟩ := hd ⟨s.nodeIndex + 1, t ++ [⟨s.nodeIndex + 1, a, 1⟩]⟩ info a hf (by omega)
        rw [h1]
        refine ⟨_, rfl, ?_⟩
        unfold Grows at h2 ⊢
        simp only [List.map_append, hi, List.map_cons, List.map_nil] at h2 ⊢
        obtain ⟨u, hu⟩ := h2
        unfold tracePop
        split
        · split
          · rw [List.map_dropLast, ← hu, List.append_assoc]
            rw [List.dropLast_append_of_ne_nil (by simp)]
            exact List.prefix_append _ _
          · rw [← hu, List.append_assoc]; exact List.prefix_append _ _
        · rw [← hu, List.append_assoc]; exact List.prefix_append _ _
  | .shared a, s, info, hf, _, _ => by simp only [GV.Finite] at hf
theorem mars_ends (hord : ∀ dep, (ord dep).Perm dep) (hd : DEnds h n d) : ∀ (xs : List GV) (s : MSess), GV.Finites h xs → GV.DepsOks xs → freeCount h.length s ≤ n →
    ∃ r, GV.mars ord oe d xs s = some r ∧ Grows s r.1
  | [], s, _, _, _ => by simp only [GV.mars]; exact ⟨_, rfl, Grows.refl s⟩
  | x :: xs, s, hf, hdp, hn => by
    simp only [GV.Finites] at hf
    simp only [GV.DepsOks] at hdp
    obtain ⟨⟨s1, o⟩, h1, h2⟩ := mar_ends hord hd x s none hf.1 hdp.1 hn
    obtain ⟨⟨s2, ys⟩, h3, h4⟩ := mars_ends hord hd xs s1 hf.2 hdp.2 (Nat.le_trans h2.free hn)
    simp only [GV.mars, h1, h3]
    exact ⟨_, rfl, h2.trans h4⟩
theorem marm_ends (hord : ∀ dep, (ord dep).Perm dep) (hd : DEnds h n d) : ∀ (xs : List (Bytes × GV)) (s : MSess), GV.Finitem h xs → GV.DepsOkm xs → freeCount h.length s ≤ n →
    ∃ r, GV.marm ord oe d xs s = some r ∧ Grows s r.1
  | [], s, _, _, _ => by simp only [GV.marm]; exact ⟨_, rfl, Grows.refl s⟩
  | (k, x) :: xs, s, hf, hdp, hn => by
    simp only [GV.Finitem] at hf
    simp only [GV.DepsOkm] at hdp
    obtain ⟨⟨s1, o⟩, h1, h2⟩ := mar_ends hord hd x s none hf.1 hdp.1 hn
    obtain ⟨⟨s2, ys⟩, h3, h4⟩ := marm_ends hord hd xs s1 hf.2 hdp.2 (Nat.le_trans h2.free hn)
    simp only [GV.marm, h1, h3]
    exact ⟨_, rfl, h2.trans h4⟩
theorem marf_ends (hord : ∀ dep, (ord dep).Perm dep) (hd : DEnds h n d) : ∀ (xs : List (FInfo × GV)) (s : MSess), GV.Finitef h xs → GV.DepsOkf xs → freeCount h.length s ≤ n →
    ∃ r, GV.marf ord oe d xs s = some r ∧ Grows s r.1
  | [], s, _, _, _ => by simp only [GV.marf]; exact ⟨_, rfl, Grows.refl s⟩
  | (i, x) :: xs, s, hf, hdp, hn => by
    simp only [GV.Finitef] at hf
    simp only [GV.DepsOkf] at hdp
    simp only [GV.marf]
    split
    · exact marf_ends hord hd xs s hf.2 hdp.2 hn
    · cases hk : i.deprecatedBy with
      | some k =>
        obtain ⟨⟨s2, ps, dep⟩, h3, h4⟩ := marf_ends hord hd xs s hf.2 hdp.2 hn
        simp only [h3]
        exact ⟨_, rfl, h4⟩
      | none =>
        obtain ⟨⟨s1, o⟩, h1, h2⟩ := mar_ends hord hd x s (some i) hf.1 hdp.1 hn
        obtain ⟨⟨s2, ps, dep⟩, h3, h4⟩ := marf_ends hord hd xs s1 hf.2 hdp.2 (Nat.le_trans h2.free hn)
        simp only [h1, h3]
        exact ⟨_, rfl, h2.trans h4⟩
end
end ends

theorem gd_ends (hord : ∀ dep, (ord dep).Perm dep) {h : List GV} (hh : ∀ x ∈ h, x.Finite h ∧ x.DepsOk) : ∀ n, DEnds h n (gd ord oe h n) := by
  intro n
  induction n with
  | zero => intro s info a _ hn; omega
  | succ n ih =>
    intro s info a ha hn
    rw [gd_succ (List.getElem?_eq_getElem ha)]
    have := hh h[a] (List.getElem_mem ha)
    exact mar_ends hord ih _ s info this.1 this.2 (by omega)

theorem marshal_ends (hord : ∀ dep, (ord dep).Perm dep) {pick : List Nat → Nat} {h : List GV} {g : GV} (hg : GraphOk h g) {n : Nat} (hn : h.length ≤ n) :
    ∃ j, marshal ord pick oe h n g = some j := by
  have hfree : freeCount h.length MSess.init ≤ n := by
    unfold freeCount
    refine Nat.le_trans (List.length_filter_le _ _) ?_
    rw [List.length_range]; exact hn
  obtain ⟨⟨s, o⟩, h1, _⟩ := mar_ends (oe := oe) hord (gd_ends hord hg.2.2 n) g .init none hg.1 hg.2.1 hfree
  unfold marshal
  rw [gmar_gd, h1]
  cases o <;> exact ⟨_, rfl⟩

end Jsonutils
