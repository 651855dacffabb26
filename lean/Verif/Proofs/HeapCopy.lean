import Verif.Spec.HeapCopy
import Verif.Proofs.Heap

/-! # `DeepCopy` of any object graph -/

namespace Jsonutils

variable {ord : SMap Ref → SMap Ref}

theorem Copied.mono {h h' : Heap} (hp : h <+: h') {r y : Ref} (c : Copied h r y) : Copied h' r y := by
  induction c with
  | nil => exact .nil
  | ref h1 => exact .ref (prefix_get hp h1)
  | leaf h1 h2 h3 => exact .leaf (prefix_get hp h1) h2 (prefix_get hp h3)
  | arr h1 h2 h3 _ ih => exact .arr (prefix_get hp h1) (prefix_get hp h2) h3 ih
  | dict h1 h2 h3 h4 _ ih => exact .dict (prefix_get hp h1) (prefix_get hp h2) h3 h4 ih

/-- No variable of the list dangles. -/
def RefsIn (h : Heap) (rs : List Ref) : Prop := ∀ b, some b ∈ rs → b < h.length

structure HeapFine (h : Heap) : Prop where
  inside : ∀ o ∈ h, RefsIn h o.refs
  tidy : h.Tidy

theorem RefsIn.mono {h h' : Heap} (hp : h <+: h') {rs : List Ref} (hr : RefsIn h rs) : RefsIn h' rs :=
  fun b hb => Nat.lt_of_lt_of_le (hr b hb) hp.length_le

theorem fine_snoc {h : Heap} (hf : HeapFine h) {o : Obj} (ho : RefsIn h o.refs) (ht : ∀ id kvs, o = .dict id kvs → SMap.Sorted kvs) :
    HeapFine (h ++ [o]) := by
  refine ⟨fun o' hm => ?_, fun a id kvs ha => ?_⟩
  · rcases List.mem_append.1 hm with hm | hm
    · exact (hf.inside o' hm).mono (List.prefix_append _ _)
    · rw [List.mem_singleton] at hm; subst hm
      exact ho.mono (List.prefix_append _ _)
  · by_cases hl : a < h.length
    · rw [List.getElem?_append_left hl] at ha
      exact hf.tidy a id kvs ha
    · rw [List.getElem?_append_right (by omega)] at ha
      have : o = .dict id kvs := by
        have := List.mem_of_getElem? ha
        simp at this; exact this.symm
      exact ht id kvs this

theorem get_snoc (h : Heap) (o : Obj) : (h ++ [o])[h.length]? = some o := by simp

theorem smGet_refsIn {h : Heap} {m : SMap Ref} (hm : ∀ e ∈ m, RefsIn h [e.2]) {rs : List Ref} (hr : ∀ r ∈ rs, ∃ e ∈ m, e.2 = r) : RefsIn h rs := by
  intro b hb
  obtain ⟨e, he, h2⟩ := hr _ hb
  exact hm e he b (by simp [h2])

theorem copied_all (hord : ∀ l, (ord l).Perm l) : ∀ f : Nat,
    (∀ h r y h', HeapFine h → RefsIn h [r] → deepCopyH ord f h r = .ok (y, h') →
      h <+: h' ∧ HeapFine h' ∧ RefsIn h' [y] ∧ Copied h' r y) ∧
    (∀ h rs ys h', HeapFine h → RefsIn h rs → deepCopysH ord f h rs = .ok (ys, h') →
      h <+: h' ∧ HeapFine h' ∧ RefsIn h' ys ∧ rs.length = ys.length ∧ ∀ (i : Nat) x y, rs[i]? = some x → ys[i]? = some y → Copied h' x y) ∧
    (∀ h kvs m m' h', HeapFine h → RefsIn h (kvs.map (·.2)) → deepCopyfH ord f h kvs m = .ok (m', h') →
      h <+: h' ∧ HeapFine h' ∧ ∃ ps : SMap Ref, ps.map (·.1) = kvs.map (·.1) ∧ m' = ps.foldl (fun m p => smAdd m p.1 p.2) m ∧
        RefsIn h' (ps.map (·.2)) ∧ ∀ (i : Nat) e p, kvs[i]? = some e → ps[i]? = some p → Copied h' e.2 p.2) := by
  intro f
  induction f with
  | zero =>
    refine ⟨fun h r y h' hf hr he => ?_, fun h rs ys h' hf hr he => ?_, fun h kvs m m' h' hf hr he => ?_⟩
    · cases r with
      | none => simp [deepCopyH] at he; obtain ⟨rfl, rfl⟩ := he; exact ⟨List.prefix_rfl, hf, hr, .nil⟩
      | some a => simp [deepCopyH] at he
    · cases rs with
      | nil => simp [deepCopysH] at he; obtain ⟨rfl, rfl⟩ := he; exact ⟨List.prefix_rfl, hf, hr, rfl, by simp⟩
      | cons a t => simp [deepCopysH] at he
    · cases kvs with
      | nil => simp [deepCopyfH] at he; obtain ⟨rfl, rfl⟩ := he; exact ⟨List.prefix_rfl, hf, [], rfl, rfl, hr, by simp⟩
      | cons a t => simp [deepCopyfH] at he
  | succ f ih =>
    obtain ⟨ih1, ih2, ih3⟩ := ih
    refine ⟨fun h r y h' hf hr he => ?_, fun h rs ys h' hf hr he => ?_, fun h kvs m m' h' hf hr he => ?_⟩
    · cases r with
      | none => simp [deepCopyH] at he; obtain ⟨rfl, rfl⟩ := he; exact ⟨List.prefix_rfl, hf, hr, .nil⟩
      | some a =>
        have hin : ∀ o, h[a]? = some o → RefsIn h o.refs := fun o ho => hf.inside o (List.mem_of_getElem? ho)
        have leaf : ∀ o, h[a]? = some o → o.IsLeaf → h ++ [o] = h' → some h.length = y →
            h <+: h' ∧ HeapFine h' ∧ RefsIn h' [y] ∧ Copied h' (some a) y := by
          rintro o ho hl rfl rfl
          refine ⟨List.prefix_append _ _, fine_snoc hf (hin o ho) ?_, ?_, .leaf (prefix_get (List.prefix_append _ _) ho) hl (get_snoc h o)⟩
          · rintro id kvs rfl; exact hl.elim
          · intro b hb; simp at hb; subst hb; simp
        rw [deepCopyH.eq_def] at he
        simp only at he
        cases ho : h[a]? with
        | none =>
          have := hr a (by simp)
          exact absurd this (Nat.not_lt.2 (List.getElem?_eq_none_iff.1 ho))
        | some o =>
          rw [ho] at he
          cases o with
          | arr xs =>
            simp only at he
            cases hc : deepCopysH ord f h xs with
            | panic => rw [hc] at he; simp at he
            | fuel => rw [hc] at he; simp at he
            | ok p =>
              obtain ⟨ys, h1⟩ := p
              rw [hc] at he
              simp [Heap.alloc] at he
              obtain ⟨rfl, rfl⟩ := he
              obtain ⟨g1, g2, g3, g4, g5⟩ := ih2 h xs ys h1 hf (hin _ ho) hc
              have hp : h1 <+: h1 ++ [Obj.arr ys] := List.prefix_append _ _
              refine ⟨g1.trans hp, fine_snoc g2 g3 (by simp), ?_, .arr (prefix_get (g1.trans hp) ho) (get_snoc _ _) g4 fun i x y hx hy => (g5 i x y hx hy).mono hp⟩
              intro b hb; simp at hb; subst hb; simp
          | dict id kvs =>
            simp only at he
            cases hne : nilEntry kvs with
            | true => rw [hne] at he; simp at he
            | false =>
            rw [hne] at he
            simp only [Bool.false_eq_true, if_false] at he
            cases hc : deepCopyfH ord f h (ord kvs) [] with
            | panic => rw [hc] at he; simp at he
            | fuel => rw [hc] at he; simp at he
            | ok p =>
              obtain ⟨m, h1⟩ := p
              rw [hc] at he
              simp [Heap.alloc] at he
              obtain ⟨rfl, rfl⟩ := he
              have hperm := hord kvs
              have hrf : RefsIn h ((ord kvs).map (·.2)) := by
                intro b hb
                exact hin _ ho b ((hperm.map (·.2)).mem_iff.1 hb)
              obtain ⟨g1, g2, ps, g3, rfl, g4, g5⟩ := ih3 h (ord kvs) [] m h1 hf hrf hc
              have hp : h1 <+: h1 ++ [Obj.dict 0 (ps.foldl (fun m p => smAdd m p.1 p.2) [])] := List.prefix_append _ _
              have hs := hf.tidy a id kvs ho
              have hsm : SMap.Sorted (ps.foldl (fun m p => smAdd m p.1 p.2) []) := sorted_foldl_smAdd _ _ sorted_nil
              have hnd : (kvs.map (·.1)).Nodup := sorted_keys_nodup hs
              have hnd2 : (ps.map (·.1)).Nodup := by rw [g3]; exact (hperm.map (·.1)).nodup_iff.2 hnd
              have hget : ∀ k, smGet (ps.foldl (fun m p => smAdd m p.1 p.2) []) k = lastValue ps k := by
                intro k; rw [smGet_foldl_smAdd _ _ sorted_nil]; simp [smGet]
              have hmem : ∀ k x, smGet kvs k = some x ↔ (k, x) ∈ ord kvs := by
                intro k x
                rw [← lastValue_sorted hs, lastValue_eq_of_nodup kvs hnd, hperm.mem_iff]
              have link : ∀ k x y, (k, x) ∈ ord kvs → (k, y) ∈ ps → Copied h1 x y := by
                intro k x y hx hy
                obtain ⟨i, hi⟩ := List.getElem?_of_mem hx
                obtain ⟨j, hj⟩ := List.getElem?_of_mem hy
                have e1 : ((ord kvs).map (·.1))[i]? = some k := by simp [hi]
                have e2 : ((ord kvs).map (·.1))[j]? = some k := by rw [← g3]; simp [hj]
                have hn : ((ord kvs).map (·.1)).Nodup := by rw [← g3]; exact hnd2
                have hij : i = j := by
                  have hil : i < ((ord kvs).map (·.1)).length := (List.getElem?_eq_some_iff.1 e1).1
                  exact (List.getElem?_inj hil hn).1 (e1.trans e2.symm)
                subst hij
                exact g5 i _ _ hi hj
              refine ⟨g1.trans hp, fine_snoc g2 ?_ ?_, ?_, .dict (prefix_get (g1.trans hp) ho) (get_snoc _ _) hsm (fun k => ?_) fun k x y hx hy => ?_⟩
              · intro b hb
                simp only [Obj.refs, List.mem_map] at hb
                obtain ⟨e, he, hb⟩ := hb
                have : smGet (ps.foldl (fun m p => smAdd m p.1 p.2) []) e.1 = some e.2 := by
                  rw [← lastValue_sorted hsm, lastValue_eq_of_nodup _ (sorted_keys_nodup hsm)]; exact he
                rw [hget, lastValue_eq_of_nodup ps hnd2] at this
                exact g4 b (by rw [List.mem_map]; exact ⟨e, this, hb⟩)
              · intro id' kvs' h; cases h; exact hsm
              · intro b hb; simp at hb; subst hb; simp
              · rw [hget]
                rw [Bool.eq_iff_iff]
                simp only [Option.isSome_iff_exists, hmem, lastValue_eq_of_nodup ps hnd2]
                have : k ∈ (ord kvs).map (·.1) ↔ k ∈ ps.map (·.1) := by rw [g3]
                simpa [List.mem_map] using this
              · rw [hget, lastValue_eq_of_nodup ps hnd2] at hy
                exact (link k x y ((hmem k x).1 hx) hy).mono hp
          | ptr id =>
            simp at he; obtain ⟨rfl, rfl⟩ := he
            exact ⟨List.prefix_rfl, hf, by intro b hb; simp at hb, .ref ho⟩
          | null => simp [Heap.alloc] at he; exact leaf _ ho trivial he.2 he.1
          | bool x => simp [Heap.alloc] at he; exact leaf _ ho trivial he.2 he.1
          | int x => simp [Heap.alloc] at he; exact leaf _ ho trivial he.2 he.1
          | float x y => simp [Heap.alloc] at he; exact leaf _ ho trivial he.2 he.1
          | str x => simp [Heap.alloc] at he; exact leaf _ ho trivial he.2 he.1
    · cases rs with
      | nil => simp [deepCopysH] at he; obtain ⟨rfl, rfl⟩ := he; exact ⟨List.prefix_rfl, hf, hr, rfl, by simp⟩
      | cons r rs =>
        simp only [deepCopysH] at he
        cases hc : deepCopyH ord f h r with
        | panic => rw [hc] at he; simp at he
        | fuel => rw [hc] at he; simp at he
        | ok p =>
          obtain ⟨y, h1⟩ := p
          rw [hc] at he
          simp only at he
          cases hc2 : deepCopysH ord f h1 rs with
          | panic => rw [hc2] at he; simp at he
          | fuel => rw [hc2] at he; simp at he
          | ok p =>
            obtain ⟨ys', h2⟩ := p
            rw [hc2] at he
            simp at he; obtain ⟨rfl, rfl⟩ := he
            obtain ⟨g1, g2, g3, g4⟩ := ih1 h r y h1 hf (fun b hb => hr b (by simp at hb; simp [hb])) hc
            obtain ⟨k1, k2, k3, k4, k5⟩ := ih2 h1 rs ys' h2 g2 (fun b hb => hr.mono g1 b (by simp [hb])) hc2
            refine ⟨g1.trans k1, k2, ?_, by simp [k4], fun i x z hx hz => ?_⟩
            · intro b hb
              rcases List.mem_cons.1 hb with hb | hb
              · exact g3.mono k1 b (by simp [hb])
              · exact k3 b hb
            · cases i with
              | zero => simp at hx hz; subst hx hz; exact g4.mono k1
              | succ i => exact k5 i x z (by simpa using hx) (by simpa using hz)
    · cases kvs with
      | nil => simp [deepCopyfH] at he; obtain ⟨rfl, rfl⟩ := he; exact ⟨List.prefix_rfl, hf, [], rfl, rfl, hr, by simp⟩
      | cons e kvs =>
        obtain ⟨k, r⟩ := e
        simp only [deepCopyfH] at he
        cases hc : deepCopyH ord f h r with
        | panic => rw [hc] at he; simp at he
        | fuel => rw [hc] at he; simp at he
        | ok p =>
          obtain ⟨y, h1⟩ := p
          rw [hc] at he
          simp only at he
          obtain ⟨g1, g2, g3, g4⟩ := ih1 h r y h1 hf (fun b hb => hr b (by simp at hb; simp [hb])) hc
          obtain ⟨k1, k2, ps, k3, k4, k5, k6⟩ := ih3 h1 kvs _ m' h' g2 (fun b hb => hr.mono g1 b (by rw [List.map_cons]; exact List.mem_cons_of_mem _ hb)) he
          refine ⟨g1.trans k1, k2, (k, y) :: ps, by simp [k3], by simpa using k4, ?_, fun i x z hx hz => ?_⟩
          · intro b hb
            rw [List.map_cons] at hb
            rcases List.mem_cons.1 hb with hb | hb
            · exact g3.mono k1 b (by simpa using hb)
            · exact k5 b hb
          · cases i with
            | zero => simp at hx hz; subst hx hz; exact g4.mono k1
            | succ i => exact k6 i x z (by simpa using hx) (by simpa using hz)

theorem hasNil_of_ref {h : Heap} {r y : Ref} (c : Copied h r y) (hf : ∀ (a : Nat) id kvs, h[a]? = some (.dict id kvs) → SMap.Sorted kvs)
    (hr : HasRef h r ∨ HasNil h r) : HasNil h y := by
  induction c with
  | nil => exact .here
  | ref _ => exact .here
  | @leaf a b o h1 h2 h3 =>
    exfalso
    have none : ∀ r, r ∈ o.refs → False := by intro r hr; cases o <;> first | exact h2.elim | simp [Obj.refs] at hr
    rcases hr with hr | hr
    · cases hr with
      | here g => rw [h1] at g; cases g; exact h2
      | inside g hm _ => rw [h1] at g; cases g; exact none _ hm
    · cases hr with
      | inside g hm _ => rw [h1] at g; cases g; exact none _ hm
  | @arr a b xs ys h1 h2 h3 _ ih =>
    have down : ∀ r, r ∈ xs → (HasRef h r ∨ HasNil h r) → HasNil h (some b) := by
      intro r hm hr
      obtain ⟨i, hi⟩ := List.getElem?_of_mem hm
      have hl : i < ys.length := by rw [← h3]; exact (List.getElem?_eq_some_iff.1 hi).1
      have hy := List.getElem?_eq_getElem hl
      exact .inside h2 (List.mem_of_getElem? hy) (ih i r _ hi hy hr)
    rcases hr with hr | hr
    · cases hr with
      | here g => rw [h1] at g; cases g
      | inside g hm hr => rw [h1] at g; cases g; exact down _ hm (Or.inl hr)
    · cases hr with
      | inside g hm hr => rw [h1] at g; cases g; exact down _ hm (Or.inr hr)
  | @dict a b id xs ys h1 h2 h3 h4 _ ih =>
    have down : ∀ r, r ∈ xs.map (·.2) → (HasRef h r ∨ HasNil h r) → HasNil h (some b) := by
      intro r hm hr
      rw [List.mem_map] at hm
      obtain ⟨⟨k, x⟩, hm, rfl⟩ := hm
      have hs := hf a id xs h1
      have hx : smGet xs k = some x := by
        rw [← lastValue_sorted hs, lastValue_eq_of_nodup _ (sorted_keys_nodup hs)]; exact hm
      have hy := h4 k
      rw [hx] at hy
      obtain ⟨y, hy⟩ := Option.isSome_iff_exists.1 (by simpa using hy.symm)
      have hym : (k, y) ∈ ys := by
        rw [← lastValue_eq_of_nodup ys (sorted_keys_nodup h3), lastValue_sorted h3]; exact hy
      exact .inside h2 (by simp only [Obj.refs, List.mem_map]; exact ⟨(k, y), hym, rfl⟩) (ih k x y hx hy hr)
    rcases hr with hr | hr
    · cases hr with
      | here g => rw [h1] at g; cases g
      | inside g hm hr => rw [h1] at g; cases g; exact down _ hm (Or.inl hr)
    · cases hr with
      | inside g hm hr => rw [h1] at g; cases g; exact down _ hm (Or.inr hr)

end Jsonutils
