import Verif.Proofs.Streams
import Verif.Proofs.FloatCanon

/-! Every parsed document is well formed. -/

set_option linter.unusedSimpArgs false

namespace Jsonutils

theorem parseInt_range {s : Bytes} {n : Int} (h : parseInt s = some n) : InI64 n := by
  unfold parseInt at h
  simp only at h
  split at h
  · simp at h
  all_goals
    split at h
    · simp at h
    · split at h
      · simp at h
      · split at h
        · simp at h; exact h.2 ▸ h.1
        · simp at h; exact h.2 ▸ h.1

/-- The reader's guarantee about a value it returned, relative to the node ids seen before and after. -/
structure Parsed (before after : List Int) (v : J) : Prop where
  wf : v.WF
  ref : v.Refable
  wide : v.FloatsSat (fun _ bit => bit = 0)
  nodup : v.nodeIds.Nodup
  mem : ∀ i ∈ v.nodeIds, i ∈ after ∧ i ∉ before

theorem scalarOf_parsed (t : Bytes) (b : List Int) : Parsed b b (scalarOf t) := by
  unfold scalarOf
  simp only
  split
  · exact ⟨trivial, trivial, trivial, List.nodup_nil, by simp [J.nodeIds]⟩
  split
  · exact ⟨trivial, trivial, trivial, List.nodup_nil, by simp [J.nodeIds]⟩
  split
  · exact ⟨trivial, trivial, trivial, List.nodup_nil, by simp [J.nodeIds]⟩
  split
  · rename_i h
    exact ⟨parseInt_range h, trivial, trivial, List.nodup_nil, by simp [J.nodeIds]⟩
  split
  · rename_i h
    exact ⟨parseFloat_canon h, trivial, rfl, List.nodup_nil, by simp [J.nodeIds]⟩
  · exact ⟨trivial, trivial, trivial, List.nodup_nil, by simp [J.nodeIds]⟩

theorem parseJSONValue_parsed {s s' : Sess} {rest r : Bytes} {v : J}
    (h : parseJSONValue s rest = .ok (v, s') r) : Parsed s.saved s'.saved v ∧ s'.saved = s.saved := by
  unfold parseJSONValue at h
  split at h
  · simp at h
  · simp at h
  · simp at h
  · simp at h
    obtain ⟨⟨rfl, rfl⟩, rfl⟩ := h
    exact ⟨⟨trivial, trivial, trivial, List.nodup_nil, by simp [J.nodeIds]⟩, rfl⟩
  · split at h
    · simp at h
    · split at h
      · split at h
        · simp at h
        · rename_i id hid
          simp at h
          obtain ⟨⟨rfl, rfl⟩, rfl⟩ := h
          refine ⟨⟨trivial, parseInt_range hid, trivial, List.nodup_nil, by simp [J.nodeIds]⟩, rfl⟩
      · simp at h
        obtain ⟨⟨rfl, rfl⟩, rfl⟩ := h
        exact ⟨scalarOf_parsed _ _, rfl⟩

/-! ### Dictionaries under construction -/

theorem WFf_iff (kvs : List (Bytes × J)) : J.WFf kvs ↔ ∀ p ∈ kvs, p.2.WF := by
  induction kvs with
  | nil => simp [J.WFf]
  | cons p kvs ih => obtain ⟨k, x⟩ := p; simp [J.WFf, ih]

theorem WFs_iff (xs : List J) : J.WFs xs ↔ ∀ x ∈ xs, x.WF := by
  induction xs with
  | nil => simp [J.WFs]
  | cons p kvs ih => simp [J.WFs, ih]

theorem Refablef_iff (kvs : List (Bytes × J)) :
    J.Refablef kvs ↔ ∀ p ∈ kvs, p.1 ≠ jsonPointerKey ∧ p.2.Refable := by
  induction kvs with
  | nil => simp [J.Refablef]
  | cons p kvs ih => obtain ⟨k, x⟩ := p; simp [J.Refablef, ih, and_assoc]

theorem Refables_iff (xs : List J) : J.Refables xs ↔ ∀ x ∈ xs, x.Refable := by
  induction xs with
  | nil => simp [J.Refables]
  | cons p kvs ih => simp [J.Refables, ih]

theorem FloatsSatf_iff (P) (kvs : List (Bytes × J)) : J.FloatsSatf P kvs ↔ ∀ p ∈ kvs, p.2.FloatsSat P := by
  induction kvs with
  | nil => simp [J.FloatsSatf]
  | cons p kvs ih => obtain ⟨k, x⟩ := p; simp [J.FloatsSatf, ih]

theorem FloatsSats_iff (P) (xs : List J) : J.FloatsSats P xs ↔ ∀ x ∈ xs, x.FloatsSat P := by
  induction xs with
  | nil => simp [J.FloatsSats]
  | cons p kvs ih => simp [J.FloatsSats, ih]

theorem nodeIdsf_append (a b : List (Bytes × J)) : J.nodeIdsf (a ++ b) = J.nodeIdsf a ++ J.nodeIdsf b := by
  induction a with
  | nil => simp [J.nodeIdsf]
  | cons p kvs ih => obtain ⟨k, x⟩ := p; simp [J.nodeIdsf, ih]

theorem nodeIdss_append (a b : List J) : J.nodeIdss (a ++ b) = J.nodeIdss a ++ J.nodeIdss b := by
  induction a with
  | nil => simp [J.nodeIdss]
  | cons p kvs ih => simp [J.nodeIdss, ih]

theorem nodeIdsf_mem_smAdd {m : SMap J} {k : Bytes} {v : J} {i : Int} (h : i ∈ J.nodeIdsf (smAdd m k v)) :
    i ∈ J.nodeIdsf m ∨ i ∈ v.nodeIds := by
  induction m with
  | nil => simp [smAdd, J.nodeIdsf] at h; exact Or.inr h
  | cons p m ih =>
    obtain ⟨k', v'⟩ := p
    simp only [smAdd] at h
    split at h
    · simp only [J.nodeIdsf, List.mem_append] at h ⊢
      rcases h with h | h
      · exact Or.inl (Or.inl h)
      · rcases ih h with h | h
        · exact Or.inl (Or.inr h)
        · exact Or.inr h
    · split at h
      · simp only [J.nodeIdsf, List.mem_append] at h ⊢
        rcases h with h | h
        · exact Or.inr h
        · exact Or.inl (Or.inr h)
      · simp only [J.nodeIdsf, List.mem_append] at h ⊢
        rcases h with h | h
        · exact Or.inr h
        · exact Or.inl h

theorem nodeIdsf_nodup_smAdd {m : SMap J} {k : Bytes} {v : J} (hm : (J.nodeIdsf m).Nodup) (hv : v.nodeIds.Nodup)
    (hd : ∀ i ∈ v.nodeIds, i ∉ J.nodeIdsf m) : (J.nodeIdsf (smAdd m k v)).Nodup := by
  induction m with
  | nil => simpa [smAdd, J.nodeIdsf] using hv
  | cons p m ih =>
    obtain ⟨k', v'⟩ := p
    simp only [J.nodeIdsf] at hm hd
    rw [List.nodup_append] at hm
    simp only [smAdd]
    split
    · simp only [J.nodeIdsf]
      rw [List.nodup_append]
      refine ⟨hm.1, ih hm.2.1 (fun i hi h => hd i hi (by simp [h])), ?_⟩
      intro a ha b hb hab
      subst hab
      rcases nodeIdsf_mem_smAdd hb with h | h
      · exact hm.2.2 a ha a h rfl
      · exact hd a h (by simp [ha])
    · split
      · simp only [J.nodeIdsf]
        rw [List.nodup_append]
        refine ⟨hv, hm.2.1, ?_⟩
        intro a ha b hb hab
        subst hab
        exact hd a ha (by simp [hb])
      · simp only [J.nodeIdsf]
        rw [List.nodup_append, List.nodup_append]
        refine ⟨hv, hm, ?_⟩
        intro a ha b hb hab
        subst hab
        exact hd a ha hb

/-- Invariant of the entry list while a dictionary is read; `b` are the ids saved before the dictionary. -/
structure DictInv (b now : List Int) (acc : SMap J) : Prop where
  sorted : SMap.Sorted acc
  wf : ∀ p ∈ acc, p.2.WF
  ref : ∀ p ∈ acc, p.1 ≠ jsonPointerKey ∧ p.2.Refable
  wide : ∀ p ∈ acc, p.2.FloatsSat (fun _ bit => bit = 0)
  nodup : (J.nodeIdsf acc).Nodup
  mem : ∀ i ∈ J.nodeIdsf acc, i ∈ now ∧ i ∉ b
  sub : ∀ i ∈ b, i ∈ now

structure ArrInv (b now : List Int) (acc : List J) : Prop where
  wf : ∀ p ∈ acc, p.WF
  ref : ∀ p ∈ acc, p.Refable
  wide : ∀ p ∈ acc, p.FloatsSat (fun _ bit => bit = 0)
  nodup : (J.nodeIdss acc).Nodup
  mem : ∀ i ∈ J.nodeIdss acc, i ∈ now ∧ i ∉ b
  sub : ∀ i ∈ b, i ∈ now

theorem DictInv.add {b now now' : List Int} {acc : SMap J} {k : Bytes} {v : J} (h : DictInv b now acc)
    (hv : Parsed now now' v) (hsub : ∀ i ∈ now, i ∈ now') (hk : k ≠ jsonPointerKey) :
    DictInv b now' (smAdd acc k v) where
  sorted := sorted_smAdd h.sorted k v
  wf p hp := by
    rcases mem_smAdd hp with rfl | hp
    · exact hv.wf
    · exact h.wf p hp
  ref p hp := by
    rcases mem_smAdd hp with rfl | hp
    · exact ⟨hk, hv.ref⟩
    · exact h.ref p hp
  wide p hp := by
    rcases mem_smAdd hp with rfl | hp
    · exact hv.wide
    · exact h.wide p hp
  nodup := nodeIdsf_nodup_smAdd h.nodup hv.nodup (fun i hi hm => (hv.mem i hi).2 (h.mem i hm).1)
  mem i hi := by
    rcases nodeIdsf_mem_smAdd hi with hi | hi
    · exact ⟨hsub i (h.mem i hi).1, (h.mem i hi).2⟩
    · exact ⟨(hv.mem i hi).1, fun hb => (hv.mem i hi).2 (h.sub i hb)⟩
  sub i hi := hsub i (h.sub i hi)

theorem DictInv.skip {b now now' : List Int} {acc : SMap J} (h : DictInv b now acc)
    (hsub : ∀ i ∈ now, i ∈ now') : DictInv b now' acc where
  sorted := h.sorted
  wf := h.wf
  ref := h.ref
  wide := h.wide
  nodup := h.nodup
  mem i hi := ⟨hsub i (h.mem i hi).1, (h.mem i hi).2⟩
  sub i hi := hsub i (h.sub i hi)

theorem ArrInv.add {b now now' : List Int} {acc : List J} {v : J} (h : ArrInv b now acc)
    (hv : Parsed now now' v) (hsub : ∀ i ∈ now, i ∈ now') : ArrInv b now' (acc ++ [v]) where
  wf p hp := by
    rcases List.mem_append.1 hp with hp | hp
    · exact h.wf p hp
    · simp at hp; subst hp; exact hv.wf
  ref p hp := by
    rcases List.mem_append.1 hp with hp | hp
    · exact h.ref p hp
    · simp at hp; subst hp; exact hv.ref
  wide p hp := by
    rcases List.mem_append.1 hp with hp | hp
    · exact h.wide p hp
    · simp at hp; subst hp; exact hv.wide
  nodup := by
    rw [nodeIdss_append, List.nodup_append]
    refine ⟨h.nodup, by simpa [J.nodeIdss] using hv.nodup, ?_⟩
    intro a ha b hb hab
    subst hab
    simp [J.nodeIdss] at hb
    exact (hv.mem a hb).2 (h.mem a ha).1
  mem i hi := by
    rw [nodeIdss_append] at hi
    rcases List.mem_append.1 hi with hi | hi
    · exact ⟨hsub i (h.mem i hi).1, (h.mem i hi).2⟩
    · simp [J.nodeIdss] at hi
      exact ⟨(hv.mem i hi).1, fun hb => (hv.mem i hi).2 (h.sub i hb)⟩
  sub i hi := hsub i (h.sub i hi)

theorem parse_parsed (f : Nat) :
    (∀ s rest v s' r, parseVal f s rest = .ok (v, s') r →
      Parsed s.saved s'.saved v ∧ ∀ i ∈ s.saved, i ∈ s'.saved) ∧
    (∀ b s rest acc id kvs id' s' r, DictInv b s.saved acc → InI64 id →
      parseDict f s rest acc id = .ok (kvs, id', s') r →
      DictInv b s'.saved kvs ∧ InI64 id') ∧
    (∀ b s rest acc xs s' r, ArrInv b s.saved acc → parseArr f s rest acc = .ok (xs, s') r →
      ArrInv b s'.saved xs) := by
  induction f with
  | zero => refine ⟨?_, ?_, ?_⟩ <;> intros <;> simp_all [parseVal, parseDict, parseArr]
  | succ f ih =>
    obtain ⟨ihv, ihd, iha⟩ := ih
    refine ⟨?_, ?_, ?_⟩
    · intro s rest v s' r h
      rw [parseVal.eq_def] at h
      simp only at h
      split at h
      · rename_i t
        cases hp : parseArr f s t [] with
        | ok a r' =>
          obtain ⟨xs, s1⟩ := a
          rw [hp] at h
          simp at h
          obtain ⟨⟨rfl, rfl⟩, rfl⟩ := h
          have := iha s.saved s t [] xs s1 r' ⟨by simp, by simp, by simp, by simp [J.nodeIdss], by simp [J.nodeIdss],
            by simp⟩ hp
          refine ⟨⟨?_, ?_, ?_, ?_, ?_⟩, this.sub⟩
          · rw [J.WF, WFs_iff]; exact this.wf
          · rw [J.Refable, Refables_iff]; exact this.ref
          · rw [J.FloatsSat, FloatsSats_iff]; exact this.wide
          · rw [J.nodeIds]; exact this.nodup
          · rw [J.nodeIds]; exact this.mem
        | err e r' => rw [hp] at h; simp at h
        | panic p => rw [hp] at h; simp at h
        | fuel => rw [hp] at h; simp at h
      · rename_i t
        cases hp : parseDict f s t [] 0 with
        | ok a r' =>
          obtain ⟨kvs, id, s1⟩ := a
          rw [hp] at h
          simp only at h
          have := ihd s.saved s t [] 0 kvs id s1 r' ⟨sorted_nil, by simp, by simp, by simp, by simp [J.nodeIdsf],
            by simp [J.nodeIdsf], by simp⟩ (by decide) hp
          obtain ⟨hd, hid⟩ := this
          have hwf : (J.dict id kvs).WF := by rw [J.WF, WFf_iff]; exact ⟨hd.sorted, hd.wf⟩
          have href : (J.dict id kvs).Refable := by rw [J.Refable, Refablef_iff]; exact ⟨hid, hd.ref⟩
          have hwide : (J.dict id kvs).FloatsSat (fun _ bit => bit = 0) := by
            rw [J.FloatsSat, FloatsSatf_iff]; exact hd.wide
          split at h
          · rename_i hpos
            unfold Sess.saveNode at h
            split at h
            · simp at h
            · rename_i s'' hs
              split at hs
              · simp at hs
              · rename_i hnc
                simp at hs h
                obtain ⟨⟨rfl, rfl⟩, rfl⟩ := h
                subst hs
                have hnc' : id ∉ s1.saved := by simpa [List.contains_iff_mem] using hnc
                refine ⟨⟨hwf, href, hwide, ?_, ?_⟩, ?_⟩
                · rw [J.nodeIds, if_pos hpos, List.nodup_append]
                  refine ⟨hd.nodup, by simp, ?_⟩
                  intro a ha b hb hab
                  simp at hb
                  subst hab; subst hb
                  exact hnc' (hd.mem a ha).1
                · intro i hi
                  rw [J.nodeIds, if_pos hpos] at hi
                  rcases List.mem_append.1 hi with hi | hi
                  · exact ⟨by simp [(hd.mem i hi).1], (hd.mem i hi).2⟩
                  · simp at hi; subst hi
                    exact ⟨by simp, fun hb => hnc' (hd.sub i hb)⟩
                · intro i hi; simp [hd.sub i hi]
          · rename_i hpos
            simp at h
            obtain ⟨⟨rfl, rfl⟩, rfl⟩ := h
            refine ⟨⟨hwf, href, hwide, ?_, ?_⟩, hd.sub⟩
            · rw [J.nodeIds, if_neg hpos, List.append_nil]; exact hd.nodup
            · rw [J.nodeIds, if_neg hpos, List.append_nil]; exact hd.mem
        | err e r' => rw [hp] at h; simp at h
        | panic p => rw [hp] at h; simp at h
        | fuel => rw [hp] at h; simp at h
      · have := parseJSONValue_parsed h
        exact ⟨this.1, by rw [this.2]; simp⟩
    · intro b s rest acc id kvs id' s' r hinv hid h
      rw [parseDict.eq_def] at h
      simp only at h
      split at h
      · simp at h; obtain ⟨⟨rfl, rfl, rfl⟩, rfl⟩ := h; exact ⟨hinv, hid⟩
      · split at h
        · simp at h
        · simp at h; obtain ⟨⟨rfl, rfl, rfl⟩, rfl⟩ := h; exact ⟨hinv, hid⟩
        · split at h
          · simp at h
          · simp at h
          · simp at h
          · rename_i key q r1 hk
            split at h
            · simp at h
            · split at h
              · split at h
                · simp at h
                · rename_i c3 r3 _
                  split at h
                  · simp at h
                  · simp at h
                  · simp at h
                  · rename_i v s1 r4 hv
                    have hpv := ihv _ _ _ _ _ hv
                    split at h
                    · simp at h
                    · rename_i acc' id1 he
                      have hnew : DictInv b s1.saved acc' ∧ InI64 id1 := by
                        split at he
                        · split at he
                          · simp at he
                            obtain ⟨rfl, rfl⟩ := he
                            exact ⟨hinv.skip hpv.2, hpv.1.wf⟩
                          · simp at he
                        · rename_i hkey
                          simp at he
                          obtain ⟨rfl, rfl⟩ := he
                          exact ⟨hinv.add hpv.1 hpv.2 hkey, hid⟩
                      split at h
                      · simp at h
                      · split at h
                        · exact ihd b s1 _ _ _ _ _ _ _ hnew.1 hnew.2 h
                        · split at h
                          · simp at h; obtain ⟨⟨rfl, rfl, rfl⟩, rfl⟩ := h; exact hnew
                          · simp at h
              · simp at h
    · intro b s rest acc xs s' r hinv h
      rw [parseArr.eq_def] at h
      simp only at h
      split at h
      · simp at h; obtain ⟨⟨rfl, rfl⟩, rfl⟩ := h; exact hinv
      · split at h
        · simp at h
        · simp at h; obtain ⟨⟨rfl, rfl⟩, rfl⟩ := h; exact hinv
        · split at h
          · simp at h
          · simp at h
          · simp at h
          · rename_i v s1 r4 hv
            have hpv := ihv _ _ _ _ _ hv
            have hnew := hinv.add hpv.1 hpv.2
            split at h
            · simp at h
            · split at h
              · exact iha b s1 _ _ _ _ _ hnew h
              · split at h
                · simp at h; obtain ⟨⟨rfl, rfl⟩, rfl⟩ := h; exact hnew
                · simp at h

theorem parseStream_parsed {str : Bytes} {offset off : Nat} {v : J} (h : parseStream str offset = .ok v off) :
    Parsed [] (v.nodeIds) v := by
  unfold parseStream at h
  cases hs : skipEmpty (str.drop offset) with
  | nil => rw [hs] at h; simp at h
  | cons c t =>
    rw [hs] at h
    simp only at h
    split at h
    · rename_i v' s' r hp
      simp at h
      obtain ⟨rfl, _⟩ := h
      have := (parse_parsed _).1 _ _ _ _ _ hp
      exact ⟨this.1.wf, this.1.ref, this.1.wide, this.1.nodup, fun i hi => ⟨hi, by simp⟩⟩
    · simp at h
    · simp at h
    · simp at h

theorem parse_ok_stream {str : Bytes} {v : J} (h : parse str = .ok v) : ∃ off, parseStream str 0 = .ok v off := by
  unfold parse at h
  split at h
  · rename_i v' off hp
    simp at h; subst h; exact ⟨off, hp⟩
  all_goals simp at h

end Jsonutils
