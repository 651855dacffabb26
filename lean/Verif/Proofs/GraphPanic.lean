import Verif.Proofs.GraphMain

/-! Unmarshal panics if a reference comes before its node. -/

namespace Jsonutils
section
variable {P : UEnv} {τ : Int → Ty}

theorem arr_panic {xs : List J} {e : Ty} (hseq : e.isSeq = true)
    (hbody : ∀ l (s : UH), s.get l = some (P.hzero e) → Pre τ (J.eventss xs) s → ¬ Good (J.eventss xs) s →
      harr P xs (fun t l s => J.hunms P xs t l 0 s) e l s = none)
    {t : Ty} (ht : t = e ∨ t = .ptr e) {l : Loc} {s : UH} (hz : s.get l = some (P.hzero t)) (hp : Pre τ (J.eventss xs) s) (hng : ¬ Good (J.eventss xs) s) :
    (J.arr xs).hunm P t l s = none := by
  rcases ht with rfl | rfl
  · rw [hunm_arr P xs hseq]; exact hbody l s hz hp hng
  · rw [hunm_arr_ptr P xs hseq l s hz]
    exact hbody ⟨s.mem.length, []⟩ (allocated P e l s) (allocated_get ..) (hp.of_sess rfl) hng

theorem save_panic {s : UH} {id : Int} (hi : 0 < id) (hp : Pend τ s id) {l : Loc} {e : Ty} (he : τ id = e) : s.saveNode id (l, .ptr e) = none := by
  obtain ⟨ts, hs, hne, hts⟩ := hp
  cases ts with
  | nil => exact absurd rfl hne
  | cons v ts =>
    have hv : v.2 = .ptr e := by rw [hts v (List.mem_cons_self ..), he]
    have ha : assignable (.ptr e) v.2 = false := by
      rw [hv]
      have hne : ∀ t : Ty, Ty.ptr t ≠ t := by
        intro t h
        have := congrArg sizeOf h
        simp at this
      have h1 : (Ty.ptr (.ptr e) == Ty.ptr e) = false := by
        rw [beq_eq_false_iff_ne]
        exact hne _
      simp [assignable, Ty.ptrTo, h1]
    simp only [UH.saveNode, hi, if_true, UH.save, hs, UH.setAll, UH.setPtr, ha, Bool.false_eq_true, if_false]

theorem dict_panic {id : Int} {kvs : List (Bytes × J)} {e : Ty} (hd : e.isStructOrMap = true) (hτ : 0 < id → τ id = e)
    (hbody : ∀ l (s : UH), s.get l = some (P.hzero e) → Pre τ (J.eventsf kvs) s → ¬ Good (J.eventsf kvs) s →
      hdict id kvs (fun t l s => J.hunmm P kvs t l s) (fun n l s => J.hunmf P kvs n l s) e l s = none)
    {t : Ty} (ht : (t = e ∧ id ≤ 0) ∨ t = .ptr e) {l : Loc} {s : UH} (hz : s.get l = some (P.hzero t)) (hp : Pre τ (J.dict id kvs).events s)
    (hng : ¬ Good (J.dict id kvs).events s) : (J.dict id kvs).hunm P t l s = none := by
  rw [J.events] at hp hng
  rcases ht with ⟨rfl, hid⟩ | rfl
  · have hid' : ¬ 0 < id := by omega
    simp only [hid', if_false, List.nil_append] at hp hng
    rw [hunm_dict P id kvs hd l s hid]
    exact hbody l s hz hp hng
  · by_cases hnew : 0 < id → s.sess id = none
    · have hst : Step τ (if 0 < id then [.defn id] else []) s (noted (allocated P e l s) id (⟨s.mem.length, []⟩, e)) :=
        step_noted hnew rfl hτ
      have hg : (noted (allocated P e l s) id (⟨s.mem.length, []⟩, e)).get ⟨s.mem.length, []⟩ = some (P.hzero e) := by
        unfold UH.get; rw [noted_mem]; exact allocated_get P e l s
      rw [hunm_dict_ptr P id kvs hd l s hz hnew]
      refine hbody _ _ hg (hp.right hst) fun hg2 => hng (Good.append ?_ hg2 hp hst)
      intro pre i post e
      by_cases hi : 0 < id
      · simp only [hi, if_true] at e
        cases pre with
        | nil => simp at e; obtain ⟨rfl, _⟩ := e; exact ⟨hnew hi, by simp⟩
        | cons a pre => simp at e
      · simp [hi] at e
    · have hi : 0 < id := Classical.byContradiction fun h => hnew fun h' => absurd h' h
      have hn : s.sess id ≠ none := fun h => hnew fun _ => h
      have hk : ¬ Known τ s id := hp.fresh id (by simp [hi])
      have hpend : Pend τ s id := ((hp.known id).resolve_left hn).resolve_left hk
      rw [J.hunm.eq_def]
      simp only [save_panic hi hpend (hτ hi)]

theorem hsetKey_none {idx : Bytes → List Nat} {tys : List (FInfo × Ty)} {l : Loc} {assign : Ty → Loc → UH → HRes} {f : Nat} {k : Bytes} {s : UH}
    {i : Nat} {info : FInfo} {t : Ty} (hi : idx k = [i]) (ht : tys[i]? = some (info, t))
    (ha : assign t (l.sub i) s = none) : hsetKey idx tys l assign (f + 1) k [] s = none := by
  simp [hsetKey, hi, hsetLoop, ht, ha]

mutual
theorem hunm_panic (hw : P.defs.Wf) : ∀ (j : J) (t : Ty) (l : Loc) (s : UH), j.Fits P τ t → s.get l = some (P.hzero t) → Pre τ j.events s → ¬ Good j.events s →
    j.hunm P t l s = none
  | .arr xs, t, l, s, hf, hz, hp, hng => by
    obtain ⟨e, ht, hf⟩ := hf
    cases e with
    | slice t' =>
      refine arr_panic rfl ?_ ht hz hp hng
      intro l s hz hp hng
      rw [harr_slice_zero xs _ t' hz]
      have hg := get_new1 s (memSet s.mem l (.seq s.mem.length xs.length)) (memSet_length ..) (.arr (List.replicate xs.length (P.hzero t')))
      exact hunms_panic hw xs t' ⟨s.mem.length, []⟩ 0 ⟨memSet s.mem l (.seq s.mem.length xs.length) ++ [.arr (List.replicate xs.length (P.hzero t'))], s.sess⟩ []
        hf hg rfl (hp.of_sess rfl) hng
    | array n t' =>
      obtain ⟨hn, hf⟩ := hf
      refine arr_panic rfl ?_ ht hz hp hng
      intro l s hz hp hng
      rw [hzero_array, hn] at hz
      simp only [harr, hn, ne_eq, not_true_eq_false, if_false]
      exact hunms_panic hw xs t' l 0 s [] hf hz rfl hp hng
    | _ => exact (show False from hf).elim
  | .dict id kvs, t, l, s, hf, hz, hp, hng => by
    obtain ⟨e, ht, hτ, hf⟩ := hf
    cases e with
    | struct n =>
      obtain ⟨fs, hn, hf, hpw⟩ := hf
      refine dict_panic rfl hτ ?_ ht hz hp hng
      intro l s hz hp hng
      rw [hzero_struct hw hn] at hz
      have := hunmf_panic hw hn kvs l s _ hf hpw hz (by simp) (by
        intro i info ti hi _
        simp [hi]) hp hng
      simp only [hdict, this]
    | map t' =>
      obtain ⟨hs, hf⟩ := hf
      refine dict_panic rfl hτ ?_ ht hz hp hng
      intro l s hz hp hng
      have hl := memGet_lt hz
      simp only [hdict]
      rw [makeMap_zero t' hz]
      have hg1 : UH.get ⟨memSet s.mem l (.map s.mem.length) ++ [.mapObj []], s.sess⟩ l = some (.map s.mem.length) := by
        simp only [UH.get]
        rw [memGet_append (by rw [memSet_length]; exact hl)]
        exact memGet_set hz _
      exact hunmm_panic hw kvs t' l ⟨memSet s.mem l (.map s.mem.length) ++ [.mapObj []], s.sess⟩ s.mem.length [] hf hs
        (by intro p hp; cases hp) hg1 (by rw [List.getElem?_append_right (Nat.le_of_eq (memSet_length ..))]; simp [memSet_length]) (hp.of_sess rfl) hng
    | _ => exact (show False from hf).elim
  | .null, _, _, _, _, _, _, hng => absurd (fun pre id post e => by simp [J.events] at e) hng
  | .ptr id, _, _, _, _, _, _, hng => by
    refine absurd ?_ hng
    intro pre id' post e
    simp only [J.events] at e
    cases pre with
    | nil => simp at e
    | cons a pre => simp at e
  | .bool _, _, _, _, _, _, _, hng => absurd (fun pre id post e => by simp [J.events] at e) hng
  | .int _, _, _, _, _, _, _, hng => absurd (fun pre id post e => by simp [J.events] at e) hng
  | .float _ _, _, _, _, _, _, _, hng => absurd (fun pre id post e => by simp [J.events] at e) hng
  | .str _, _, _, _, _, _, _, hng => absurd (fun pre id post e => by simp [J.events] at e) hng
theorem hunms_panic (hw : P.defs.Wf) : ∀ (xs : List J) (t : Ty) (l : Loc) (i : Nat) (s : UH) (done : List HV), J.Fitss P τ xs t →
    s.get l = some (.arr (done ++ List.replicate xs.length (P.hzero t))) → done.length = i → Pre τ (J.eventss xs) s → ¬ Good (J.eventss xs) s →
    J.hunms P xs t l i s = none
  | [], _, _, _, _, _, _, _, _, _, hng => absurd (fun pre id post e => by simp [J.eventss] at e) hng
  | x :: xs, t, l, i, s, done, hf, hg, hi, hp, hng => by
    obtain ⟨hf1, hf2⟩ := hf
    have hl := memGet_lt hg
    rw [J.eventss] at hp hng
    have hc : (HV.arr (done ++ List.replicate (x :: xs).length (P.hzero t))).child i = some (P.hzero t) := by
      simp [HV.child, ← hi, List.replicate_succ]
    have hgi : s.get (l.sub i) = some (P.hzero t) := by
      rw [← hc]; exact memGet_sub hg i
    by_cases hgx : Good x.events s
    · obtain ⟨c, new, f, h1, h2, h3⟩ := hunm_done hw x t (l.sub i) s hf1 hgi hp.left hgx
      have hset : (HV.arr (done ++ List.replicate (x :: xs).length (P.hzero t))).setChild i c = .arr ((done ++ [c]) ++ List.replicate xs.length (P.hzero t)) := by
        simp [HV.setChild, ← hi, List.replicate_succ, List.set_append]
      rw [memSet_sub hg hc, hset] at h1 h2 h3
      have hg1 : UH.get ⟨memSet s.mem l (.arr ((done ++ [c]) ++ List.replicate xs.length (P.hzero t))) ++ new, f⟩ l =
          some (.arr ((done ++ [c]) ++ List.replicate xs.length (P.hzero t))) := by
        simp only [UH.get]
        rw [memGet_append (by rw [memSet_length]; exact hl)]
        exact memGet_set hg _
      rw [J.hunms, h1]
      exact hunms_panic hw xs t l (i + 1) _ (done ++ [c]) hf2 hg1 (by simp [hi]) (hp.right h3) fun hg2 => hng (hgx.append hg2 hp h3)
    · rw [J.hunms, hunm_panic hw x t (l.sub i) s hf1 hgi hp.left hgx]
theorem hunmm_panic (hw : P.defs.Wf) : ∀ (kvs : List (Bytes × J)) (t : Ty) (l : Loc) (s : UH) (b : Nat) (m : List (Bytes × HV)), J.Fitsm P τ kvs t →
    SMap.Sorted kvs → (∀ p ∈ m, ∀ q ∈ kvs, blt p.1 q.1 = true) → s.get l = some (.map b) → s.mem[b]? = some (.mapObj m) → Pre τ (J.eventsf kvs) s →
    ¬ Good (J.eventsf kvs) s → J.hunmm P kvs t l s = none
  | [], _, _, _, _, _, _, _, _, _, _, _, hng => absurd (fun pre id post e => by simp [J.eventsf] at e) hng
  | (k, x) :: kvs, t, l, s, b, m, hf, hs, hm, hl, hb, hp, hng => by
    obtain ⟨hf1, hf2⟩ := hf
    have hll := memGet_lt hl
    have hbl := lt_of_get hb
    have hne := map_apart hl hb
    rw [J.eventsf] at hp hng
    have hg : UH.get ⟨s.mem ++ [P.hzero t], s.sess⟩ ⟨s.mem.length, []⟩ = some (P.hzero t) := memGet_new s.mem (P.hzero t) [] []
    by_cases hgx : Good x.events s
    · obtain ⟨c, new, f, h1, h2, h3⟩ := hunm_done hw x t ⟨s.mem.length, []⟩ ⟨s.mem ++ [P.hzero t], s.sess⟩ hf1 hg (hp.left.of_sess rfl) hgx
      have e1 : memSet (s.mem ++ [P.hzero t]) ⟨s.mem.length, []⟩ c ++ new = s.mem ++ (c :: new) := by
        rw [memSet_new s.mem (P.hzero t) [] [] c]; simp [HV.put]
      simp only at h1 h2 h3
      rw [e1] at h1 h2 h3
      have h3 := h3.of_sess_left (s := s) rfl
      have hsm : smAdd m k c = m ++ [(k, c)] := smAdd_last m k c fun p hp => hm p hp (k, x) (List.mem_cons_self ..)
      have e2 := setMapIndex_step (f := f) (new := new) hl hb hsm
      have hs3 : Step τ x.events s ⟨s.mem.set b (.mapObj (m ++ [(k, c)])) ++ (c :: new), f⟩ := ⟨h3.keep, h3.got, h3.same, h3.pend⟩
      have hl3 : UH.get ⟨s.mem.set b (.mapObj (m ++ [(k, c)])) ++ (c :: new), f⟩ l = some (.map b) := by
        simp only [UH.get]
        rw [memGet_append (by rw [List.length_set]; exact hll), ← hl]
        exact memGet_congr (List.getElem?_set_ne fun h => hne h.symm)
      have hb3 : (s.mem.set b (.mapObj (m ++ [(k, c)])) ++ (c :: new))[b]? = some (.mapObj (m ++ [(k, c)])) := by
        rw [List.getElem?_append_left (by rw [List.length_set]; exact hbl), List.getElem?_set_self hbl]
      have hs' := sorted_cons.1 hs
      rw [J.hunmm]
      simp only [UH.new, h1, e2]
      refine hunmm_panic hw kvs t l ⟨s.mem.set b (.mapObj (m ++ [(k, c)])) ++ (c :: new), f⟩ b (m ++ [(k, c)]) hf2 hs'.2 ?_ hl3 hb3 (hp.right hs3)
        fun hg2 => hng (hgx.append hg2 hp hs3)
      intro p hp q hq
      rcases List.mem_append.1 hp with hp | hp
      · exact hm p hp q (List.mem_cons_of_mem _ hq)
      · rw [List.mem_singleton.1 hp]; exact hs'.1 q hq
    · rw [J.hunmm]
      simp only [UH.new]
      rw [hunm_panic hw x t ⟨s.mem.length, []⟩ ⟨s.mem ++ [P.hzero t], s.sess⟩ hf1 hg (hp.left.of_sess rfl) hgx]
theorem hunmf_panic (hw : P.defs.Wf) {n : Nat} {fs : List (FInfo × Ty)} (hn : P.defs[n]? = some fs) : ∀ (kvs : List (Bytes × J)) (l : Loc) (s : UH) (vs : List HV),
    J.Fitsf P τ kvs n fs → kvs.Pairwise (fun p q => P.idx n p.1 ≠ P.idx n q.1) → s.get l = some (.struct vs) → vs.length = fs.length →
    (∀ i info ti, fs[i]? = some (info, ti) → (∃ p ∈ kvs, P.idx n p.1 = [i]) → vs[i]? = some (P.hzero ti)) → Pre τ (J.eventsf kvs) s → ¬ Good (J.eventsf kvs) s →
    J.hunmf P kvs n l s = none
  | [], _, _, _, _, _, _, _, _, _, hng => absurd (fun pre id post e => by simp [J.eventsf] at e) hng
  | (k, x) :: kvs, l, s, vs, hf, hpw, hg, hlen, hz, hp, hng => by
    obtain ⟨⟨i, info, t, hi, ht, hd, hf1⟩, hf2⟩ := hf
    have hl := memGet_lt hg
    rw [J.eventsf] at hp hng
    have hvi := hz i info t ht ⟨(k, x), List.mem_cons_self .., hi⟩
    have hgi : s.get (l.sub i) = some (P.hzero t) := by
      have := memGet_sub hg i
      rw [UH.get, this]; exact hvi
    have hgf : P.defs.getD n [] = fs := by simp [List.getD, hn]
    by_cases hgx : Good x.events s
    · obtain ⟨c, new, f, h1, h2, h3⟩ := hunm_done hw x t (l.sub i) s hf1 hgi hp.left hgx
      have hset : (HV.struct vs).setChild i c = .struct (vs.set i c) := rfl
      rw [memSet_sub hg (i := i) hvi, hset] at h1 h2 h3
      have hg1 : UH.get ⟨memSet s.mem l (.struct (vs.set i c)) ++ new, f⟩ l = some (.struct (vs.set i c)) := by
        simp only [UH.get]
        rw [memGet_append (by rw [memSet_length]; exact hl)]
        exact memGet_set hg _
      have hpw' := List.pairwise_cons.1 hpw
      have hothers : ∀ p ∈ kvs, P.idx n p.1 ≠ [i] := fun p hp => by rw [← hi]; exact (hpw'.1 p hp).symm
      rw [J.hunmf, hgf, hsetKey_one hi ht hd h1]
      simp only
      rw [hunmf_panic hw hn kvs l _ (vs.set i c) hf2 hpw'.2 hg1 (by simp [hlen]) (by
        intro i' info' t' ht' hex
        have : i ≠ i' := by
          rintro rfl
          obtain ⟨p, hp, hpi⟩ := hex
          exact hothers p hp hpi
        rw [List.getElem?_set_ne this]
        obtain ⟨p, hp, hpi⟩ := hex
        exact hz i' info' t' ht' ⟨p, List.mem_cons_of_mem _ hp, hpi⟩) (hp.right h3) fun hg2 => hng (hgx.append hg2 hp h3)]
    · rw [J.hunmf, hgf, hsetKey_none hi ht (hunm_panic hw x t (l.sub i) s hf1 hgi hp.left hgx)]
end
end

end Jsonutils
