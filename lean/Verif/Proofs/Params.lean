import Verif.Proofs.Query
import Verif.Proofs.LenientLex
import Verif.Spec.Params

namespace Jsonutils
open Rfc Lenient

theorem unescape_iff : ∀ (n : Nat) (s t : Bytes), s.length ≤ n → (queryUnescape s = some t ↔ Unescapes s t)
  | 0, s, t, hn => by
    have : s = [] := List.length_eq_zero_iff.1 (by omega)
    subst this
    simp only [queryUnescape, Option.some.injEq]
    exact ⟨fun h => h ▸ .nil, fun h => by cases h; rfl⟩
  | n + 1, [], t, _ => by
    simp only [queryUnescape, Option.some.injEq]
    exact ⟨fun h => h ▸ .nil, fun h => by cases h; rfl⟩
  | n + 1, c :: s, t, hn => by
    simp only [List.length_cons] at hn
    by_cases hc : c = 37
    · subst hc
      match s with
      | [] => simp [queryUnescape]; intro h; cases h; contradiction
      | [a] => simp [queryUnescape]; intro h; cases h; contradiction
      | a :: b :: r =>
        simp only [queryUnescape]
        constructor
        · intro h
          split at h
          · rename_i x y hx hy
            rw [Option.map_eq_some_iff] at h
            obtain ⟨t', ht', rfl⟩ := h
            obtain ⟨a', rfl⟩ := hexchar_inv a hx
            obtain ⟨b', rfl⟩ := hexchar_inv b hy
            rw [hexchar2num_byte] at hx hy
            cases hx; cases hy
            have := Unescapes.hex a' b' ((unescape_iff n r t' (by simp only [List.length_cons] at hn; omega)).1 ht')
            have key : ∀ x y : Fin 16, UInt8.ofNat x.val * 16 + UInt8.ofNat y.val = UInt8.ofNat (x.val * 16 + y.val) := by decide
            rw [key a'.val b'.val]
            exact this
          · cases h
        · intro h
          cases h with
          | plain h1 _ _ => exact absurd rfl h1
          | hex a' b' h' =>
            have key : ∀ x y : Fin 16, UInt8.ofNat x.val * 16 + UInt8.ofNat y.val = UInt8.ofNat (x.val * 16 + y.val) := by decide
            rw [hexchar2num_byte, hexchar2num_byte]
            simp only [(unescape_iff n r _ (by simp only [List.length_cons] at hn; omega)).2 h', Option.map_some, key]
    · rw [queryUnescape_cons c s hc, Option.map_eq_some_iff]
      constructor
      · rintro ⟨t', ht', rfl⟩
        have := (unescape_iff n s t' (by omega)).1 ht'
        split
        · rename_i h; subst h; exact .plus this
        · rename_i h; exact .plain hc h this
      · intro h
        cases h with
        | plain h1 h2 h => exact ⟨_, (unescape_iff n s _ (by omega)).2 h, by rw [if_neg h2]⟩
        | plus h => exact ⟨_, (unescape_iff n s _ (by omega)).2 h, by rw [if_pos rfl]⟩
        | hex => exact absurd rfl hc

theorem queryUnescape_iff (s t : Bytes) : queryUnescape s = some t ↔ Unescapes s t := unescape_iff _ s t (Nat.le_refl _)

theorem cutEq_cases (p : Bytes) : (∃ a b, p = a ++ 61 :: b ∧ (61 : UInt8) ∉ a ∧ cutEq p = (a, b)) ∨ ((61 : UInt8) ∉ p ∧ cutEq p = (p, [])) := by
  by_cases h : (61 : UInt8) ∈ p
  · left
    obtain ⟨a, b, rfl, ha⟩ := List.eq_append_cons_of_mem h
    exact ⟨a, b, rfl, ha, cutEq_append a b ha⟩
  · exact Or.inr ⟨h, cutEq_noEq p h⟩

theorem param_iff (p k v : Bytes) : Param p k v ↔ p ≠ [] ∧ p.contains 59 = false ∧ queryUnescape (cutEq p).1 = some k ∧ queryUnescape (cutEq p).2 = some v := by
  unfold Param
  have hc : (59 : UInt8) ∉ p ↔ p.contains 59 = false := by simp
  rw [hc]
  refine and_congr_right fun _ => and_congr_right fun _ => ?_
  constructor
  · rintro (⟨a, b, rfl, ha, h1, h2⟩ | ⟨h, h1, rfl⟩)
    · rw [cutEq_append a b ha]
      exact ⟨(queryUnescape_iff _ _).2 h1, (queryUnescape_iff _ _).2 h2⟩
    · rw [cutEq_noEq p h]
      exact ⟨(queryUnescape_iff _ _).2 h1, rfl⟩
  · rintro ⟨h1, h2⟩
    rcases cutEq_cases p with ⟨a, b, rfl, ha, hc⟩ | ⟨h, hc⟩
    · rw [hc] at h1 h2
      exact Or.inl ⟨a, b, rfl, ha, (queryUnescape_iff _ _).1 h1, (queryUnescape_iff _ _).1 h2⟩
    · rw [hc] at h1 h2
      simp only [queryUnescape, Option.some.injEq] at h2
      exact Or.inr ⟨h, (queryUnescape_iff _ _).1 h1, h2.symm⟩

def appendAll (m : Values) (kvs : List (Bytes × Bytes)) : Values := kvs.foldl (fun m e => valuesAppend m e.1 e.2) m

theorem parseQueryLoop_bad : ∀ (ps : List Bytes) (m : Values), (parseQueryLoop ps m true).2 = true
  | [], m => rfl
  | p :: ps, m => by
    simp only [parseQueryLoop]
    repeat' split
    all_goals exact parseQueryLoop_bad _ _

theorem parseQueryLoop_params {ps : List Bytes} {kvs : List (Bytes × Bytes)} (h : Params ps kvs) (m : Values) :
    parseQueryLoop ps m false = (appendAll m kvs, false) := by
  induction h generalizing m with
  | nil => rfl
  | empty h ih => simp only [parseQueryLoop]; rw [if_neg (by simp), if_pos trivial, ih]
  | cons hp h ih =>
    obtain ⟨h1, h2, h3, h4⟩ := (param_iff _ _ _).1 hp
    simp only [parseQueryLoop]
    rw [h2, if_neg (by simp), if_neg h1, h3]
    simp only
    rw [h4]
    simp only
    exact ih _

theorem params_of_loop : ∀ (ps : List Bytes) (m : Values), (parseQueryLoop ps m false).2 = false → ∃ kvs, Params ps kvs
  | [], m, _ => ⟨[], .nil⟩
  | p :: ps, m, h => by
    simp only [parseQueryLoop] at h
    split at h
    · rw [parseQueryLoop_bad] at h; cases h
    · rename_i h1
      split at h
      · rename_i h2
        subst h2
        obtain ⟨kvs, hk⟩ := params_of_loop ps _ h
        exact ⟨kvs, .empty hk⟩
      · rename_i h2
        split at h
        · rw [parseQueryLoop_bad] at h; cases h
        · rename_i k hk
          split at h
          · rw [parseQueryLoop_bad] at h; cases h
          · rename_i v hv
            obtain ⟨kvs, hp⟩ := params_of_loop ps _ h
            exact ⟨(k, v) :: kvs, .cons ((param_iff _ _ _).2 ⟨h2, by simpa using h1, hk, hv⟩) hp⟩

theorem split_unique {str : Bytes} {ps : List Bytes} (h1 : ps ≠ []) (h2 : ∀ p ∈ ps, (38 : UInt8) ∉ p) (h3 : List.intercalate [38] ps = str) : splitOn 38 str = ps := by
  rw [← h3, ← joinWith_eq, splitOn_join 38 ps h1 h2]

theorem parseQuery_params {str : Bytes} {kvs : List (Bytes × Bytes)} (h : IsQuery str kvs) : parseQuery str = some (appendAll [] kvs) := by
  obtain ⟨ps, h1, h2, h3, h4⟩ := h
  simp only [parseQuery, split_unique h1 h2 h3, parseQueryLoop_params h4]
  simp

theorem parseQuery_none (str : Bytes) : parseQuery str = none ↔ ¬ ∃ kvs, IsQuery str kvs := by
  constructor
  · rintro h ⟨kvs, hk⟩
    rw [parseQuery_params hk] at h; cases h
  · intro h
    cases hp : parseQuery str with
    | none => rfl
    | some m =>
      exfalso
      apply h
      simp only [parseQuery] at hp
      split at hp
      · cases hp
      · rename_i hb
        obtain ⟨kvs, hk⟩ := params_of_loop _ _ (by simpa using hb)
        exact ⟨kvs, _, splitOn_ne_nil 38 str, splitOn_pieces 38 str, by rw [← joinWith_eq, join_splitOn], hk⟩

/-! ### the collected values -/

theorem valuesGet_append (m : Values) (k v q : Bytes) : valuesGet (valuesAppend m k v) q = valuesGet m q ++ (if k = q then [v] else []) := by
  induction m with
  | nil => simp only [valuesAppend, valuesGet]; split <;> simp
  | cons e m ih =>
    obtain ⟨k', vs⟩ := e
    simp only [valuesAppend]
    split
    · rename_i h
      subst h
      simp only [valuesGet]
      split <;> simp
    · rename_i h
      simp only [valuesGet, ih]
      split
      · rename_i h'
        subst h'
        rw [if_neg fun h' => h h'.symm]
        simp
      · rfl

theorem valuesGet_all (kvs : List (Bytes × Bytes)) : ∀ (m : Values) (q : Bytes), valuesGet (appendAll m kvs) q = valuesGet m q ++ valuesOf kvs q := by
  induction kvs with
  | nil => intro m q; simp [appendAll, valuesOf]
  | cons e kvs ih =>
    intro m q
    show valuesGet (appendAll (valuesAppend m e.1 e.2) kvs) q = _
    rw [ih, valuesGet_append]
    simp only [valuesOf, List.filter_cons]
    by_cases h : e.1 = q <;> simp [h]

theorem keys_append (m : Values) (k v : Bytes) : (valuesAppend m k v).map (·.1) = if k ∈ m.map (·.1) then m.map (·.1) else m.map (·.1) ++ [k] := by
  induction m with
  | nil => simp [valuesAppend]
  | cons e m ih =>
    obtain ⟨k', vs⟩ := e
    simp only [valuesAppend]
    split
    · rename_i h; subst h; simp
    · rename_i h
      simp only [List.map_cons, ih, List.mem_cons]
      by_cases h' : k ∈ m.map (·.1)
      · simp [h']
      · rw [if_neg h', if_neg (by simp only [h', or_false]; exact fun h'' => h h''.symm)]; rfl

theorem keys_all (kvs : List (Bytes × Bytes)) : ∀ (m : Values), (m.map (·.1)).Nodup → ((appendAll m kvs).map (·.1)).Nodup ∧
    ∀ k, k ∈ (appendAll m kvs).map (·.1) ↔ k ∈ m.map (·.1) ∨ k ∈ kvs.map (·.1) := by
  induction kvs with
  | nil => intro m h; simpa [appendAll] using h
  | cons e kvs ih =>
    intro m h
    have hk := keys_append m e.1 e.2
    have hn : ((valuesAppend m e.1 e.2).map (·.1)).Nodup := by
      rw [hk]
      split
      · exact h
      · rename_i hx
        rw [List.nodup_append]
        refine ⟨h, by simp, ?_⟩
        intro a ha b hb heq
        simp at hb
        subst hb; subst heq
        exact hx ha
    obtain ⟨h1, h2⟩ := ih _ hn
    refine ⟨h1, fun k => ?_⟩
    show k ∈ (appendAll (valuesAppend m e.1 e.2) kvs).map (·.1) ↔ _
    rw [h2, hk]
    simp only [List.map_cons, List.mem_cons]
    split
    · rename_i hx
      constructor
      · rintro (h | h)
        · exact Or.inl h
        · exact Or.inr (Or.inr h)
      · rintro (h | rfl | h)
        · exact Or.inl h
        · exact Or.inl hx
        · exact Or.inr h
    · simp only [List.mem_append, List.mem_singleton]
      exact or_assoc

theorem mem_valuesOf {kvs : List (Bytes × Bytes)} {k v : Bytes} : v ∈ valuesOf kvs k ↔ (k, v) ∈ kvs := by
  simp only [valuesOf, List.mem_map, List.mem_filter, decide_eq_true_eq]
  constructor
  · rintro ⟨⟨a, b⟩, ⟨h, rfl⟩, rfl⟩; exact h
  · intro h; exact ⟨(k, v), ⟨h, rfl⟩, rfl⟩

theorem valuesOf_ne_nil (kvs : List (Bytes × Bytes)) (k : Bytes) : valuesOf kvs k ≠ [] ↔ k ∈ kvs.map (·.1) := by
  constructor
  · intro h
    obtain ⟨v, hv⟩ := List.exists_mem_of_ne_nil _ h
    exact List.mem_map.2 ⟨(k, v), mem_valuesOf.1 hv, rfl⟩
  · intro h
    obtain ⟨⟨a, v⟩, he, rfl⟩ := List.mem_map.1 h
    exact List.ne_nil_of_mem (mem_valuesOf.2 he)

theorem same_params {str str' : Bytes} {kvs kvs' : List (Bytes × Bytes)} (h : IsQuery str kvs) (h' : IsQuery str' kvs')
    (he : ∀ k, valuesOf kvs k = valuesOf kvs' k) : parseQueryString str = parseQueryString str' := by
  have hn := keys_all kvs [] (by simp)
  have hn' := keys_all kvs' [] (by simp)
  have hkeys : ((appendAll [] kvs).map (·.1)).Perm ((appendAll [] kvs').map (·.1)) := by
    rw [List.perm_ext_iff_of_nodup hn.1 hn'.1]
    intro k
    rw [hn.2, hn'.2, ← valuesOf_ne_nil, ← valuesOf_ne_nil, he]
  unfold parseQueryString
  rw [parseQuery_params h, parseQuery_params h']
  simp only
  have hm : ∀ l : Values, ∀ y ∈ l.map (fun kv => string2Segments kv.1), Mades y := by
    intro l y hy
    simp only [List.mem_map] at hy
    obtain ⟨e, _, rfl⟩ := hy
    exact mades_string2Segments _
  have hs : sortSegs ((appendAll [] kvs).map fun kv => string2Segments kv.1) = sortSegs ((appendAll [] kvs').map fun kv => string2Segments kv.1) := by
    have hp : ((appendAll [] kvs).map fun kv => string2Segments kv.1).Perm ((appendAll [] kvs').map fun kv => string2Segments kv.1) := by
      have := hkeys.map string2Segments
      simpa only [List.map_map, Function.comp_def] using this
    refine sorted_perm_eq ((sortSegs_perm _).trans (hp.trans (sortSegs_perm _).symm)) (sortSegs_sorted (hm _)) (sortSegs_sorted (hm _)) ?_
    intro y hy
    exact hm _ y ((sortSegs_perm _).subset hy)
  rw [hs]
  refine addAllSegs_congr (fun k => ?_) _ _
  rw [valuesGet_all, valuesGet_all, he]

/-! ### flat keys -/

/-- What a key with these values becomes. -/
def flatValue : List Bytes → Option J
  | [] => none
  | [v] => some (.str v)
  | vs => some (.arr (vs.map .str))

theorem queryLeaf_flat {vs : List Bytes} (h : vs ≠ []) : ∃ x, queryLeaf vs = .ok x ∧ flatValue vs = some x := by
  match vs with
  | [] => exact absurd rfl h
  | [v] => exact ⟨_, rfl, rfl⟩
  | a :: b :: r => exact ⟨_, rfl, rfl⟩

theorem addAll_flat (m : Values) : ∀ (l : List Bytes) (d : SMap J), SMap.Sorted d → l.Nodup → (∀ k ∈ l, QueryKey k ∧ smGet d k = none ∧ valuesGet m k ≠ []) →
    ∃ d', addAllSegs m (l.map string2Segments) (.dict 0 d) = .ok (.dict 0 d') ∧ SMap.Sorted d' ∧
      ∀ k, smGet d' k = if k ∈ l then flatValue (valuesGet m k) else smGet d k
  | [], d, hd, _, _ => ⟨d, rfl, hd, fun k => by simp⟩
  | k :: l, d, hd, hn, h => by
    obtain ⟨hq, hg, hv⟩ := h k (List.mem_cons_self ..)
    have hseg : string2Segments k = [string2TextNumber k] := by simp only [string2Segments, splitOn_noSep 46 k hq.1, List.map_cons, List.map_nil]
    have htext : (string2TextNumber k).toText = k := (toText_eq_iff k).2 hq.2
    obtain ⟨x, hx1, hx2⟩ := queryLeaf_flat hv
    have hs2 : segments2string [string2TextNumber k] = k := by simp [segments2string, joinWith, htext]
    have hadd : addSeg [string2TextNumber k] (some (.dict 0 d)) (valuesGet m k) = (some (.dict 0 (smAdd d k x)), .ok (.dict 0 (smAdd d k x))) := by
      rw [addSeg_dict _ _ _ 0 d _ (Or.inl rfl), htext, hg]
      simp only [addSeg, hx1]
      rfl
    rw [List.nodup_cons] at hn
    obtain ⟨d', h1, h2, h3⟩ := addAll_flat m l (smAdd d k x) (sorted_smAdd hd k x) hn.2 fun k' hk' => by
      obtain ⟨a, b, c⟩ := h k' (List.mem_cons_of_mem _ hk')
      refine ⟨a, ?_, c⟩
      rw [smGet_smAdd d hd, if_neg, b]
      rintro rfl
      exact hn.1 hk'
    refine ⟨d', ?_, h2, fun k' => ?_⟩
    · simp only [List.map_cons, addAllSegs, hseg, hs2, hadd]
      exact h1
    · rw [h3, smGet_smAdd d hd]
      by_cases hk : k' = k
      · subst hk
        rw [if_neg hn.1]
        simp [hx2]
      · simp only [List.mem_cons, hk, false_or, if_false]

theorem flat_query {str : Bytes} {kvs : List (Bytes × Bytes)} (h : IsQuery str kvs) (hk : ∀ e ∈ kvs, QueryKey e.1) :
    ∃ d, parseQueryString str = .ok (.dict 0 d) ∧ SMap.Sorted d ∧ ∀ k, smGet d k = flatValue (valuesOf kvs k) := by
  have hn := keys_all kvs [] (by simp)
  let keys := (appendAll [] kvs).map (·.1)
  have hkeys : ∀ k ∈ keys, QueryKey k := by
    intro k hk'
    have := (hn.2 k).1 hk'
    simp only [List.map_nil, List.not_mem_nil, false_or, List.mem_map] at this
    obtain ⟨e, he, rfl⟩ := this
    exact hk e he
  let sorted := sortSegs (keys.map string2Segments)
  have hperm : sorted.Perm (keys.map string2Segments) := sortSegs_perm _
  have hround : ∀ k ∈ keys, segments2string (string2Segments k) = k := by
    intro k hk'
    have hseg : string2Segments k = [string2TextNumber k] := by simp only [string2Segments, splitOn_noSep 46 k (hkeys k hk').1, List.map_cons, List.map_nil]
    rw [hseg]
    simp [segments2string, joinWith, (toText_eq_iff k).2 (hkeys k hk').2]
  have hl : sorted = (sorted.map segments2string).map string2Segments := by
    rw [List.map_map]
    conv => lhs; rw [← List.map_id sorted]
    apply List.map_congr_left
    intro s hs
    obtain ⟨k, hk', rfl⟩ := List.mem_map.1 (hperm.subset hs)
    simp only [id_eq, Function.comp_apply, hround k hk']
  have hp2 : (sorted.map segments2string).Perm keys := by
    have := hperm.map segments2string
    refine this.trans ?_
    rw [List.map_map]
    conv => rhs; rw [← List.map_id keys]
    rw [List.map_congr_left (g := id)]
    intro k hk'
    simpa using hround k hk'
  obtain ⟨d, h1, h2, h3⟩ := addAll_flat (appendAll [] kvs) (sorted.map segments2string) [] sorted_nil (hp2.nodup_iff.2 hn.1) fun k hk' => by
    refine ⟨hkeys k (hp2.subset hk'), rfl, ?_⟩
    rw [valuesGet_all]
    simp only [valuesGet, List.nil_append]
    rw [valuesOf_ne_nil]
    have := (hn.2 k).1 (hp2.subset hk')
    simpa using this
  refine ⟨d, ?_, h2, fun k => ?_⟩
  · simp only [parseQueryString, parseQuery_params h]
    have : ((appendAll [] kvs).map fun kv => string2Segments kv.1) = keys.map string2Segments := by simp only [keys, List.map_map, Function.comp_def]
    rw [this]
    show addAllSegs _ sorted _ = _
    rw [hl]
    exact h1
  · rw [h3, valuesGet_all]
    simp only [valuesGet, List.nil_append]
    by_cases hm : k ∈ sorted.map segments2string
    · rw [if_pos hm]
    · rw [if_neg hm]
      have : k ∉ kvs.map (·.1) := fun hk' => hm (hp2.symm.subset ((hn.2 k).2 (Or.inr hk')))
      have : valuesOf kvs k = [] := by
        cases hv : valuesOf kvs k with
        | nil => rfl
        | cons v vs => exact absurd ((valuesOf_ne_nil kvs k).1 (by rw [hv]; simp)) this
      rw [this]; rfl

/-! ### every result -/

theorem addSeg_notBad : ∀ (segs : List TextNumber) (body : Option J) (val : List Bytes), (addSeg segs body val).2 ≠ .error .badQuery
  | [], body, val => by
    simp only [addSeg]
    match val with
    | [] => simp [queryLeaf]
    | [v] => simp [queryLeaf]
    | a :: b :: r => simp [queryLeaf]
  | s :: segs, body, val => by
    have ih := addSeg_notBad segs none val
    rw [addSeg.eq_def]
    simp only
    repeat' split
    all_goals first | (simp; done) | skip
    all_goals (rename_i e he; rw [he] at ih; simpa using ih)

theorem addAllSegs_notBad (m : Values) : ∀ (l : List (List TextNumber)) (d : J), addAllSegs m l d ≠ .error .badQuery
  | [], d => by simp [addAllSegs]
  | s :: l, d => by
    simp only [addAllSegs]
    split
    · rename_i e he
      have := addSeg_notBad s (some d) (valuesGet m (segments2string s))
      rw [he] at this
      simpa using this
    · exact addAllSegs_notBad m l _

/-- Well formed, only texts, and these from `S`. -/
def J.TextsIn (S : Bytes → Prop) (v : J) : Prop := v.WF ∧ v.StringsOnly ∧ ∀ s ∈ v.texts, S s

theorem mem_textsf {s : Bytes} : ∀ {kvs : List (Bytes × J)}, s ∈ J.textsf kvs ↔ ∃ e ∈ kvs, s ∈ e.2.texts
  | [] => by simp [J.textsf]
  | (k, x) :: kvs => by simp [J.textsf, mem_textsf (kvs := kvs)]

theorem mem_textss {s : Bytes} : ∀ {xs : List J}, s ∈ J.textss xs ↔ ∃ e ∈ xs, s ∈ e.texts
  | [] => by simp [J.textss]
  | x :: xs => by simp [J.textss, mem_textss (xs := xs)]

theorem stringsOnlyf_iff : ∀ {kvs : List (Bytes × J)}, J.StringsOnlyf kvs ↔ ∀ e ∈ kvs, e.2.StringsOnly
  | [] => by simp [J.StringsOnlyf]
  | (k, x) :: kvs => by simp [J.StringsOnlyf, stringsOnlyf_iff (kvs := kvs)]

theorem stringsOnlys_iff : ∀ {xs : List J}, J.StringsOnlys xs ↔ ∀ e ∈ xs, e.StringsOnly
  | [] => by simp [J.StringsOnlys]
  | x :: xs => by simp [J.StringsOnlys, stringsOnlys_iff (xs := xs)]

theorem textsIn_dict {S : Bytes → Prop} {id : Int} {kvs : SMap J} : (J.dict id kvs).TextsIn S ↔ id = 0 ∧ SMap.Sorted kvs ∧ ∀ e ∈ kvs, e.2.TextsIn S := by
  simp only [J.TextsIn, J.WF, J.StringsOnly, J.texts, mem_textsf, WFf_iff, stringsOnlyf_iff]
  constructor
  · rintro ⟨⟨h1, h2⟩, ⟨h3, h4⟩, h5⟩
    exact ⟨h3, h1, fun e he => ⟨h2 e he, h4 e he, fun s hs => h5 s ⟨e, he, hs⟩⟩⟩
  · rintro ⟨h3, h1, h⟩
    exact ⟨⟨h1, fun e he => (h e he).1⟩, ⟨h3, fun e he => (h e he).2.1⟩, fun s ⟨e, he, hs⟩ => (h e he).2.2 s hs⟩

theorem textsIn_arr {S : Bytes → Prop} {xs : List J} : (J.arr xs).TextsIn S ↔ ∀ e ∈ xs, e.TextsIn S := by
  simp only [J.TextsIn, J.WF, J.StringsOnly, J.texts, mem_textss, WFs_iff, stringsOnlys_iff]
  constructor
  · rintro ⟨h2, h4, h5⟩
    exact fun e he => ⟨h2 e he, h4 e he, fun s hs => h5 s ⟨e, he, hs⟩⟩
  · intro h
    exact ⟨fun e he => (h e he).1, fun e he => (h e he).2.1, fun s ⟨e, he, hs⟩ => (h e he).2.2 s hs⟩

theorem textsIn_add {S : Bytes → Prop} {id : Int} {kvs : SMap J} (h : (J.dict id kvs).TextsIn S) (k : Bytes) {x : J} (hx : x.TextsIn S) :
    (J.dict id (smAdd kvs k x)).TextsIn S := by
  rw [textsIn_dict] at h ⊢
  refine ⟨h.1, sorted_smAdd h.2.1 k x, fun e he => ?_⟩
  rcases mem_smAdd he with rfl | he
  · exact hx
  · exact h.2.2 e he

theorem queryLeaf_textsIn {S : Bytes → Prop} {vs : List Bytes} (h : ∀ s ∈ vs, S s) {x : J} (hx : queryLeaf vs = .ok x) : x.TextsIn S := by
  have str : ∀ v, S v → (J.str v).TextsIn S := fun v hv => ⟨trivial, trivial, by simp [J.texts, hv]⟩
  match vs, hx with
  | [v], hx => cases hx; exact str v (h v (by simp))
  | a :: b :: r, hx =>
    cases hx
    rw [newStringArray, textsIn_arr]
    intro e he
    obtain ⟨v, hv, rfl⟩ := List.mem_map.1 he
    exact str v (h v hv)

theorem addSeg_textsIn {S : Bytes → Prop} : ∀ (segs : List TextNumber) (body : Option J) (val : List Bytes), (∀ b, body = some b → b.TextsIn S) → (∀ s ∈ val, S s) →
    (∀ b, (addSeg segs body val).1 = some b → b.TextsIn S) ∧ (∀ x, (addSeg segs body val).2 = .ok x → x.TextsIn S)
  | [], body, val, hb, hv => ⟨hb, fun x hx => queryLeaf_textsIn hv hx⟩
  | s :: segs, body, val, hb, hv => by
    have ih := addSeg_textsIn segs none val (by simp) hv
    have ih2 := fun (n : J) (hn : n.TextsIn S) => addSeg_textsIn segs (some n) val (by simpa using hn) hv
    have next : ∀ n : J, n.TextsIn S → (((addSeg segs (some n) val).1).getD n).TextsIn S := by
      intro n hn
      cases h : (addSeg segs (some n) val).1 with
      | none => exact hn
      | some b => exact (ih2 n hn).1 b h
    have both : ∀ w : J, w.TextsIn S → (∀ b, body.map (fun _ => w) = some b → b.TextsIn S) ∧ (∀ x, (Except.ok w : Except QErr J) = .ok x → x.TextsIn S) := by
      intro w hw
      refine ⟨fun b h => ?_, fun x h => by cases h; exact hw⟩
      cases body with
      | none => cases h
      | some b' => cases h; exact hw
    have err : ∀ e : QErr, (∀ b, body = some b → b.TextsIn S) ∧ (∀ x, (Except.error e : Except QErr J) = .ok x → x.TextsIn S) :=
      fun e => ⟨hb, fun x h => by cases h⟩
    have dict : ∀ id kvs, (J.dict id kvs).TextsIn S → (body = some (.dict id kvs) ∨ (body = none ∧ id = 0 ∧ kvs = [] ∧ ¬ (s.isNumber = true ∧ s.number = 0))) →
        (∀ b, (addSeg (s :: segs) body val).1 = some b → b.TextsIn S) ∧ (∀ x, (addSeg (s :: segs) body val).2 = .ok x → x.TextsIn S) := by
      intro id kvs cur hbody
      rw [addSeg_dict s segs val id kvs body hbody]
      cases hg : smGet kvs s.toText with
      | none =>
        simp only
        cases ha : (addSeg segs none val).2 with
        | error e => exact err e
        | ok n => exact both _ (textsIn_add cur _ (ih.2 n ha))
      | some n =>
        exact both _ (textsIn_add cur _ (next n ((textsIn_dict.1 cur).2.2 _ (smGet_mem hg))))
    have arr : ∀ xs, (J.arr xs).TextsIn S → (body = some (.arr xs) ∨ (body = none ∧ xs = [] ∧ s.isNumber = true ∧ s.number = 0)) →
        (∀ b, (addSeg (s :: segs) body val).1 = some b → b.TextsIn S) ∧ (∀ x, (addSeg (s :: segs) body val).2 = .ok x → x.TextsIn S) := by
      intro xs cur hbody
      rw [addSeg_arr s segs val xs body hbody]
      split
      · cases hg : arrGetAt xs s.number with
        | ok n =>
          simp only
          have hn : n.TextsIn S := by
            simp only [arrGetAt] at hg
            generalize (if s.number < 0 then (xs.length : Int) + s.number else s.number) = j at hg
            split at hg
            · split at hg
              · rename_i hx; cases hg; exact textsIn_arr.1 cur _ (List.mem_of_getElem? hx)
              · cases hg
            · cases hg
          refine both _ (textsIn_arr.2 fun e he => ?_)
          rcases List.mem_or_eq_of_mem_set he with he | rfl
          · exact textsIn_arr.1 cur e he
          · exact next n hn
        | err e => exact err _
        | diverge => exact err _
      · split
        · cases ha : (addSeg segs none val).2 with
          | error e => exact err e
          | ok n =>
            refine both _ (textsIn_arr.2 fun e he => ?_)
            rcases List.mem_append.1 he with he | he
            · exact textsIn_arr.1 cur e he
            · rw [List.mem_singleton.1 he]; exact ih.2 n ha
        · exact err _
    cases body with
    | none =>
      by_cases hz : s.isNumber = true ∧ s.number = 0
      · exact arr [] (by rw [textsIn_arr]; simp) (Or.inr ⟨rfl, rfl, hz.1, hz.2⟩)
      · exact dict 0 [] (by rw [textsIn_dict]; exact ⟨rfl, sorted_nil, by simp⟩) (Or.inr ⟨rfl, rfl, rfl, hz⟩)
    | some b =>
      cases b with
      | dict id kvs => exact dict id kvs (hb _ rfl) (Or.inl rfl)
      | arr xs => exact arr xs (hb _ rfl) (Or.inl rfl)
      | _ => exact err _

theorem addSeg_root (segs : List TextNumber) (id : Int) (kvs : SMap J) (val : List Bytes) : ∃ m, (addSeg segs (some (.dict id kvs)) val).1 = some (.dict id m) := by
  cases segs with
  | nil => exact ⟨kvs, rfl⟩
  | cons s segs =>
    rw [addSeg_dict s segs val id kvs _ (Or.inl rfl)]
    repeat' split
    all_goals exact ⟨_, rfl⟩

theorem addAllSegs_tidy {S : Bytes → Prop} {m : Values} (hm : ∀ k, ∀ s ∈ valuesGet m k, S s) : ∀ (l : List (List TextNumber)) (d v : J), d.TextsIn S → d.IsDict →
    addAllSegs m l d = .ok v → v.TextsIn S ∧ v.IsDict
  | [], d, v, hd, hi, h => by cases h; exact ⟨hd, hi⟩
  | s :: l, d, v, hd, hi, h => by
    cases d with
    | dict id kvs =>
      obtain ⟨m', hm'⟩ := addSeg_root s id kvs (valuesGet m (segments2string s))
      have hg := (addSeg_textsIn s (some (.dict id kvs)) (valuesGet m (segments2string s)) (by intro b hb; cases hb; exact hd) (hm _)).1 _ hm'
      simp only [addAllSegs] at h
      split at h
      · cases h
      · rename_i d' o hd'
        have : d' = some (.dict id m') := by rw [← hm', hd']
        subst this
        exact addAllSegs_tidy hm l _ v hg trivial h
    | _ => exact absurd hi id

end Jsonutils
