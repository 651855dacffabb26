import Verif.Proofs.HeapMut

/-!
# Documents in memory: isolation of deep copies (C22), mutation through memory (C51)
-/

namespace Jsonutils.Props

open Jsonutils

/-! ## C22, isolation -/

/-- **C22 (isolation).** `DeepCopy` of a document in memory (no reference pointers) returns a new document, with the
same content but for node ids, such that
* the objects existing before are untouched, and nothing reachable from the copy existed before;
* no later history of calls made through the copy (or new objects, or the shared `JSONNull`/`JSONTrue`/`JSONFalse`)
  changes any document that existed before the copy;
* no later history of calls made through objects existing before (or new objects) changes the copy. -/
theorem C22_isolated (ord : SMap Ref → SMap Ref) (hord : ∀ l, (ord l).Perm l) (h : Heap) (hok : h.Ok) (v : J) (hw : v.WF)
    (hp : v.NoPtr) (a : Addr) (hv : v.Seen h a) :
    ∃ a' h', (∃ f0, ∀ f, f0 ≤ f → deepCopyH ord f h (some a) = .ok (some a', h')) ∧
      h <+: h' ∧ v.dropIds.Seen h' a' ∧ (∀ b, Reach h' a' b → h.length ≤ b) ∧
      (∀ cs, OrdersOk cs → Mentions (fun b => Reach h' a' b ∨ h'.length ≤ b ∨ b < Heap.base.length) cs →
        ∀ (w : J) (c : Addr), c < h.length → w.Seen h c → w.Seen (runCalls h' cs) c) ∧
      (∀ cs, OrdersOk cs → Mentions (fun b => b < h.length ∨ h'.length ≤ b) cs → v.dropIds.Seen (runCalls h' cs) a') := by
  obtain ⟨f0, a', h', hpre, hA, hf⟩ := copy_ok hord v hw hp h a hv
  have hbase : Heap.base <+: h' := hok.base.trans hpre
  have hreach : ∀ b, Reach h' a' b → h.length ≤ b := fun b hr => (At_reach _ _ hA b hr).1
  have hbase' : ∀ b, b < Heap.base.length → h'[b]? = Heap.base[b]? := by
    intro b hb
    obtain ⟨t, rfl⟩ := hbase
    exact List.getElem?_append_left hb
  refine ⟨a', h', ⟨f0, hf⟩, hpre, At_agree (fun _ _ => trivial) (fun _ _ _ ho => ho) _ _ hA, hreach, ?_, ?_⟩
  · intro cs ho hm w c hc hwc
    have hcl : Closed (fun b => Reach h' a' b ∨ h'.length ≤ b ∨ b < Heap.base.length) h' := by
      refine ⟨fun b hb => Or.inr (Or.inl hb), fun x o hx hxo b hb => ?_⟩
      rcases hx with hx | hx | hx
      · exact Or.inl (reach_trans hx (.step hxo hb (.refl b)))
      · exact absurd (List.getElem?_eq_some_iff.1 hxo).1 (by omega)
      · rw [hbase' x hx] at hxo
        have : o ∈ Heap.base := List.mem_of_getElem? hxo
        simp only [Heap.base, List.mem_cons, List.not_mem_nil, or_false] at this
        rcases this with rfl | rfl | rfl <;> simp [Obj.refs] at hb
    have s := runCalls_ok cs h' hcl hm ho
    have hw' : w.Seen h' c := At_agree (fun _ _ => trivial) (fun _ _ _ ho => prefix_get hpre ho) _ _ hwc
    refine Seen_keep hw' fun b hb hr => ?_
    -- everything below `c` existed before
    have hlt : b < h.length := by
      clear hb
      have : ∀ x y, Reach h' x y → x < h.length → y < h.length := by
        intro x y hxy
        induction hxy with
        | refl => exact fun h => h
        | step ho hm' _ ih =>
          intro hx
          apply ih
          rename_i x b y o _
          have hxo : h[x]? = some o := by
            obtain ⟨t, rfl⟩ := hpre
            rw [List.getElem?_append_left hx] at ho; exact ho
          exact hok.inside _ (List.mem_of_getElem? hxo) _ hm'
      exact this c b hr hc
    by_cases hb3 : b < Heap.base.length
    · refine s.imm b ?_
      rw [hbase' b hb3]
      have : b = 0 ∨ b = 1 ∨ b = 2 := by simp [Heap.base] at hb3; omega
      rcases this with rfl | rfl | rfl
      · left; rfl
      · right; exact ⟨true, rfl⟩
      · right; exact ⟨false, rfl⟩
    · refine s.keep b hb ?_
      rintro (h1 | h1 | h1)
      · exact absurd (hreach b h1) (by omega)
      · exact absurd hpre.length_le (by omega)
      · exact hb3 h1
  · intro cs ho hm
    have hcl : Closed (fun b => b < h.length ∨ h'.length ≤ b) h' := by
      refine ⟨fun b hb => Or.inr hb, fun x o hx hxo b hb => ?_⟩
      rcases hx with hx | hx
      · left
        have hxo' : h[x]? = some o := by
          obtain ⟨t, rfl⟩ := hpre
          rw [List.getElem?_append_left hx] at hxo; exact hxo
        exact hok.inside _ (List.mem_of_getElem? hxo') _ hb
      · exact absurd (List.getElem?_eq_some_iff.1 hxo).1 (by omega)
    have s := runCalls_ok cs h' hcl hm ho
    have hA' : v.dropIds.Seen h' a' := At_agree (fun _ _ => trivial) (fun _ _ _ ho => ho) _ _ hA
    refine Seen_keep hA' fun b hb hr => s.keep b hb ?_
    rintro (h1 | h1)
    · exact absurd (hreach b hr) (Nat.not_le.2 h1)
    · exact absurd hb (Nat.not_lt.2 h1)

/-- The heap used in the examples: `{"a":{"k":"x"},"n":null}` at address 5. -/
def exHeap : Heap := Heap.base ++ [.str b!"x", .dict 0 [(b!"k", some 3)], .dict 0 [(b!"a", some 4), (b!"n", some nullAddr)]]

theorem exHeap_seen : (J.dict 0 [(b!"a", .dict 0 [(b!"k", .str b!"x")]), (b!"n", .null)]).Seen exHeap 5 := by
  simp only [J.At, J.Atf]
  exact ⟨trivial, _, rfl, 4, _, rfl, ⟨trivial, _, rfl, 3, _, rfl, ⟨trivial, rfl⟩, rfl⟩, 0, _, rfl, ⟨trivial, rfl⟩, rfl⟩

theorem exHeap_ok : exHeap.Ok := by
  refine ⟨⟨_, rfl⟩, fun o ho b hb => ?_⟩
  have : ∀ o ∈ exHeap, ∀ r ∈ o.refs, r.getD 0 < exHeap.length := by decide
  exact this o ho _ hb

/-- The hypotheses of `C22_isolated` hold for it. -/
example : exHeap.Ok ∧ (J.dict 0 [(b!"a", .dict 0 [(b!"k", .str b!"x")]), (b!"n", .null)]).Seen exHeap 5 ∧
    (J.dict 0 [(b!"a", .dict 0 [(b!"k", .str b!"x")]), (b!"n", .null)]).WF ∧
    (J.dict 0 [(b!"a", .dict 0 [(b!"k", .str b!"x")]), (b!"n", .null)]).NoPtr := by
  refine ⟨exHeap_ok, exHeap_seen, ?_, ?_⟩
  · simp only [J.WF, J.WFf, SMap.Sorted, InI64, i64min, i64max]; decide
  · simp [J.NoPtr, J.NoPtrf]

/-- Isolation needs the deep copy: after the shallow `Copy`, setting a key of the nested dictionary through the copy
changes the original. -/
theorem C22_shallow_shares : ∃ d h', copyExcludesH exHeap 5 [] = some (d, h') ∧ Reach h' d 4 ∧
    (J.dict 0 [(b!"a", .dict 0 [(b!"k", .str b!"x")]), (b!"n", .null)]).Seen h' 5 ∧
    (J.dict 0 [(b!"a", .dict 0 [(b!"k", .null)]), (b!"n", .null)]).Seen (runCalls h' [.set 4 b!"k" (some nullAddr)]) 5 := by
  refine ⟨6, exHeap ++ [.dict 0 [(b!"a", some 4), (b!"n", some nullAddr)]], by decide, ?_, ?_, ?_⟩
  · exact .step (o := .dict 0 [(b!"a", some 4), (b!"n", some nullAddr)]) rfl (by simp [Obj.refs]) (.refl 4)
  · exact At_prefix (List.prefix_append _ _) exHeap_seen
  · have : runCalls (exHeap ++ [.dict 0 [(b!"a", some 4), (b!"n", some nullAddr)]]) [.set 4 b!"k" (some nullAddr)] =
      Heap.base ++ [.str b!"x", .dict 0 [(b!"k", some nullAddr)], .dict 0 [(b!"a", some 4), (b!"n", some nullAddr)],
        .dict 0 [(b!"a", some 4), (b!"n", some nullAddr)]] := by decide
    rw [this]
    simp only [J.At, J.Atf]
    exact ⟨trivial, _, rfl, 4, _, rfl, ⟨trivial, _, rfl, 0, _, rfl, ⟨trivial, rfl⟩, rfl⟩, 0, _, rfl, ⟨trivial, rfl⟩, rfl⟩

/-- Finding: the copy of `JSONNull` is another pointer, so `Add` below a null member succeeds on the original and fails
with `ErrInvalidJsonDict` on its deep copy. -/
theorem C22_null_identity : ∃ h', deepCopyH id 9 exHeap (some 5) = .ok (some 9, h') ∧
    (∃ h2, addH h' 5 (some 3) [b!"n", b!"y"] = some (none, h2)) ∧
    addH h' 9 (some 3) [b!"n", b!"y"] = some (some .invalidDict, h') := by
  refine ⟨exHeap ++ [.str b!"x", .dict 0 [(b!"k", some 6)], .null, .dict 0 [(b!"a", some 7), (b!"n", some 8)]], by decide, ⟨_, rfl⟩, by decide⟩

/-! ## C51: mutation through memory -/

/-- **C51 (Set).** Setting a key of a dictionary in memory to a document not containing it: the dictionary then spells the
updated document, and every document not containing the dictionary is unchanged. -/
theorem C51_set (h : Heap) (d b : Addr) (id : Int) (kvs : SMap J) (x : J) (k : Bytes) (hs : SMap.Sorted kvs)
    (hd : (J.dict id kvs).Seen h d) (hx : x.Seen h b) (hn : ¬ Reach h b d) :
    ∃ h', setH h d k (some b) = some h' ∧ (J.dict id (smAdd kvs k x)).Seen h' d ∧
      ∀ (w : J) c, w.Seen h c → ¬ Reach h c d → w.Seen h' c := by
  obtain ⟨h', h1, h2, _, h4⟩ := setH_seen k hs hd hx hn
  exact ⟨h', h1, h2, fun w c hw hc => Seen_keep hw fun y _ hy => h4 y fun e => hc (e ▸ hy)⟩

/-- Finding: without the hypothesis that the new value does not contain the receiver, `Set` ties a knot: the object then
spells no document at all (every traversal recurses forever). -/
theorem C51_set_knot : ∃ h', setH exHeap 5 b!"n" (some 5) = some h' ∧ ∀ v : J, ¬ v.Seen h' 5 := by
  refine ⟨Heap.base ++ [.str b!"x", .dict 0 [(b!"k", some 3)], .dict 0 [(b!"a", some 4), (b!"n", some 5)]], by decide, fun v hv => ?_⟩
  exact no_cycle (o := .dict 0 [(b!"a", some 4), (b!"n", some 5)]) (c := 5) hv rfl (by simp [Obj.refs]) (.refl 5)

/-- **C51 (Remove).** Removing a key in memory does what it does on documents; its result is whether the key was there. -/
theorem C51_remove (h : Heap) (d : Addr) (id : Int) (kvs : SMap J) (k : Bytes) (hd : (J.dict id kvs).Seen h d) :
    ∃ h', removeH h d k = some ((dictRemove kvs k).2, h') ∧ (J.dict id (dictRemove kvs k).1).Seen h' d ∧
      ∀ (w : J) c, w.Seen h c → ¬ Reach h c d → w.Seen h' c := by
  obtain ⟨h', h1, h2⟩ := removeH_seen k hd
  refine ⟨h', h1, h2, fun w c hw hc => ?_⟩
  simp only [removeH] at h1
  split at h1
  · have h5 := congrArg Prod.snd (Option.some.inj h1)
    simp only at h5
    rw [← h5]; exact Seen_set hw hc
  · cases h1

/-- **C51 (SetAt).** `SetAt(i, x)` replaces element `i` for `0 ≤ i < n` and panics otherwise; every document not
containing the array is unchanged. -/
theorem C51_setAt (h : Heap) (d b : Addr) (xs : List J) (x : J) (i : Int) (hd : (J.arr xs).Seen h d) (hx : x.Seen h b)
    (hn : ¬ Reach h b d) :
    (¬ (0 ≤ i ∧ i < xs.length) → setAtH h d i (some b) = none) ∧
    (0 ≤ i ∧ i < xs.length → ∃ h', setAtH h d i (some b) = some h' ∧ (J.arr (xs.set i.toNat x)).Seen h' d ∧
      ∀ (w : J) c, w.Seen h c → ¬ Reach h c d → w.Seen h' c) := by
  obtain ⟨h1, h2⟩ := setAtH_seen i hd hx hn
  constructor
  · intro hi
    exact h1 (by simp only [arrSetAt]; rw [if_neg hi])
  · intro hi
    obtain ⟨h', h3, h4⟩ := h2 (xs.set i.toNat x) (by simp only [arrSetAt]; rw [if_pos hi])
    refine ⟨h', h3, h4, fun w c hw hc => ?_⟩
    simp only [setAtH] at h3
    split at h3
    · split at h3
      · cases h3; exact Seen_set hw hc
      · cases h3
    · cases h3

/-- **C51 (append).** `JSONArray.Add(ys...)` appends in order; every document not containing the array is unchanged. -/
theorem C51_append (h : Heap) (d : Addr) (xs ys : List J) (ss : List Ref) (hd : (J.arr xs).Seen h d)
    (hy : J.Ats h (fun _ => True) ys ss) (hn : ∀ b, some b ∈ ss → ¬ Reach h b d) :
    ∃ h', arrAddH h d ss = some h' ∧ (J.arr (xs ++ ys)).Seen h' d ∧
      ∀ (w : J) c, w.Seen h c → ¬ Reach h c d → w.Seen h' c := by
  obtain ⟨h', h1, h2⟩ := arrAddH_seen hd hy hn
  refine ⟨h', h1, h2, fun w c hw hc => ?_⟩
  simp only [arrAddH] at h1
  split at h1
  · cases h1; exact Seen_set hw hc
  · cases h1

/-- **C51 (Add).** `Add(o, path...)` in memory returns the error, and leaves the document, of the operation on
documents (C17), provided `o` shares no dictionary with the receiver, nulls below the receiver are the shared
`JSONNull`, and no dictionary below the path is also reachable through a sibling entry.  Documents sharing no
dictionary with the receiver are unchanged. -/
theorem C51_add (h : Heap) (hok : h.Ok) (d o : Addr) (id : Int) (kvs : SMap J) (w : J) (path : List Bytes)
    (hwf : (J.dict id kvs).WF) (hd : (J.dict id kvs).Seen h d) (hw : w.Seen h o)
    (hsep : ∀ x, Reach h o x → DictAt h x → ¬ Reach h d x)
    (hnull : ∀ x, Reach h d x → h[x]? = some .null → x = nullAddr) (hun : Unaliased h d path) :
    ∃ h', addH h d (some o) path = some ((dictAdd kvs w path).2, h') ∧ (J.dict id (dictAdd kvs w path).1).Seen h' d ∧
      ∀ (u : J) c, u.Seen h c → (∀ x, Reach h c x → DictAt h x → ¬ Reach h d x) → u.Seen h' c := by
  have h0 : h[nullAddr]? = some .null := prefix_get hok.base rfl
  obtain ⟨h', h1, h2, _, h4⟩ := addH_seen w o path h d id kvs h0 hwf hd hw hsep hnull hun
  exact ⟨h', h1, h2, fun u c hu hc => Seen_keep hu fun x hx hr => h4 x hx fun hh => hc x hr hh.2 hh.1⟩

/-- The hypotheses of `C51_add` hold for `Add("x", "a", "z")` on the sample document. -/
example : Unaliased exHeap 5 [b!"a", b!"z"] ∧ (∀ x, Reach exHeap 3 x → DictAt exHeap x → ¬ Reach exHeap 5 x) := by
  constructor
  · simp only [Unaliased]
    intro id kvs b hd hb
    cases hd
    have : some (some 4) = some (some b) := hb
    cases this
    refine ⟨fun k' c hne hc x hr hx hr2 => ?_, trivial⟩
    have hc0 : c = 0 := by
      simp only [smGet] at hc
      split at hc
      · exact absurd (Eq.symm (by assumption)) hne
      · split at hc
        · cases hc; rfl
        · cases hc
    subst hc0
    cases hr2 with
    | refl => obtain ⟨_, _, h⟩ := hx; cases h
    | step ho hm _ => cases ho; simp [Obj.refs] at hm
  · intro x hr hx
    cases hr with
    | refl => obtain ⟨_, _, h⟩ := hx; cases h
    | step ho hm _ => cases ho; simp [Obj.refs] at hm

/-- Finding: with aliasing (one dictionary stored under two keys), `Add` below one key also changes the other. -/
theorem C51_alias :
    ∃ h', addH (Heap.base ++ [.dict 0 [], .dict 0 [(b!"a", some 3), (b!"b", some 3)]]) 4 (some 1) [b!"a", b!"k"] = some (none, h') ∧
      (J.dict 0 [(b!"a", .dict 0 [(b!"k", .bool true)]), (b!"b", .dict 0 [(b!"k", .bool true)])]).Seen h' 4 := by
  refine ⟨Heap.base ++ [.dict 0 [(b!"k", some 1)], .dict 0 [(b!"a", some 3), (b!"b", some 3)]], by decide, ?_⟩
  simp only [J.At, J.Atf]
  exact ⟨trivial, _, rfl, 3, _, rfl, ⟨trivial, _, rfl, 1, _, rfl, ⟨trivial, rfl⟩, rfl⟩, 3, _, rfl,
    ⟨trivial, _, rfl, 1, _, rfl, ⟨trivial, rfl⟩, rfl⟩, rfl⟩

theorem set_other {h : Heap} {d c : Addr} {o o' : Obj} (hd : h[d]? = some o) (hc : h[c]? ≠ some o) : (h.set d o')[c]? = h[c]? := by
  by_cases he : c = d
  · subst he; exact absurd hd hc
  · exact List.getElem?_set_ne (Ne.symm he)

mutual
theorem floatText_seen {h : Heap} {d : Addr} {x : GoFloat} {b b' : Nat} (hd : h[d]? = some (.float x b)) (hb : floatBits b' = floatBits b) :
    ∀ (w : J) (c : Addr), w.Seen h c → ∃ w' : J, w'.Seen (h.set d (.float x b')) c ∧ w'.toBytes = w.toBytes
  | .null, c, hw => ⟨.null, ⟨trivial, by rw [set_other hd (by rw [hw.2]; simp)]; exact hw.2⟩, rfl⟩
  | .bool v, c, hw => ⟨.bool v, ⟨trivial, by rw [set_other hd (by rw [hw.2]; simp)]; exact hw.2⟩, rfl⟩
  | .int v, c, hw => ⟨.int v, ⟨trivial, by rw [set_other hd (by rw [hw.2]; simp)]; exact hw.2⟩, rfl⟩
  | .str v, c, hw => ⟨.str v, ⟨trivial, by rw [set_other hd (by rw [hw.2]; simp)]; exact hw.2⟩, rfl⟩
  | .ptr v, c, hw => ⟨.ptr v, ⟨trivial, by rw [set_other hd (by rw [hw.2]; simp)]; exact hw.2⟩, rfl⟩
  | .float y bit, c, hw => by
    by_cases hc : c = d
    · subst hc
      have := hw.2
      rw [hd] at this
      cases this
      refine ⟨.float x b', ⟨trivial, ?_⟩, by simp only [J.toBytes, hb]⟩
      rw [List.getElem?_set_self]
      rcases Nat.lt_or_ge c h.length with hl | hl
      · exact hl
      · rw [List.getElem?_eq_none hl] at hd; cases hd
    · exact ⟨.float y bit, ⟨trivial, by rw [List.getElem?_set_ne (Ne.symm hc)]; exact hw.2⟩, rfl⟩
  | .arr xs, c, hw => by
    obtain ⟨_, rs, h1, h2⟩ := hw
    obtain ⟨ys, h3, h4⟩ := floatText_seens hd hb xs rs h2
    exact ⟨.arr ys, ⟨trivial, rs, by rw [set_other hd (by rw [h1]; simp)]; exact h1, h3⟩, by simp only [J.toBytes, h4]⟩
  | .dict id xs, c, hw => by
    obtain ⟨_, rs, h1, h2⟩ := hw
    obtain ⟨ys, h3, h4⟩ := floatText_seenf hd hb xs rs h2
    exact ⟨.dict id ys, ⟨trivial, rs, by rw [set_other hd (by rw [h1]; simp)]; exact h1, h3⟩, by simp only [J.toBytes, h4]⟩
theorem floatText_seens {h : Heap} {d : Addr} {x : GoFloat} {b b' : Nat} (hd : h[d]? = some (.float x b)) (hb : floatBits b' = floatBits b) :
    ∀ (xs : List J) (rs : List Ref), J.Ats h (fun _ => True) xs rs → ∃ ys, J.Ats (h.set d (.float x b')) (fun _ => True) ys rs ∧
      ∀ first, J.arrBytes ys first = J.arrBytes xs first
  | [], rs, hw => ⟨[], hw, fun _ => rfl⟩
  | y :: xs, rs, hw => by
    obtain ⟨c, rs', rfl, h1, h2⟩ := hw
    obtain ⟨y', h3, h4⟩ := floatText_seen hd hb y c h1
    obtain ⟨ys, h5, h6⟩ := floatText_seens hd hb xs rs' h2
    exact ⟨y' :: ys, ⟨c, rs', rfl, h3, h5⟩, fun first => by simp only [J.arrBytes, h4, h6]⟩
theorem floatText_seenf {h : Heap} {d : Addr} {x : GoFloat} {b b' : Nat} (hd : h[d]? = some (.float x b)) (hb : floatBits b' = floatBits b) :
    ∀ (xs : List (Bytes × J)) (rs : SMap Ref), J.Atf h (fun _ => True) xs rs → ∃ ys, J.Atf (h.set d (.float x b')) (fun _ => True) ys rs ∧
      ∀ first, J.dictBytes ys first = J.dictBytes xs first
  | [], rs, hw => ⟨[], hw, fun _ => rfl⟩
  | (k, y) :: xs, rs, hw => by
    obtain ⟨c, rs', rfl, h1, h2⟩ := hw
    obtain ⟨y', h3, h4⟩ := floatText_seen hd hb y c h1
    obtain ⟨ys, h5, h6⟩ := floatText_seenf hd hb xs rs' h2
    exact ⟨(k, y') :: ys, ⟨c, rs', rfl, h3, h5⟩, fun first => by simp only [J.dictBytes, h4, h6]⟩
end

/-- **C51 (String).** `String()` of a float stores the width it used; this changes the text of no document, also not of those
that contain the float. -/
theorem C51_float_string (h : Heap) (d : Addr) (x : GoFloat) (bit : Nat) (hd : (J.float x bit).Seen h d) :
    ∃ h', floatTextH h d = some h' ∧ ∀ (w : J) c, w.Seen h c → ∃ w' : J, w'.Seen h' c ∧ w'.toBytes = w.toBytes := by
  have hd := hd.2
  refine ⟨h.set d (.float x (if bit = 32 ∨ bit = 64 then bit else 64)), by simp only [floatTextH, hd], fun w c hw => floatText_seen hd ?_ w c hw⟩
  unfold floatBits
  by_cases h1 : bit = 32
  · subst h1; rfl
  · by_cases h2 : bit = 64
    · subst h2; rfl
    · simp [h1, h2]

/-- A float32 in an array. -/
example : (J.arr [.float (.fin false 1 0) 32]).Seen (Heap.base ++ [.float (.fin false 1 0) 32, .arr [some 3]]) 4 ∧
    (J.float (.fin false 1 0) 32).Seen (Heap.base ++ [.float (.fin false 1 0) 32, .arr [some 3]]) 3 :=
  ⟨⟨trivial, _, rfl, 3, _, rfl, ⟨trivial, rfl⟩, rfl⟩, trivial, rfl⟩

end Jsonutils.Props
