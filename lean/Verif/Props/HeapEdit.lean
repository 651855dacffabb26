import Verif.Proofs.HeapEdit
import Verif.Props.HeapRead

/-!
# C79: editing a part of a document in memory
-/

namespace Jsonutils.Props
open Jsonutils

/-- **C79, one call.** A call that changes the object `d` (`Set`, `Remove`, `SetAt`, `JSONArray.Add`, `Update`, the `String` of a float): if
`d` spells a document `w` afterwards, then everything in memory that spelt a document still does, and that document has changed to `w`
exactly where `d` is in it. -/
theorem C79_edit (h : Heap) (c : Call) (d : Addr) (hc : c.target = some d) (w : J) (hw : w.Seen (c.run h) d) (v : J) (a : Addr)
    (hv : v.Seen h a) : ∃ v', J.Seen (c.run h) v' a ∧ Edited h d w a v v' :=
  edit_exists (fun y _ hy => target_keep hc y hy) hw v a hv

/-- **C79, if the object is in one place only.** Then every position that is not on the way to it or below it keeps its value, and its own
position has the new one. -/
theorem C79_once (h : Heap) (d a : Addr) (w v v' : J) (p : List Move) (he : Edited h d w a v v') (hp : Way h a p d)
    (hone : ∀ q, Way h a q d → q = p) :
    v'.Sub p w ∧ ∀ q x, v.Sub q x → ¬ p <+: q → ¬ q <+: p → v'.Sub q x := by
  refine ⟨he.inside p hp, fun q x hx h1 h2 => he.apart q x hx (fun q' r hq hw => ?_) fun r hw => ?_⟩
  · rw [hone q' hw] at hq; exact h1 ⟨r, hq.symm⟩
  · exact h2 ⟨r, hone _ hw⟩

theorem get_way {h : Heap} (ht : h.Tidy) {a d : Addr} {keys : List Bytes} (hg : getH h (some a) keys = .ok (some d)) : Way h a (keys.map .key) d := by
  cases hk : keys with
  | nil =>
    subst hk
    simp only [getH] at hg
    split at hg
    · cases hg
    · cases hg; exact .here _
    · cases hg
  | cons k ks =>
    have hd : DictAt h a := by
      simp only [getH] at hg
      split at hg
      · cases hg
      · exact ⟨_, _, by assumption⟩
      · cases hg
    rw [← hk]
    exact (((C77_get h ht a hd keys (by simp [hk])).1 d).1 hg).way rfl

theorem put_smAdd {kvs : SMap J} (hs : SMap.Sorted kvs) (k : Bytes) (x : J) : IsPut kvs k x (smAdd kvs k x) := by
  refine ⟨sorted_smAdd hs k x, fun k' y => ?_⟩
  rw [← smGet_mem_iff (sorted_smAdd hs k x), smGet_smAdd _ hs, ← smGet_mem_iff hs]
  by_cases hk : k' = k
  · subst hk; simp [eq_comm]
  · simp [hk]

/-- **C79, `Get` and then `Set`.** `root.Get(keys...)` returns the object itself, so setting a key of it edits `root`: the value under the
keys is the dictionary with the new entry, the rest of `root` is as it was (up to further occurrences of the same object), and reading
`root.Get(keys..., k)` gives the object put there. -/
theorem C79_get_set (h : Heap) (ht : h.Tidy) (v : J) (a : Addr) (hv : v.Seen h a) (keys : List Bytes) (d : Addr)
    (hg : getH h (some a) keys = .ok (some d)) (id : Int) (kvs : List (Bytes × J)) (hd : (J.dict id kvs).Seen h d)
    (x : J) (e : Addr) (hx : x.Seen h e) (hn : ¬ Reach h e d) (k : Bytes) :
    ∃ h' v' kvs', setH h d k (some e) = some h' ∧ IsPut kvs k x kvs' ∧ J.Seen h' v' a ∧ v'.Sub (keys.map .key) (.dict id kvs') ∧
      Edited h d (.dict id kvs') a v v' ∧ getH h' (some a) (keys ++ [k]) = .ok (some e) := by
  have hway := get_way ht hg
  have hd0 := hd
  simp only [J.Seen, J.At] at hd0
  obtain ⟨_, rs, ho, hat⟩ := hd0
  have hs := ht _ _ _ ho
  have hsx : SMap.Sorted kvs := Atf_sorted hat hs
  obtain ⟨h', g1, g2, g3, g4⟩ := setH_seen k hsx hd hx hn
  obtain ⟨v', f1, f2⟩ := edit_exists (fun y _ hy => g4 y hy) g2 v a hv
  have ho' : h'[d]? = some (.dict id (smAdd rs k (some e))) := by
    simp only [setH, ho, Option.some.injEq] at g1
    rw [← g1]; exact set_get ho
  have ht' : h'.Tidy := by
    intro b i m hb
    by_cases hbd : b = d
    · subst hbd; rw [ho'] at hb; cases hb; exact sorted_smAdd hs _ _
    · rw [g4 b hbd] at hb; exact ht _ _ _ hb
  have hlast : ∀ q b, Way h b (q.map Move.key) d → b ≠ d ∨ q = [] → Leads h' b (q ++ [k]) (some e) := by
    intro q
    induction q with
    | nil =>
      intro b hb _
      cases hb
      exact .last ho' ((smGet_mem_iff (sorted_smAdd hs _ _)).1 (by rw [smGet_smAdd _ hs]; simp))
    | cons q0 q ih =>
      intro b hb hne
      have hne : b ≠ d := by rcases hne with h | h; exact h; cases h
      cases hb with
      | @key _ c _ i m _ _ j1 j2 j3 =>
        have hc : c ≠ d ∨ q = [] := by
          by_cases hcd : c = d
          · subst hcd
            right
            simpa using way_self hd j3
          · exact Or.inl hcd
        have := ih c j3 hc
        cases hqk : q ++ [k] with
        | nil => simp at hqk
        | cons z zs => rw [hqk] at this; rw [List.cons_append, hqk]; exact .step (by rw [g4 b hne]; exact j1) j2 this
  have hda : DictAt h' a := by
    cases keys with
    | nil => cases hway; exact ⟨_, _, ho'⟩
    | cons k0 ks =>
      cases hway with
      | key j1 j2 j3 =>
        by_cases had : a = d
        · subst had; exact ⟨_, _, ho'⟩
        · exact ⟨_, _, by rw [g4 a had]; exact j1⟩
  refine ⟨h', v', smAdd kvs k x, g1, put_smAdd hsx k x, f1, f2.inside _ hway, f2, ?_⟩
  refine ((C77_get h' ht' a hda (keys ++ [k]) (by simp)).1 e).2 (hlast keys a hway ?_)
  by_cases had : a = d
  · right; subst had; simpa using way_self hd hway
  · exact Or.inl had

/-- **C79, `Get` and then any change.** -/
theorem C79_get_edit (h : Heap) (ht : h.Tidy) (v : J) (a : Addr) (hv : v.Seen h a) (keys : List Bytes) (d : Addr)
    (hg : getH h (some a) keys = .ok (some d)) (c : Call) (hc : c.target = some d) (w : J) (hw : w.Seen (c.run h) d) :
    ∃ v', J.Seen (c.run h) v' a ∧ v'.Sub (keys.map .key) w ∧ Edited h d w a v v' := by
  obtain ⟨v', h1, h2⟩ := C79_edit h c d hc w hw v a hv
  exact ⟨v', h1, h2.inside _ (get_way ht hg), h2⟩

/-- **C79, `Add(o, path...)`, whatever is shared.** If it succeeds, it has changed one existing dictionary `t`, which a part `p` of the path
leads to: under the next key `k` there is now the new value, below new dictionaries for the remaining keys (`k` was missing, or the shared
null, or the last key).  Every document in memory has changed exactly where `t` is in it. -/
theorem C79_add (h : Heap) (ht : h.Tidy) (d : Addr) (u : J) (hu : u.Seen h d) (w : J) (o : Addr) (hw : w.Seen h o) (path : List Bytes)
    (hp : path ≠ []) (hsep : ∀ p t, p <+: path → Way h d (p.map .key) t → DictAt h t → ¬ Reach h o t) (h' : Heap)
    (hadd : addH h d (some o) path = some (none, h')) :
    ∃ p k rest t id kvs kvs', path = p ++ k :: rest ∧ Way h d (p.map .key) t ∧ (J.dict id kvs).Seen h t ∧
      (rest = [] ∨ (∀ x, (k, x) ∉ kvs) ∨ Way h t [.key k] nullAddr) ∧ IsPut kvs k (nest rest w) kvs' ∧
      ∀ (v : J) a, v.Seen h a → ∃ v', J.Seen h' v' a ∧ Edited h t (.dict id kvs') a v v' := by
  obtain ⟨p, k, rest, t, id, kvs, h1, h2, h3, h4, h5, h6⟩ := addH_edits w o path h d u h' hp ht hu hw hsep hadd
  have h3' := h3
  simp only [J.Seen, J.At] at h3'
  obtain ⟨_, rs, ho, hat⟩ := h3'
  exact ⟨p, k, rest, t, id, kvs, _, h1, h2, h3, h4, put_smAdd (Atf_sorted hat (ht _ _ _ ho)) k _, fun v a hv => edit_exists h6 h5 v a hv⟩

/-- **C79, when `Add` fails.** Exactly if a part of the path leads to something that is neither a dictionary nor the shared null, a nil
variable included.  The error is then `ErrInvalidJsonDict`, and nothing has changed. -/
theorem C79_add_fails (h : Heap) (hok : h.Ok) (ht : h.Tidy) (d : Addr) (o : Ref) (path : List Bytes) (e : AErr) (h' : Heap) :
    addH h d o path = some (some e, h') ↔
      e = .invalidDict ∧ h' = h ∧ ∃ p q r, path = p ++ q ∧ q ≠ [] ∧ Leads h d p r ∧ ¬ IsDict h r ∧ r ≠ some nullAddr := by
  constructor
  · exact addH_fails o path h d e h' ht
  · rintro ⟨rfl, rfl, p, q, r, rfl, hq, hl, hd, hn⟩
    refine addH_stops o ht ?_ hl hd hn q hq
    obtain ⟨t, rfl⟩ := hok.base
    rintro ⟨_, _, h0⟩
    cases h0

/-- A nil entry blocks the way. -/
example : let h : Heap := Heap.base ++ [.dict 0 [(b!"a", none)]]
    h.Ok ∧ h.Tidy ∧ addH h 3 (some 1) [b!"a", b!"b"] = some (some .invalidDict, h) ∧ Leads h 3 [b!"a"] none := by
  refine ⟨⟨⟨_, rfl⟩, ?_⟩, ?_, rfl, .last rfl (List.mem_cons_self ..)⟩
  · intro o ho b hb
    simp only [Heap.base, List.cons_append, List.nil_append, List.mem_cons, List.not_mem_nil, or_false] at ho
    rcases ho with rfl | rfl | rfl | rfl <;> simp [Obj.refs] at hb
  · intro a id kvs ha
    have hm := List.mem_of_getElem? ha
    simp only [Heap.base, List.cons_append, List.nil_append, List.mem_cons, List.not_mem_nil, or_false, reduceCtorEq, false_or, Obj.dict.injEq] at hm
    obtain ⟨_, rfl⟩ := hm
    simp only [SMap.Sorted]; decide

/-- A dictionary shared by two members: `{"a":{},"b":{}}`, `root.Get("a")` and `Set("k", true)` on it changes both; `Add(true, "a", "k")` as well.
In the second memory the two are different objects, and only one changes. -/
theorem C79_shared :
    let h : Heap := Heap.base ++ [.dict 0 [], .dict 0 [(b!"a", some 3), (b!"b", some 3)]]
    let h2 : Heap := Heap.base ++ [.dict 0 [], .dict 0 [], .dict 0 [(b!"a", some 3), (b!"b", some 4)]]
    getH h (some 4) [b!"a"] = .ok (some 3) ∧
    (∃ h', setH h 3 b!"k" (some 1) = some h' ∧ addH h 4 (some 1) [b!"a", b!"k"] = some (none, h') ∧
      (J.dict 0 [(b!"a", .dict 0 [(b!"k", .bool true)]), (b!"b", .dict 0 [(b!"k", .bool true)])]).Seen h' 4) ∧
    getH h2 (some 5) [b!"a"] = .ok (some 3) ∧
    (∃ h', setH h2 3 b!"k" (some 1) = some h' ∧
      (J.dict 0 [(b!"a", .dict 0 [(b!"k", .bool true)]), (b!"b", .dict 0 [])]).Seen h' 5) := by
  refine ⟨by decide, ⟨Heap.base ++ [.dict 0 [(b!"k", some 1)], .dict 0 [(b!"a", some 3), (b!"b", some 3)]], by decide, by decide, ?_⟩, by decide,
    ⟨Heap.base ++ [.dict 0 [(b!"k", some 1)], .dict 0 [], .dict 0 [(b!"a", some 3), (b!"b", some 4)]], by decide, ?_⟩⟩
  · simp only [J.At, J.Atf]
    exact ⟨trivial, _, rfl, 3, _, rfl, ⟨trivial, _, rfl, 1, _, rfl, ⟨trivial, rfl⟩, rfl⟩, 3, _, rfl,
      ⟨trivial, _, rfl, 1, _, rfl, ⟨trivial, rfl⟩, rfl⟩, rfl⟩
  · simp only [J.At, J.Atf]
    exact ⟨trivial, _, rfl, 3, _, rfl, ⟨trivial, _, rfl, 1, _, rfl, ⟨trivial, rfl⟩, rfl⟩, 4, _, rfl, ⟨trivial, _, rfl, rfl⟩, rfl⟩

/-- The hypotheses of `C79_get_set`, `C79_once` and `C79_add` hold there. -/
example : let h2 : Heap := Heap.base ++ [.dict 0 [], .dict 0 [], .dict 0 [(b!"a", some 3), (b!"b", some 4)]]
    h2.Tidy ∧ (J.dict 0 [(b!"a", .dict 0 []), (b!"b", .dict 0 [])]).Seen h2 5 ∧ (J.dict 0 []).Seen h2 3 ∧ (J.bool true).Seen h2 1 ∧
      (∀ t, DictAt h2 t → ¬ Reach h2 1 t) ∧ Way h2 5 [.key b!"a"] 3 ∧ (∀ q, Way h2 5 q 3 → q = [.key b!"a"]) := by
  refine ⟨?_, ?_, ⟨trivial, _, rfl, rfl⟩, ⟨trivial, rfl⟩, ?_, .key rfl (List.mem_cons_self ..) (.here 3), ?_⟩
  · intro a id kvs ha
    have hm := List.mem_of_getElem? ha
    simp only [Heap.base, List.cons_append, List.nil_append, List.mem_cons, List.not_mem_nil, or_false, reduceCtorEq, false_or, Obj.dict.injEq] at hm
    rcases hm with ⟨_, rfl⟩ | ⟨_, rfl⟩ | ⟨_, rfl⟩ <;> simp only [SMap.Sorted] <;> decide
  · simp only [J.Seen, J.At, J.Atf]
    exact ⟨trivial, _, rfl, 3, _, rfl, ⟨trivial, _, rfl, rfl⟩, 4, _, rfl, ⟨trivial, _, rfl, rfl⟩, rfl⟩
  · intro t ht hr
    cases hr with
    | refl => obtain ⟨_, _, h⟩ := ht; cases h
    | step ho hm _ => cases ho; simp [Obj.refs] at hm
  · intro q hq
    cases hq with
    | key h1 h2 h3 =>
      cases h1
      simp only [List.mem_cons, List.not_mem_nil, or_false, Prod.mk.injEq, Option.some.injEq] at h2
      rcases h2 with ⟨rfl, rfl⟩ | ⟨rfl, rfl⟩
      · cases h3 with
        | here => rfl
        | key j1 j2 => cases j1; simp at j2
        | elem j1 => cases j1
      · cases h3 with
        | key j1 j2 => cases j1; simp at j2
        | elem j1 => cases j1
    | elem h1 => cases h1

end Jsonutils.Props
