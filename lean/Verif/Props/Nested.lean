import Verif.Proofs.Nested
import Verif.Props.Params

/-!
# C83: query strings with dotted keys
-/

namespace Jsonutils.Props
open Rfc

/-- **C83.** A query string whose keys have no numbers behind the first dot is never an error.  Of the result: following the pieces of a
key one arrives at its text (the array of its texts, if it has several values), unless a shorter key stops on the way; there is nothing
else but the dictionaries on the way. -/
theorem C83_nested {str : Bytes} {kvs : List (Bytes × Bytes)} (h : IsQuery str kvs) (hk : ∀ e ∈ kvs, NestedKey e.1) :
    ∃ d, parseQueryString str = .ok (.dict 0 d) ∧
      (∀ ps w, ¬ w.IsDict → (Walks (.dict 0 d) ps w ↔ ∃ key, Pieces key ps ∧ Unblocked kvs ps ∧ FromValues (valuesOf kvs key) w)) ∧
      (∀ ps, (∃ w, J.IsDict w ∧ Walks (.dict 0 d) ps w) ↔ ps = [] ∨ ∃ qs, KeyPath kvs qs ∧ Unblocked kvs qs ∧ ps <+: qs ∧ ps ≠ qs) := by
  obtain ⟨b, L, h1, h2, h3, h4⟩ := nested_query h hk
  obtain ⟨d, rfl, hd⟩ := rootQ_dict h2
  have hleaf : ∀ ps w, (J.dict 0 d).leafAt ps = some w ↔ KeyPath kvs ps ∧ Unblocked kvs ps ∧ FromValues (valuesOf kvs (joinWith [46] ps)) w := by
    intro ps w
    rw [h3 ps w, h4]
    refine and_congr_right fun _ => and_congr_left fun _ => ?_
    exact ⟨fun h qs hq => h qs ((h4 qs).2 hq), fun h qs hq => h qs ((h4 qs).1 hq)⟩
  refine ⟨d, h1, fun ps w hw => ?_, fun ps => ?_⟩
  · rw [walks_leafAt hw, hleaf]
    constructor
    · rintro ⟨⟨key, v, _, hp⟩, hu, hf⟩
      have : joinWith [46] ps = key := by rw [joinWith_eq]; exact hp.2.2
      rw [this] at hf
      exact ⟨key, hp, hu, hf⟩
    · rintro ⟨key, hp, hu, hf⟩
      have : joinWith [46] ps = key := by rw [joinWith_eq]; exact hp.2.2
      rw [this]
      have hne : valuesOf kvs key ≠ [] := by
        rcases hf with ⟨v, hv, _⟩ | ⟨hv, _⟩
        · rw [hv]; simp
        · intro he; rw [he] at hv; simp at hv
      obtain ⟨e, he, rfl⟩ := List.mem_map.1 ((valuesOf_ne_nil kvs key).1 hne)
      exact ⟨⟨e.1, e.2, he, hp⟩, hu, hf⟩
  · cases ps with
    | nil => simp only [true_or, iff_true]; exact ⟨.dict 0 d, trivial, .here _⟩
    | cons k ks =>
      rcases h2 with ⟨h2, _⟩ | h2
      · rw [dict_leaf _ _ h2]
        constructor
        · rintro ⟨r, w, hr, hw⟩
          obtain ⟨a, b, _⟩ := (hleaf _ _).1 hw
          refine Or.inr ⟨_, a, b, List.prefix_append _ _, fun he => hr ?_⟩
          have := congrArg List.length he
          simp only [List.length_append] at this
          exact List.length_eq_zero_iff.1 (by omega)
        · rintro (hc | ⟨qs, a, b, ⟨r, rfl⟩, hne⟩)
          · cases hc
          · obtain ⟨key, v, hm, hp⟩ := a
            have : joinWith [46] (k :: ks ++ r) = key := by rw [joinWith_eq]; exact hp.2.2
            have hv : valuesOf kvs (joinWith [46] (k :: ks ++ r)) ≠ [] := by
              rw [this, valuesOf_ne_nil]; exact List.mem_map.2 ⟨_, hm, rfl⟩
            obtain ⟨w, _, _, hw⟩ := queryLeaf_leafQ hv
            exact ⟨r, w, fun hr => hne (by simp [hr]), (hleaf _ _).2 ⟨⟨key, v, hm, hp⟩, b, hw⟩⟩
      · cases h2
        constructor
        · rintro ⟨w, _, hw⟩
          cases hw with
          | step hg _ => cases hg
        · rintro (hc | ⟨qs, a, b, _, _⟩)
          · cases hc
          · exfalso
            obtain ⟨key, v, hm, hp⟩ := a
            have : joinWith [46] qs = key := by rw [joinWith_eq]; exact hp.2.2
            have hv : valuesOf kvs (joinWith [46] qs) ≠ [] := by
              rw [this, valuesOf_ne_nil]; exact List.mem_map.2 ⟨_, hm, rfl⟩
            obtain ⟨w, _, _, hw⟩ := queryLeaf_leafQ hv
            have := (hleaf qs w).2 ⟨⟨key, v, hm, hp⟩, b, hw⟩
            cases qs <;> simp [J.leafAt, smGet] at this

/-- **C83, nothing is lost if no key continues another**: every parameter is found by `Get` with the pieces of its key. -/
theorem C83_get {str : Bytes} {kvs : List (Bytes × Bytes)} (h : IsQuery str kvs) (hk : ∀ e ∈ kvs, NestedKey e.1)
    (hp : ∀ ps qs, KeyPath kvs ps → KeyPath kvs qs → ps <+: qs → ps = qs) :
    ∃ v, parseQueryString str = .ok v ∧ ∀ key x ps, (key, x) ∈ kvs → Pieces key ps →
      ∃ w, v.get ps = .ok w ∧ FromValues (valuesOf kvs key) w := by
  obtain ⟨d, h1, h2, _⟩ := C83_nested h hk
  refine ⟨_, h1, fun key x ps hm hps => ?_⟩
  have hv : valuesOf kvs key ≠ [] := by rw [valuesOf_ne_nil]; exact List.mem_map.2 ⟨_, hm, rfl⟩
  obtain ⟨w, _, hl, hw⟩ := queryLeaf_leafQ hv
  exact ⟨w, ((C26_get 0 d ps).1 w).2 ((h2 ps w (leafQ_notDict hl)).2 ⟨key, hps, fun qs hq hpre => hp qs ps hq ⟨key, x, hm, hps⟩ hpre, hw⟩), hw⟩

/-- **C83, with numbers it is different**: behind a key with two values, its number of values as a further piece appends to the array;
`0` as a further piece makes an array; a gap in the numbers drops the parameter. -/
theorem C83_numbers :
    parseQueryString b!"a=1&a=2&a.2=3" = .ok (.dict 0 [(b!"a", .arr [.str b!"1", .str b!"2", .str b!"3"])]) ∧
    parseQueryString b!"a.0=1&a.1=2" = .ok (.dict 0 [(b!"a", .arr [.str b!"1", .str b!"2"])]) ∧
    parseQueryString b!"a.0=1&a.2=2" = .ok (.dict 0 [(b!"a", .arr [.str b!"1"])]) ∧
    parseQueryString b!"a.01=1" = .error .nilInput := ⟨rfl, rfl, rfl, rfl⟩

/-- A list of parameters as C83 wants it: nested keys, one of which (`a.b.x`) another one (`a.b`) blocks, and a key with two values. -/
example : let kvs := [(b!"d", b!"x"), (b!"a.b.x", b!"3"), (b!"a.c", b!"2"), (b!"d", b!"y"), (b!"a.b", b!"1")]
    IsQuery b!"d=x&a.b.x=3&a.c=2&d=y&a.b=1" kvs ∧ (∀ e ∈ kvs, NestedKey e.1) ∧ ¬ Unblocked kvs [b!"a", b!"b", b!"x"] ∧
    parseQueryString b!"d=x&a.b.x=3&a.c=2&d=y&a.b=1" =
      .ok (.dict 0 [(b!"a", .dict 0 [(b!"b", .str b!"1"), (b!"c", .str b!"2")]), (b!"d", .arr [.str b!"x", .str b!"y"])]) := by
  have par : ∀ (a b k v : Bytes), (59 : UInt8) ∉ a ++ 61 :: b → (61 : UInt8) ∉ a → queryUnescape a = some k → queryUnescape b = some v → Param (a ++ 61 :: b) k v :=
    fun a b k v h1 h2 h3 h4 => ⟨by simp, h1, Or.inl ⟨a, b, rfl, h2, (queryUnescape_iff _ _).1 h3, (queryUnescape_iff _ _).1 h4⟩⟩
  have num : ∀ p : Bytes, parseInt p = none → ¬ ∃ n, IsNumber p n := by
    rintro p hp ⟨n, hn⟩; rw [(parseInt_iff p n).2 hn] at hp; cases hp
  have nk : ∀ key : Bytes, ((splitOn 46 key).all fun p => (parseInt p).isNone) = true → NestedKey key := by
    intro key hkey k ks hp
    rw [pieces_iff] at hp
    rw [hp, List.all_eq_true] at hkey
    have hno : ∀ p ∈ k :: ks, ¬ ∃ n, IsNumber p n := fun p hp' => num p (by simpa using hkey p hp')
    refine ⟨⟨?_, fun n hn => absurd ⟨n, hn⟩ (hno k (List.mem_cons_self ..))⟩, fun p hp' => hno p (List.mem_cons_of_mem _ hp')⟩
    exact splitOn_pieces 46 key k (by rw [hp]; exact List.mem_cons_self ..)
  refine ⟨⟨[b!"d=x", b!"a.b.x=3", b!"a.c=2", b!"d=y", b!"a.b=1"], by simp, by decide, rfl, ?_⟩, ?_, ?_, rfl⟩
  · exact .cons (par b!"d" b!"x" _ _ (by decide) (by decide) rfl rfl) (.cons (par b!"a.b.x" b!"3" _ _ (by decide) (by decide) rfl rfl)
      (.cons (par b!"a.c" b!"2" _ _ (by decide) (by decide) rfl rfl) (.cons (par b!"d" b!"y" _ _ (by decide) (by decide) rfl rfl)
      (.cons (par b!"a.b" b!"1" _ _ (by decide) (by decide) rfl rfl) .nil))))
  · intro e he
    simp only [List.mem_cons, List.not_mem_nil, or_false] at he
    rcases he with rfl | rfl | rfl | rfl | rfl <;> exact nk _ rfl
  · intro h
    have := h [b!"a", b!"b"] ⟨b!"a.b", b!"1", by simp, (pieces_iff _ _).2 rfl⟩ ⟨[b!"x"], rfl⟩
    exact absurd (congrArg List.length this) (by decide)

end Jsonutils.Props
