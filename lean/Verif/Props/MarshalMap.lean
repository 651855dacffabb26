import Verif.Proofs.MarshalShuffle
import Verif.Proofs.StrconvInt

/-!
# Marshal of Go maps: C72

`marshalU sort ord pick oe h fuel v`: `Marshal(v)` for `oe`, `MarshalAll(v)` for `¬oe`.  Maps come with their entries in the
(arbitrary) order in which Go lists them; `sort` is `sort.Sort`; `ord` and `pick` are iteration orders of other Go maps.
-/

namespace Jsonutils.Props

variable {ord : SMap Bytes → List (Bytes × Bytes)} {pick : List Nat → Nat} {sort sort' : List (MapKey × GV) → List (MapKey × GV)} {oe : Bool} {h h' : List GU}

/-- **C72, order.** If all maps have keys of string kind, the document is the same whatever the order in which Go lists
their entries, node ids and references included, also in cyclic memory. -/
theorem C72_order (hs : GoSort sort) (hs' : GoSort sort') {u u' : GU} (hu : u.Same u') (hh : GU.Sames h h') (hk : u.TextKeys) (hkh : ∀ x ∈ h, x.TextKeys) (n : Nat) :
    marshalU sort ord pick oe h n u = marshalU sort' ord pick oe h' n u' := by
  have : GU.TextKeyss h := by
    clear hh
    induction h with
    | nil => simp [GU.TextKeyss]
    | cons x xs ih =>
      rw [GU.TextKeyss]
      exact ⟨hkh x (by simp), ih fun y hy => hkh y (List.mem_cons_of_mem _ hy)⟩
  unfold marshalU
  rw [walk_same hs hs' hu hk, walks_same hs hs' hh this]

/-- **C72, order, any keys.** On acyclic values it is enough that no two keys of a map are written alike: the document
depends neither on the order in which Go lists the maps, nor on what `sort.Sort` does with ties, nor on any other iteration
order. -/
theorem C72_acyclic_order (hs : GoSort sort) (hs' : GoSort sort') (hord : ∀ dep, (ord dep).Perm dep) {ord' : SMap Bytes → List (Bytes × Bytes)}
    {pick' : List Nat → Nat} (hord' : ∀ dep, (ord' dep).Perm dep) {u u' : GU} (hu : u.Same u') (hh : GU.Sames h h') (hk : u.KeysApart) (hkh : ∀ x ∈ h, x.KeysApart)
    (hac : GU.AcyclicIn sort h u) {n n' : Nat} {j j' : J} (hm : marshalU sort ord pick oe h n u = some j)
    (hm' : marshalU sort' ord' pick' oe h' n' u' = some j') : j = j' := by
  have hkh' : GU.KeysAparts h := by
    clear hh hac hm
    induction h with
    | nil => simp [GU.KeysAparts]
    | cons x xs ih =>
      rw [GU.KeysAparts]
      exact ⟨hkh x (by simp), ih fun y hy => hkh y (List.mem_cons_of_mem _ hy)⟩
  obtain ⟨t, ht⟩ := hac
  obtain ⟨t', ht', hsh⟩ := unf_shuf (sames_shuf hs hs' hh hkh') ht _ (same_shuf hs hs' hu hk)
  obtain ⟨o, h1, h2⟩ := marshal_tree ht hm
  obtain ⟨o', h3, h4⟩ := marshal_tree ht' hm'
  rw [← mar_shuf hsh] at h3
  have := mar_ord hord hord' t none o o' h1 h3
  rw [← h2, ← h4, this]

/-- **C72, what a map becomes.** A dictionary without id.  A key is missing exactly if all entries that are written with it
are empty and the call is `Marshal`; otherwise it holds what the value of one such entry marshals to by itself: one whose key
sorts last among those not dropped. -/
theorem C72_map (hs : GoSort sort) {kvs : List (MapKey × GU)} (hac : GU.AcyclicIn sort h (.map kvs)) {n : Nat} {j : J}
    (hm : marshalU sort ord pick oe h n (.map kvs) = some j) :
    ∃ m, j = .dict 0 m ∧ SMap.Sorted m ∧ ∀ k,
      (smGet m k = none ↔ ∀ e ∈ kvs, e.1.shown = k → oe = true ∧ e.2.IsEmptyIn sort h) ∧
      ∀ v, smGet m k = some v → ∃ e ∈ kvs, e.1.shown = k ∧ (∃ n', marshalU sort ord pick oe h n' e.2 = some v) ∧
        ¬ (oe = true ∧ e.2.IsEmptyIn sort h) ∧
        ∀ e' ∈ kvs, e'.1.shown = k → blt e.1.sortText e'.1.sortText = true → oe = true ∧ e'.2.IsEmptyIn sort h := by
  have hac' : Acyclic (GU.walks sort h) (.map ((sort (GU.walkm sort kvs)).map fun e => (e.1.shown, e.2))) := by
    simpa only [GU.AcyclicIn, GU.walk] using hac
  have hm' : marshal ord pick oe (GU.walks sort h) n (.map ((sort (GU.walkm sort kvs)).map fun e => (e.1.shown, e.2))) = some j := by
    simpa only [marshalU, GU.walk] using hm
  obtain ⟨hp, hsrt⟩ := hs (GU.walkm sort kvs)
  obtain ⟨m, h1, h2, h3⟩ := marshal_map hac' hm'
  have hmem : ∀ e : MapKey × GV, e ∈ sort (GU.walkm sort kvs) ↔ ∃ p ∈ kvs, (p.1, p.2.walk sort) = e := fun e => by
    rw [hp.mem_iff, walkm_eq, List.mem_map]
  refine ⟨m, h1, h2, fun k => ?_⟩
  obtain ⟨h4, h5⟩ := h3 k
  refine ⟨h4.trans ⟨fun g e he hk => ?_, fun g x hx => ?_⟩, fun v hv => ?_⟩
  · exact g _ (List.mem_map.2 ⟨_, (hmem _).2 ⟨e, he, rfl⟩, by rw [← hk]⟩)
  · obtain ⟨e, he, hke⟩ := List.mem_map.1 hx
    obtain ⟨p, hpm, hpe⟩ := (hmem e).1 he
    subst hpe
    injection hke with hk hx'
    subst hx'
    exact g p hpm hk
  · obtain ⟨pre, x, post, e1, e2, e3, e4⟩ := h5 v hv
    obtain ⟨pre', rest, f1, f2, f3⟩ := List.map_eq_append_iff.1 e1
    obtain ⟨e, post', g1, g2, g3⟩ := List.map_eq_cons_iff.1 f3
    obtain ⟨p, hpm, hpe⟩ := (hmem e).1 (by rw [f1, g1]; simp)
    subst hpe
    injection g2 with hk hx'
    subst hx'
    refine ⟨p, hpm, hk, ⟨e2.choose, e2.choose_spec⟩, e3, fun p' hp' hk' hlt => ?_⟩
    have hin : (p'.1, p'.2.walk sort) ∈ sort (GU.walkm sort kvs) := (hmem _).2 ⟨p', hp', rfl⟩
    rw [f1, g1] at hin hsrt
    rw [List.pairwise_append] at hsrt
    rcases List.mem_append.1 hin with hin | hin
    · have := hsrt.2.2 _ hin (p.1, p.2.walk sort) (by simp)
      rw [hlt] at this; cases this
    rcases List.mem_cons.1 hin with hin | hin
    · injection hin with a b
      rw [a, blt_irrefl] at hlt; cases hlt
    · exact e4 _ (by rw [← g3]; exact List.mem_map.2 ⟨_, hin, by rw [hk']⟩)

/-- **C72, entries apart.** If no two keys are written alike, every entry is in the document by itself, under its key as
written; there are no other keys. -/
theorem C72_entries (hs : GoSort sort) {kvs : List (MapKey × GU)} (hd : (kvs.map (·.1.shown)).Nodup) (hac : GU.AcyclicIn sort h (.map kvs)) {n : Nat} {j : J}
    (hm : marshalU sort ord pick oe h n (.map kvs) = some j) :
    ∃ m, j = .dict 0 m ∧
      (∀ e ∈ kvs, (smGet m e.1.shown = none ↔ oe = true ∧ e.2.IsEmptyIn sort h) ∧
        ∀ v, smGet m e.1.shown = some v → ∃ n', marshalU sort ord pick oe h n' e.2 = some v) ∧
      ∀ k v, smGet m k = some v → ∃ e ∈ kvs, e.1.shown = k := by
  have huniq : ∀ e ∈ kvs, ∀ e' ∈ kvs, e.1.shown = e'.1.shown → e = e' := by
    clear hm hac
    induction kvs with
    | nil => simp
    | cons a l ih =>
      rw [List.map_cons, List.nodup_cons] at hd
      intro e he e' he' hee
      rcases List.mem_cons.1 he with h1 | h1 <;> rcases List.mem_cons.1 he' with h2 | h2
      · rw [h1, h2]
      · subst h1; exact absurd (List.mem_map.2 ⟨e', h2, hee.symm⟩) hd.1
      · subst h2; exact absurd (List.mem_map.2 ⟨e, h1, hee⟩) hd.1
      · exact ih hd.2 e h1 e' h2 hee
  obtain ⟨m, h1, _, h3⟩ := C72_map hs hac hm
  refine ⟨m, h1, fun e he => ⟨(h3 e.1.shown).1.trans ⟨fun g => g e he rfl, fun g e' he' hk => ?_⟩, fun v hv => ?_⟩, fun k v hv => ?_⟩
  · rw [huniq e' he' e he hk]; exact g
  · obtain ⟨e', he', hk, hn, _⟩ := (h3 e.1.shown).2 v hv
    rw [huniq e' he' e he hk] at hn; exact hn
  · obtain ⟨e, he, hk, _⟩ := (h3 k).2 v hv
    exact ⟨e, he, hk⟩

/-- **C72, texts.** Keys of string kind without methods are written as they are: every entry is found under its key. -/
theorem C72_text_keys (hs : GoSort sort) {kvs : List (Bytes × GU)} (hd : (kvs.map (·.1)).Nodup)
    (hac : GU.AcyclicIn sort h (.map (kvs.map fun e => (.text e.1 none, e.2)))) {n : Nat} {j : J}
    (hm : marshalU sort ord pick oe h n (.map (kvs.map fun e => (.text e.1 none, e.2))) = some j) :
    ∃ m, j = .dict 0 m ∧
      (∀ s x, (s, x) ∈ kvs → (smGet m s = none ↔ oe = true ∧ x.IsEmptyIn sort h) ∧
        ∀ v, smGet m s = some v → ∃ n', marshalU sort ord pick oe h n' x = some v) ∧
      ∀ s v, smGet m s = some v → ∃ x, (s, x) ∈ kvs := by
  obtain ⟨m, h1, h2, h3⟩ := C72_entries hs (by rw [List.map_map]; exact hd) hac hm
  refine ⟨m, h1, fun s x hx => h2 (.text s none, x) (List.mem_map.2 ⟨_, hx, rfl⟩), fun s v hv => ?_⟩
  obtain ⟨e, he, hk⟩ := h3 s v hv
  obtain ⟨p, hp, rfl⟩ := List.mem_map.1 he
  exact ⟨p.2, by rw [← hk]; exact hp⟩

/-- **C72, integers.** Integer keys without methods are written as `%!s(int=5)`: every entry is there, under that key, and
none under its number. -/
theorem C72_int_keys (hs : GoSort sort) (ty : Bytes) {kvs : List (Int × GU)} (hd : (kvs.map (·.1)).Nodup)
    (hac : GU.AcyclicIn sort h (.map (kvs.map fun e => (.int ty e.1 none, e.2)))) {n : Nat} {j : J}
    (hm : marshalU sort ord pick oe h n (.map (kvs.map fun e => (.int ty e.1 none, e.2))) = some j) :
    ∃ m, j = .dict 0 m ∧
      (∀ i x, (i, x) ∈ kvs →
        (smGet m (b!"%!s(" ++ ty ++ b!"=" ++ intDec i ++ b!")") = none ↔ oe = true ∧ x.IsEmptyIn sort h) ∧
        ∀ v, smGet m (b!"%!s(" ++ ty ++ b!"=" ++ intDec i ++ b!")") = some v → ∃ n', marshalU sort ord pick oe h n' x = some v) ∧
      ∀ i : Int, smGet m (intDec i) = none := by
  have hinj : ∀ a b : Int, (MapKey.int ty a none).shown = (MapKey.int ty b none).shown → a = b := by
    intro a b hab
    simp only [MapKey.shown, List.append_assoc, List.append_cancel_left_eq] at hab
    exact intDec_inj (List.append_cancel_right hab)
  obtain ⟨m, h1, h2, h3⟩ := C72_entries hs (by
    rw [List.map_map]
    have : (kvs.map (·.1)).Pairwise (· ≠ ·) := hd
    rw [List.pairwise_map] at this
    refine List.pairwise_map.2 (this.imp fun {a b} hab hc => hab (hinj _ _ hc))) hac hm
  refine ⟨m, h1, fun i x hx => h2 (.int ty i none, x) (List.mem_map.2 ⟨_, hx, rfl⟩), fun i => ?_⟩
  cases hv : smGet m (intDec i) with
  | none => rfl
  | some v =>
    obtain ⟨e, he, hk⟩ := h3 _ v hv
    obtain ⟨p, hp, rfl⟩ := List.mem_map.1 he
    have : (37 : UInt8) ∈ intDec i := by rw [← hk]; simp [MapKey.shown]
    rcases intDec_chars i _ this with h | h <;> exact absurd h (by decide)

/-! ### The hypotheses can be met -/

/-- An insertion sort; entries that tie stay in the order of the list. -/
def insKey (e : MapKey × GV) : List (MapKey × GV) → List (MapKey × GV)
  | [] => [e]
  | f :: l => if blt f.1.sortText e.1.sortText then f :: insKey e l else e :: f :: l
def sortKeys : List (MapKey × GV) → List (MapKey × GV)
  | [] => []
  | e :: l => insKey e (sortKeys l)

theorem insKey_perm (e : MapKey × GV) (l : List (MapKey × GV)) : (insKey e l).Perm (e :: l) := by
  induction l with
  | nil => exact List.Perm.refl _
  | cons f l ih =>
    simp only [insKey]
    split
    · exact (ih.cons f).trans (List.Perm.swap e f l)
    · exact List.Perm.refl _

theorem sortKeys_sorts : GoSort sortKeys := by
  intro l
  induction l with
  | nil => exact ⟨List.Perm.refl _, List.Pairwise.nil⟩
  | cons e l ih =>
    refine ⟨(insKey_perm e _).trans (ih.1.cons e), ?_⟩
    have key : ∀ m : List (MapKey × GV), m.Pairwise (fun a b => blt b.1.sortText a.1.sortText = false) →
        (insKey e m).Pairwise (fun a b => blt b.1.sortText a.1.sortText = false) := by
      intro m hm
      induction m with
      | nil => simp [insKey]
      | cons f m ih =>
        rw [List.pairwise_cons] at hm
        simp only [insKey]
        split
        · rename_i hfe
          refine List.pairwise_cons.2 ⟨fun b hb => ?_, ih hm.2⟩
          rcases List.mem_cons.1 ((insKey_perm e m).mem_iff.1 hb) with hb | hb
          · subst hb; exact blt_asymm hfe
          · exact hm.1 b hb
        · rename_i hfe
          simp only [Bool.not_eq_true] at hfe
          refine List.pairwise_cons.2 ⟨fun b hb => ?_, List.pairwise_cons.2 hm⟩
          rcases List.mem_cons.1 hb with hb | hb
          · subst hb; exact hfe
          · cases hbe : blt b.1.sortText e.1.sortText with
            | false => rfl
            | true =>
              have hbf := hm.1 b hb
              rcases blt_total f.1.sortText e.1.sortText with h1 | h1 | h1
              · rw [h1] at hfe; cases hfe
              · rw [← h1, hbf] at hbe; cases hbe
              · rw [blt_trans hbe h1] at hbf; cases hbf
    exact key _ ih.2

/-- The same, with ties the other way round: also a correct `sort.Sort`. -/
theorem sortKeys_reverse_sorts : GoSort fun l => sortKeys l.reverse :=
  fun l => ⟨(sortKeys_sorts l.reverse).1.trans (List.reverse_perm l), (sortKeys_sorts l.reverse).2⟩

/-- Two structs that point to each other, each an entry of a map. -/
def exLoop : List GU := [.struct [({ name := b!"next" }, .ptr 1)], .struct [({ name := b!"next" }, .ptr 0)]]
def exTexts : GU := .map [(.text b!"b" none, .ptr 1), (.text b!"a" (some b!"A"), .ptr 0)]
def exTexts' : GU := .map [(.text b!"a" (some b!"A"), .ptr 0), (.text b!"b" none, .ptr 1)]
def exInts : GU := .map [(.int b!"int" 1 none, .ptr 0), (.int b!"int" 2 none, .ptr 1)]

example : GoSort sortKeys ∧ exTexts.Same exTexts' ∧ GU.Sames exLoop exLoop ∧ exTexts.TextKeys ∧ ∀ x ∈ exLoop, x.TextKeys := by
  refine ⟨sortKeys_sorts, .map (.cons (.ptr _) (.cons (.ptr _) .nil)) (List.Perm.swap ..),
    .cons (.struct (.cons (.ptr _) .nil)) (.cons (.struct (.cons (.ptr _) .nil)) .nil), ?_, ?_⟩
  · simp [exTexts, GU.TextKeys, GU.TextKeysm, MapKey.IsText, MapKey.raw]
  · simp [exLoop, GU.TextKeys, GU.TextKeysf]

example : marshalU sortKeys id List.head! true exLoop 4 exTexts =
    some (.dict 0 [(b!"A", .dict 1 [(b!"next", .dict 2 [(b!"next", .ptr 1)])]), (b!"b", .ptr 2)]) := by rfl

/-- **C72 fails for keys that are not of string kind**: the sort does not order them; which entry of a
map holds a node and which a reference to it depends on the order in which Go happens to list the map. -/
theorem C72_int_order : ∃ sort sort', GoSort sort ∧ GoSort sort' ∧
    marshalU sort id List.head! true exLoop 4 exInts = some (.dict 0 [(b!"%!s(int=1)", .dict 1 [(b!"next", .dict 2 [(b!"next", .ptr 1)])]),
      (b!"%!s(int=2)", .ptr 2)]) ∧
    marshalU sort' id List.head! true exLoop 4 exInts = some (.dict 0 [(b!"%!s(int=1)", .ptr 2),
      (b!"%!s(int=2)", .dict 1 [(b!"next", .dict 2 [(b!"next", .ptr 1)])])]) :=
  ⟨sortKeys, fun l => sortKeys l.reverse, sortKeys_sorts, sortKeys_reverse_sorts, rfl, rfl⟩

/-- **C72, keys with a method.** Two keys whose `String` methods agree: one entry is lost, that of the key that sorts first. -/
theorem C72_collision (x y : Int) (s : Bytes) : marshalU sortKeys ord pick oe [] 0
    (.map [(.text b!"on" (some s), .leaf (.int x)), (.text b!"active" (some s), .leaf (.int y))]) = some (.dict 0 [(s, .int x)]) := by
  have h1 : (GU.map [(.text b!"on" (some s), .leaf (.int x)), (.text b!"active" (some s), .leaf (.int y))]).walk sortKeys =
    .map [(s, .leaf (.int y)), (s, .leaf (.int x))] := rfl
  unfold marshalU
  rw [h1]
  simp [marshal, gmar, GV.mar, GV.marm, Leaf.marshal, marshalInt64, optZero, optForce, optEmpty, forceStr, pairsDict, smAdd, blt_irrefl, MJ.finish, MJ.finishf, newInt]

/-- An acyclic case for the other theorems: a map of pointers, one nil. -/
example : (GU.map [(.int b!"int" 5 none, .ptr 0), (.int b!"int" 6 none, .leaf .nil)]).KeysApart ∧
    (GU.map [(.int b!"int" 5 none, .ptr 0), (.int b!"int" 6 none, .leaf .nil)]).Same (.map [(.int b!"int" 6 none, .leaf .nil), (.int b!"int" 5 none, .ptr 0)]) := by
  refine ⟨?_, .map (.cons (.ptr _) (.cons (.leaf _) .nil)) (List.Perm.swap ..)⟩
  simp only [GU.KeysApart, GU.KeysApartm, and_true]
  decide

example : GU.AcyclicIn sortKeys [.leaf (.int 7)] (.map [(.int b!"int" 5 none, .ptr 0), (.int b!"int" 6 none, .leaf .nil)]) ∧
    marshalU sortKeys id List.head! true [.leaf (.int 7)] 1 (.map [(.int b!"int" 5 none, .ptr 0), (.int b!"int" 6 none, .leaf .nil)]) =
      some (.dict 0 [(b!"%!s(int=5)", .int 7)]) :=
  ⟨⟨.map [(b!"%!s(int=5)", .ptr (.leaf (.int 7))), (b!"%!s(int=6)", .leaf .nil)], .map (.cons (.ptr rfl (.leaf _)) (.cons (.leaf _) .nil))⟩, rfl⟩

end Jsonutils.Props
