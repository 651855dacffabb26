import Verif.Proofs.HeapRead
import Verif.Props.HeapCopy

/-!
# C77: documents with nil in them
-/

namespace Jsonutils.Props
open Jsonutils

/-- **C77, what is a document.** What is at an address spells a document exactly if there is no cycle and no nil in it. -/
theorem C77_documents (h : Heap) (a : Addr) : (∃ v, J.Seen h v a) ↔ Knotless h (some a) ∧ ¬ HasNil h (some a) := by
  constructor
  · rintro ⟨v, hv⟩; exact ⟨seen_finite v a hv, seen_noNil v a hv⟩
  · rintro ⟨h1, h2⟩
    obtain ⟨b, v, hb, hv⟩ := acyclic_seen h1 h2
    cases hb; exact ⟨v, hv⟩

/-- **C77, `String()`.** It returns exactly on documents, and then their text; it panics on a nil anywhere inside, and never returns on a
nil-free graph with a cycle. -/
theorem C77_text (h : Heap) (hok : h.Ok) (a : Addr) (ha : a < h.length) : Reads (fun f => textH f h (some a)) J.toBytes h a :=
  reads_of hok ha (fun f => text_shape f h (some a)) fun v f out hv he => text_val v f a out hv he

/-- **C77, `PrettyString()`.** -/
theorem C77_pretty (h : Heap) (hok : h.Ok) (a : Addr) (ha : a < h.length) : Reads (fun f => prettyH f h 0 (some a)) J.prettyString h a :=
  reads_of hok ha (fun f => pretty_shape f h 0 (some a)) fun v f out hv he => pretty_val v f 0 a out hv he

/-- **C77, `Interface()`.** -/
theorem C77_interface (h : Heap) (hok : h.Ok) (a : Addr) (ha : a < h.length) : Reads (fun f => interfaceH f h (some a)) J.interface h a :=
  reads_of hok ha (fun f => interface_shape f h (some a)) fun v f out hv he => interface_val v f a out hv he

/-- **C77, `Get` on any memory.** With at least one key, on a dictionary: it returns what the keys lead to, unless that is nil: then it
panics.  If the keys pass through something that is no dictionary, nil included, the error is `ErrInvalidJsonDict`; if a key is missing,
`ErrJsonDictKeyNotFound`.  `Contains` panics exactly when `Get` does. -/
theorem C77_get (h : Heap) (ht : h.Tidy) (a : Addr) (ha : DictAt h a) (keys : List Bytes) (hk : keys ≠ []) :
    (∀ b, getH h (some a) keys = .ok (some b) ↔ Leads h a keys (some b)) ∧
    (getH h (some a) keys = .panic ↔ Leads h a keys none) ∧
    (getH h (some a) keys = .err .invalidDict ↔ ∃ p q r, keys = p ++ q ∧ q ≠ [] ∧ Leads h a p r ∧ ¬ IsDict h r) ∧
    (getH h (some a) keys = .err .keyNotFound ↔ (∀ r, ¬ Leads h a keys r) ∧ ¬ ∃ p q r, keys = p ++ q ∧ q ≠ [] ∧ Leads h a p r ∧ ¬ IsDict h r) ∧
    (containsH h (some a) keys = .panic ↔ Leads h a keys none) := by
  obtain ⟨id, kvs, ho⟩ := ha
  have spec := getLoop_spec ht keys a id kvs hk ho
  have hg : getH h (some a) keys = getLoopH h kvs keys := by
    cases keys with
    | nil => exact absurd rfl hk
    | cons k ks => simp only [getH, ho]
  -- prefixes of a path that leads somewhere are dictionaries
  have pre : ∀ (p : List Bytes) (x : Addr) q r s, q ≠ [] → Leads h x (p ++ q) s → Leads h x p r → IsDict h r := by
    intro p
    induction p with
    | nil => intro x q r s _ _ hl; cases hl
    | cons k p ih =>
      intro x q r s hq hl hp
      cases p with
      | nil =>
        cases hp with
        | last g1 g2 =>
          cases q with
          | nil => exact absurd rfl hq
          | cons q0 q =>
            cases hl with
            | step j1 j2 j3 =>
              have e := Leads.unique ht (.last g1 g2) (.last j1 j2)
              subst e
              obtain ⟨i', m', hm'⟩ := j3.dict
              exact ⟨_, i', m', rfl, hm'⟩
      | cons k2 p =>
        cases hp with
        | step g1 g2 g3 =>
          cases hl with
          | step j1 j2 j3 =>
            have e := Leads.unique ht (.last g1 g2) (.last j1 j2)
            cases e
            exact ih _ q r s hq j3 g3
  -- where a key is missing nothing leads further
  have miss : ∀ (p : List Bytes) (x d : Addr) k q id' m s, (p = [] ∧ d = x ∨ Leads h x p (some d)) → h[d]? = some (.dict id' m) →
      (∀ y, (k, y) ∉ m) → ¬ Leads h x (p ++ k :: q) s := by
    intro p
    induction p with
    | nil =>
      intro x d k q id' m s hp hd hm hl
      rcases hp with ⟨_, rfl⟩ | hp
      · simp only [List.nil_append] at hl
        cases hl with
        | last j1 j2 => rw [hd] at j1; cases j1; exact hm _ j2
        | step j1 j2 j3 => rw [hd] at j1; cases j1; exact hm _ j2
      · cases hp
    | cons k0 p ih =>
      intro x d k q id' m s hp hd hm hl
      rcases hp with ⟨h1, _⟩ | hp
      · cases h1
      · cases p with
        | nil =>
          cases hp with
          | last g1 g2 =>
            cases hl with
            | step j1 j2 j3 =>
              have e := Leads.unique ht (.last g1 g2) (.last j1 j2)
              cases e
              exact ih _ _ k q id' m s (Or.inl ⟨rfl, rfl⟩) hd hm j3
        | cons k2 p =>
          cases hp with
          | step g1 g2 g3 =>
            cases hl with
            | step j1 j2 j3 =>
              have e := Leads.unique ht (.last g1 g2) (.last j1 j2)
              cases e
              exact ih _ _ k q id' m s (Or.inr g3) hd hm j3
  have missPre : ∀ (p : List Bytes) (d : Addr) k q id' m, (p = [] ∧ d = a ∨ Leads h a p (some d)) → h[d]? = some (.dict id' m) →
      (∀ y, (k, y) ∉ m) → ¬ ∃ p' q' r, p ++ k :: q = p' ++ q' ∧ q' ≠ [] ∧ Leads h a p' r ∧ ¬ IsDict h r := by
    rintro p d k q id' m hp hd hm ⟨p', q', r, he, hq', hl, hnd⟩
    rcases List.append_eq_append_iff.1 he with ⟨t, h1, h2⟩ | ⟨t, h1, h2⟩
    · cases t with
      | nil =>
        simp only [List.append_nil] at h1
        subst h1
        rcases hp with ⟨rfl, rfl⟩ | hp
        · cases hl
        · have := Leads.unique ht hp hl
          subst this
          exact hnd ⟨d, id', m, rfl, hd⟩
      | cons t0 t =>
        simp only [List.cons_append, List.cons.injEq] at h2
        obtain ⟨rfl, _⟩ := h2
        rw [h1] at hl
        exact miss p a d k t id' m r hp hd hm hl
    · by_cases htn : t = []
      · subst htn
        simp only [List.append_nil] at h1
        subst h1
        rcases hp with ⟨rfl, rfl⟩ | hp
        · cases hl
        · have := Leads.unique ht hp hl
          subst this
          exact hnd ⟨d, id', m, rfl, hd⟩
      · rcases hp with ⟨h3, rfl⟩ | hp
        · rw [h3] at h1
          obtain ⟨h4, h5⟩ := List.append_eq_nil_iff.1 h1.symm
          exact htn h5
        · rw [h1] at hp
          exact hnd (pre p' a t r _ htn hp hl)
  have hcont : containsH h (some a) keys = .panic ↔ getH h (some a) keys = .panic := by
    simp only [containsH]
    cases getH h (some a) keys <;> simp
  rw [hcont, hg]
  cases hr : getLoopH h kvs keys with
  | ok r =>
    rw [hr] at spec
    obtain ⟨hne, hl⟩ := spec
    refine ⟨fun b => ⟨fun he => ?_, fun hl2 => ?_⟩, ⟨(by intro he; cases he), fun hl2 => ?_⟩, ⟨(by intro he; cases he), ?_⟩, ⟨(by intro he; cases he), fun he => ?_⟩,
      ⟨(by intro he; cases he), fun hl2 => ?_⟩⟩
    · cases he; exact hl
    · rw [hl.unique ht hl2]
    · exact absurd (hl.unique ht hl2) hne
    · rintro ⟨p, q, r', rfl, hq, hp, hnd⟩; exact absurd (pre p a q r' r hq hl hp) hnd
    · exact absurd hl (he.1 r)
    · exact absurd (hl.unique ht hl2) hne
  | panic =>
    rw [hr] at spec
    have spec : Leads h a keys none := spec
    refine ⟨fun b => ⟨(by intro he; cases he), fun hl2 => ?_⟩, ⟨fun _ => spec, fun _ => rfl⟩, ⟨(by intro he; cases he), ?_⟩, ⟨(by intro he; cases he), fun he => ?_⟩,
      ⟨fun _ => spec, fun _ => rfl⟩⟩
    · cases spec.unique ht hl2
    · rintro ⟨p, q, r', rfl, hq, hp, hnd⟩; exact absurd (pre p a q r' _ hq spec hp) hnd
    · exact absurd spec (he.1 _)
  | err e =>
    rw [hr] at spec
    cases e with
    | invalidDict =>
      have spec' := spec
      obtain ⟨p, q, r, h1, h2, h3, h4⟩ := spec
      have no : ∀ s, ¬ Leads h a keys s := fun s hl => h4 (pre p a q r s h2 (h1 ▸ hl) h3)
      exact ⟨fun b => ⟨(by intro he; cases he), fun hl => absurd hl (no _)⟩, ⟨(by intro he; cases he), fun hl => absurd hl (no _)⟩,
        ⟨fun _ => spec', fun _ => rfl⟩, ⟨(by intro he; cases he), fun he => absurd spec' he.2⟩, ⟨(by intro he; cases he), fun hl => absurd hl (no _)⟩⟩
    | keyNotFound =>
      obtain ⟨p, k, q, d, id', m, h1, h2, h3, h4⟩ := spec
      have no : ∀ s, ¬ Leads h a keys s := fun s hl => miss p a d k q id' m s h2 h3 h4 (h1 ▸ hl)
      have no2 : ¬ ∃ p q r, keys = p ++ q ∧ q ≠ [] ∧ Leads h a p r ∧ ¬ IsDict h r := by
        rw [h1]; exact missPre p d k q id' m h2 h3 h4
      exact ⟨fun b => ⟨(by intro he; cases he), fun hl => absurd hl (no _)⟩, ⟨(by intro he; cases he), fun hl => absurd hl (no _)⟩,
        ⟨(by intro he; cases he), fun he => absurd he no2⟩, ⟨fun _ => ⟨no, no2⟩, fun _ => rfl⟩, ⟨(by intro he; cases he), fun hl => absurd hl (no _)⟩⟩
    | _ => exact spec.elim

/-- **C77, accessors on documents.** On a document in memory `Get`, `GetAt`, `GetMap` and `Equals` do what they do on the document: the
accessors return the variables holding the sub-documents. -/
theorem C77_refines (h : Heap) (v : J) (a : Addr) (hv : J.Seen h v a) :
    (∀ keys, match v.get keys with
      | .ok w => ∃ b, getH h (some a) keys = .ok (some b) ∧ J.Seen h w b
      | .err e => getH h (some a) keys = .err e
      | .diverge => False) ∧
    (∀ i keys, match v.getAt i keys with
      | .ok w => ∃ b, getAtH h (some a) i keys = .ok (some b) ∧ J.Seen h w b
      | .err e => getAtH h (some a) i keys = .err e
      | .diverge => False) ∧
    (∀ keys, match v.getMap keys with
      | .ok m => ∃ rs, getMapH h (some a) keys = .ok rs ∧ J.Atf h (fun _ => True) m rs
      | .err e => getMapH h (some a) keys = .err e
      | .diverge => False) ∧
    (∀ w b, J.Seen h w b → Eventually (fun f => equalsH f h (some a) (some b)) (.ok (v.equals w))) := by
  refine ⟨get_seen hv, getAt_seen hv, getMap_seen hv, fun w b hw => ?_⟩
  obtain ⟨f0, h0⟩ := equals_val (h := h) v
  exact ⟨f0, fun f hf => h0 f hf w a b hv hw⟩

/-- **C77, nil elements.** `GetAt` of an array in memory returns the variable at that place, be it nil, and the error
`ErrOutOfIndexRange` outside; it never panics. -/
theorem C77_getAt (h : Heap) (a : Addr) (xs : List Ref) (ha : h[a]? = some (.arr xs)) (i : Int) :
    (∀ n : Nat, ∀ r, xs[n]? = some r → (i = n ∨ i = (n : Int) - xs.length) → getAtH h (some a) i [] = .ok r) ∧
    ((i < -(xs.length : Int) ∨ (xs.length : Int) ≤ i) → getAtH h (some a) i [] = .err .outOfIndexRange) := by
  simp only [getAtH, ha, arrGetAtH]
  constructor
  · intro n r hr hi
    have hl := (List.getElem?_eq_some_iff.1 hr).1
    have e : (if i < 0 then (xs.length : Int) + i else i) = n := by split <;> omega
    rw [e]
    have : (0 : Int) ≤ n ∧ (n : Int) < xs.length := by omega
    simp only [this, and_self, if_true, Int.toNat_natCast, hr]
  · intro hi
    have : ¬ (0 ≤ (if i < 0 then (xs.length : Int) + i else i) ∧ (if i < 0 then (xs.length : Int) + i else i) < xs.length) := by split <;> omega
    simp only [this, if_false]

/-- **C77, `DeepCopy`.** On a graph without cycles it ends: it panics if some dictionary has a nil entry, and returns otherwise (nil
elements of arrays are copied). -/
theorem C77_deepCopy (ord : SMap Ref → SMap Ref) (hord : ∀ l, (ord l).Perm l) (h : Heap) (hok : h.Ok) (ht : h.Tidy) (a : Addr) (ha : a < h.length)
    (hc : Knotless h (some a)) :
    ∃ f0, ∀ f, f0 ≤ f → (HasNilEntry h (some a) → deepCopyH ord f h (some a) = .panic) ∧
      (¬ HasNilEntry h (some a) → ∃ y h', deepCopyH ord f h (some a) = .ok (y, h')) := by
  have hf : HeapFine h := ⟨hok.inside, ht⟩
  have hr : RefsIn h [some a] := fun b hb => by simp at hb; subst hb; exact ha
  obtain ⟨f0, h0⟩ := copy_ends hord hc
  refine ⟨f0, fun f hle => ?_⟩
  have h1 := h0 f hle h List.prefix_rfl hf hr
  obtain ⟨g1, g2⟩ := (copy_nil hord f).1 h (some a) hf hr
  cases he : deepCopyH ord f h (some a) with
  | fuel => exact absurd he h1
  | panic => exact ⟨fun _ => rfl, fun hn => absurd (g1 he) hn⟩
  | ok p => exact ⟨fun hn => absurd hn (g2 p he), fun _ => ⟨p.1, p.2, rfl⟩⟩

/-- **C77, copies of references.** A document with a reference pointer in it has a deep copy on which `String()`, `PrettyString()` and
`Interface()` panic. -/
theorem C77_reference_copy (ord : SMap Ref → SMap Ref) (hord : ∀ l, (ord l).Perm l) (h : Heap) (hok : h.Ok) (ht : h.Tidy) (a : Addr)
    (ha : a < h.length) (hr : HasRef h (some a)) (hnp : ∀ id, h[a]? ≠ some (.ptr id)) (f : Nat) (y : Ref) (h' : Heap)
    (hc : deepCopyH ord f h (some a) = .ok (y, h')) :
    ∃ c, y = some c ∧ Eventually (fun f => textH f h' (some c)) .panic ∧ Eventually (fun f => prettyH f h' 0 (some c)) .panic ∧
      Eventually (fun f => interfaceH f h' (some c)) .panic := by
  obtain ⟨hp, hcop, hnil⟩ := C22_references ord hord h hok ht a ha f y h' hc
  have hins : RefsIn h [some a] := fun b hb => by simp at hb; subst hb; exact ha
  obtain ⟨_, hfine, hy, _⟩ := (copied_all hord f).1 h (some a) y h' ⟨hok.inside, ht⟩ hins hc
  have hok' : h'.Ok := ⟨hok.base.trans hp, hfine.inside⟩
  have hr' : HasRef h' (some a) := by
    have : ∀ r, HasRef h r → HasRef h' r := by
      intro r hr
      induction hr with
      | here g => exact .here (prefix_get hp g)
      | inside g hm _ ih => exact .inside (prefix_get hp g) hm ih
    exact this _ hr
  have hacy := hcop.acyclic
  have hn := hnil hr'
  cases y with
  | none =>
    exfalso
    cases hcop with
    | ref g =>
      rw [prefix_get' hp ha] at g
      exact hnp _ g
  | some c =>
    have hcl : c < h'.length := hy c (by simp)
    exact ⟨c, rfl, (C77_text h' hok' c hcl).2.2.1 hacy hn, (C77_pretty h' hok' c hcl).2.2.1 hacy hn, (C77_interface h' hok' c hcl).2.2.1 hacy hn⟩

/-- **C77, `Equals`.** If the receiver has no cycles it ends; it returns if there is no nil in the receiver and no nil dictionary entry in
the argument (nil elements of the argument's arrays are unequal to everything). -/
theorem C77_equals (h : Heap) (hok : h.Ok) (a : Addr) (ha : a < h.length) (s : Ref) (hc : Knotless h (some a)) (hn : ¬ HasNil h (some a))
    (hs : ¬ HasNilEntry h s) : ∃ f0, ∀ f, f0 ≤ f → ∃ b, equalsH f h (some a) s = .ok b := by
  obtain ⟨f0, h0⟩ := equals_ends hc
  refine ⟨f0, fun f hf => ?_⟩
  cases he : equalsH f h (some a) s with
  | ok b => exact ⟨b, rfl⟩
  | fuel => exact absurd he (h0 f hf s)
  | panic =>
    rcases equals_panic hok.inside f (some a) s (fun b hb => by simp at hb; subst hb; exact ha) he with hx | hx
    · exact absurd hx hn
    · exact absurd hx hs

/-! Concrete cases: `[nil]` at 3, `{"a":nil}` at 4, `[1]` at 6, `{"b":{"a":nil}}` at 7, `{"a":1}` at 8, `["<ref>"]`-style `[<7>]` at 10. -/

/-- Memory with nils. -/
def nilHeap : Heap := Heap.base ++ [.arr [none], .dict 0 [(b!"a", none)], .int 1, .arr [some 5], .dict 0 [(b!"b", some 4)], .dict 0 [(b!"a", some 5)],
  .ptr 7, .arr [some 9]]

theorem nilHeap_ok : nilHeap.Ok := by
  refine ⟨⟨_, rfl⟩, fun o ho b hb => ?_⟩
  have : ∀ o ∈ nilHeap, ∀ r ∈ o.refs, r.getD 0 < nilHeap.length := by decide
  exact this o ho _ hb

theorem nilHeap_tidy : nilHeap.Tidy := by
  intro a id kvs ha
  have : ∀ o ∈ nilHeap, ∀ id kvs, o = .dict id kvs → SMap.Sorted kvs := by
    intro o ho id kvs he
    simp only [nilHeap, Heap.base, List.cons_append, List.nil_append, List.mem_cons, List.not_mem_nil, or_false] at ho
    subst he
    rcases ho with h | h | h | h | h | h | h | h | h | h | h <;> cases h <;> simp [SMap.Sorted]
  exact this _ (List.mem_of_getElem? ha) id kvs rfl

/-- Nil in an array: `String()` panics, `DeepCopy` does not.  Nil in a dictionary: `Get` of it, `Contains` and `DeepCopy` panic, while a
longer path is an error.  `[1]` equals `[nil]` is false, `[nil]` equals `[1]` panics. -/
theorem C77_cases :
    textH 9 nilHeap (some 3) = .panic ∧ (∃ h', deepCopyH id 9 nilHeap (some 3) = .ok (some 11, h') ∧ h'[11]? = some (.arr [none])) ∧
    getAtH nilHeap (some 3) 0 [] = .ok none ∧
    getH nilHeap (some 4) [b!"a"] = .panic ∧ containsH nilHeap (some 4) [b!"a"] = .panic ∧ getMapH nilHeap (some 4) [] = .panic ∧
    getH nilHeap (some 4) [b!"a", b!"x"] = .err .invalidDict ∧ getH nilHeap (some 7) [b!"b", b!"a"] = .panic ∧ getH nilHeap (some 7) [b!"b"] = .ok (some 4) ∧
    deepCopyH id 9 nilHeap (some 7) = .panic ∧
    equalsH 9 nilHeap (some 6) (some 3) = .ok false ∧ equalsH 9 nilHeap (some 3) (some 6) = .panic ∧
    equalsH 9 nilHeap (some 8) (some 4) = .panic :=
  ⟨rfl, ⟨_, rfl, rfl⟩, rfl, rfl, rfl, rfl, rfl, rfl, rfl, rfl, rfl, rfl, rfl⟩

/-- The hypotheses of the theorems above are met by it. -/
example : nilHeap.Ok ∧ nilHeap.Tidy ∧ Knotless nilHeap (some 7) ∧ HasNilEntry nilHeap (some 7) ∧ HasNil nilHeap (some 3) ∧
    Leads nilHeap 7 [b!"b", b!"a"] none ∧ HasRef nilHeap (some 10) ∧ (∀ id, nilHeap[10]? ≠ some (.ptr id)) ∧ J.Seen nilHeap (.arr [.int 1]) 6 ∧
    Knotless nilHeap (some 6) ∧ ¬ HasNilEntry nilHeap (some 3) := by
  refine ⟨nilHeap_ok, nilHeap_tidy, ?_, ?_, ?_, ?_, ?_, ?_, ?_, ?_, ?_⟩
  · refine .node (o := .dict 0 [(b!"b", some 4)]) rfl fun r hr => ?_
    simp [Obj.refs] at hr; subst hr
    refine .node (o := .dict 0 [(b!"a", none)]) rfl fun r hr => ?_
    simp [Obj.refs] at hr; subst hr; exact .nil
  · exact .inside (o := .dict 0 [(b!"b", some 4)]) (r := some 4) rfl (by simp [Obj.refs]) (.here (k := b!"a") (id := 0) (kvs := [(b!"a", none)]) rfl (by simp))
  · exact .inside (o := .arr [none]) (r := none) rfl (by simp [Obj.refs]) .here
  · exact .step (b := 4) (id := 0) (kvs := [(b!"b", some 4)]) rfl (by simp) (.last (id := 0) (kvs := [(b!"a", none)]) rfl (by simp))
  · exact .inside (o := .arr [some 9]) (r := some 9) rfl (by simp [Obj.refs]) (.here (id := 7) rfl)
  · intro id h; cases h
  · simp only [J.Seen, J.At, J.Ats]; exact ⟨trivial, [some 5], rfl, 5, [], rfl, ⟨trivial, rfl⟩, rfl⟩
  · refine .node (o := .arr [some 5]) rfl fun r hr => ?_
    simp [Obj.refs] at hr; subst hr
    exact .node (o := .int 1) rfl (by simp [Obj.refs])
  · intro hn
    cases hn with
    | here g _ => cases g
    | inside g hm hn => cases g; simp [Obj.refs] at hm; subst hm; cases hn

/-- A cycle: `d.Set("n", d)`, then `String()` never returns. -/
example : Never fun f => textH f (Heap.base ++ [.dict 0 [(b!"n", some 3)]]) (some 3) := by
  intro f
  induction f with
  | zero => rfl
  | succ f ih => simp only [textH, show (Heap.base ++ [Obj.dict 0 [(b!"n", some 3)]])[3]? = some (.dict 0 [(b!"n", some 3)]) from rfl, seqH, ih, CRes.map]

end Jsonutils.Props
