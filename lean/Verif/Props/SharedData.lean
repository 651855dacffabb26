import Verif.Proofs.SharedFrame
import Verif.Props.HeapEdit

/-!
# C81: documents in variables

`Unmarshal` into variables of types like `JSONObject` and `*JSONDict` hands out the objects of the document.
-/

namespace Jsonutils.Props

open Jsonutils

variable {D : DEnv}

theorem get_child {Q : J → Prop} (hQ : ∀ id kvs k x, Q (.dict id kvs) → (k, x) ∈ kvs → Q x) {v : J} {keys : List Bytes} {c : J} (hv : Q v) (hg : v.get keys = .ok c) : Q c := by
  cases v with
  | dict id kvs =>
    have := (get_ok_iff id kvs keys c).1 hg
    clear hg
    generalize J.dict id kvs = v at *
    induction this with
    | here => exact hv
    | step h1 _ ih => exact ih (hQ _ _ _ _ hv (smGet_mem h1))
  | _ => cases hg

theorem seen_way {h : Heap} {a b : Addr} {p : List Move} (hw : Way h a p b) : ∀ {v : J}, v.Seen h a → ∃ w : J, w.Seen h b := by
  induction hw with
  | here => exact fun hs => ⟨_, hs⟩
  | key h1 h2 _ ih =>
    intro v hs
    cases v with
    | dict id xs =>
      obtain ⟨_, rs, ho, hr⟩ := hs
      rw [ho] at h1; cases h1
      obtain ⟨c, x, _, e, hx⟩ := Atf_of_mem hr _ h2
      cases e
      exact ih hx
    | arr xs => obtain ⟨_, rs, ho, hr⟩ := hs; rw [ho] at h1; cases h1
    | _ => have := hs.2; rw [this] at h1; cases h1
  | elem h1 h2 _ ih =>
    intro v hs
    cases v with
    | arr xs =>
      obtain ⟨_, rs, ho, hr⟩ := hs
      rw [ho] at h1; cases h1
      obtain ⟨c, x, _, e, hx⟩ := Ats_of_mem hr _ (List.mem_of_getElem? h2)
      cases e
      exact ih hx
    | dict id xs => obtain ⟨_, rs, ho, hr⟩ := hs; rw [ho] at h1; cases h1
    | _ => have := hs.2; rw [this] at h1; cases h1

theorem seen_get {h : Heap} {v : J} {b : Addr} (hs : v.Seen h b) : ∃ o, h[b]? = some o := by
  cases v with
  | arr xs => obtain ⟨_, rs, ho, _⟩ := hs; exact ⟨_, ho⟩
  | dict id xs => obtain ⟨_, rs, ho, _⟩ := hs; exact ⟨_, ho⟩
  | _ => exact ⟨_, hs.2⟩

theorem getLoop_reach {h : Heap} : ∀ (keys : List Bytes) (a : Addr) (id : Int) (kvs : SMap Ref) (c : Addr), h[a]? = some (.dict id kvs) →
    getLoopH h kvs keys = .ok (some c) → Reach h a c
  | [], a, id, kvs, c, ho, hg => by cases hg
  | [k], a, id, kvs, c, ho, hg => by
    simp only [getLoopH] at hg
    split at hg
    · cases hg
    · cases hg
    · rename_i b hb
      cases hg
      exact .step ho (List.mem_map.2 ⟨_, smGet_mem hb, rfl⟩) (.refl _)
  | k :: k2 :: ks, a, id, kvs, c, ho, hg => by
    rw [getLoopH] at hg
    split at hg
    · cases hg
    · cases hg
    · rename_i b hb
      split at hg
      · rename_i id' kvs' hb'
        exact .step ho (List.mem_map.2 ⟨_, smGet_mem hb, rfl⟩) (getLoop_reach (k2 :: ks) b id' kvs' c hb' hg)
      · cases hg

theorem get_reach {h : Heap} {a c : Addr} {keys : List Bytes} (hg : getH h (some a) keys = .ok (some c)) : Reach h a c := by
  simp only [getH] at hg
  split at hg
  · cases hg
  · rename_i id kvs ho
    split at hg
    · cases hg; exact .refl _
    · exact getLoop_reach _ a id kvs c ho hg
  · cases hg

theorem unmarshal_matches {S : Prop} (hP : D.env.Ok) {v : J} (hw : v.WF) (ho : v.OrderlyFor D) (hp : S → v.PlainFor D.env) (hn : v.NoPtr) {h : Heap} {a : Addr} (hs : v.Seen h a) (keys : List Bytes) {t : DTy}
    (ht : t.ty.Valid D.env.defs) {x : DV} {u : UV} (hu : u.HasTy D.env.defs t.ty) (hx : x.Is h u) (hb : x.Blank D t) :
    ∃ f0, ∀ f, f0 ≤ f → match v.unmarshal D.env keys t.ty u with
      | none => unmarshalD D f h a keys t x = .panic
      | some (w, e) => ∃ x' h', unmarshalD D f h a keys t x = .ok ((x', e), h') ∧ h <+: h' ∧ x'.Is h' w ∧
          (e = none → S → ∀ b, (keys = [] ∧ b = a ∧ v.IsNode ∨ keys ≠ [] ∧ getH h (some a) keys = .ok (some b)) → Shares D h b t x') := by
  cases keys with
  | nil =>
    refine ⟨v.size, fun f hf => ?_⟩
    have hl := lands (S := S) hP v hw ho hp hn f h a t x u hs hf ht hu hx hb
    have zero : ∀ o, h[a]? = some o → (match o with | .str _ => False | .arr _ => False | .dict _ _ => False | _ => True) → ¬ v.IsNode →
        ∃ x' h', unmarshalD D f h a [] t x = .ok ((x', none), h') ∧ h <+: h' ∧ x'.Is h' (D.env.zero t.ty) ∧
          ((none : Option UErr) = none → S → ∀ b, (([] : List Bytes) = [] ∧ b = a ∧ v.IsNode ∨ ([] : List Bytes) ≠ [] ∧ getH h (some a) [] = .ok (some b)) → Shares D h b t x') := by
      intro o ho hk hnn
      refine ⟨D.zero t, h, ?_, List.prefix_refl _, zero_is h t, fun _ _ b hb => ?_⟩
      · cases o <;> first | exact hk.elim | simp only [unmarshalD, ho]; rfl
      · rcases hb with ⟨_, _, h3⟩ | ⟨h3, _⟩
        · exact absurd h3 hnn
        · exact absurd rfl h3
    have node : ∀ o, h[a]? = some o → (match o with | .str _ => True | .arr _ => True | .dict _ _ => True | _ => False) → v.unmarshal D.env [] t.ty u = v.unm D.env t.ty u →
        match v.unmarshal D.env [] t.ty u with
        | none => unmarshalD D f h a [] t x = .panic
        | some (w, e) => ∃ x' h', unmarshalD D f h a [] t x = .ok ((x', e), h') ∧ h <+: h' ∧ x'.Is h' w ∧
          (e = none → S → ∀ b, (([] : List Bytes) = [] ∧ b = a ∧ v.IsNode ∨ ([] : List Bytes) ≠ [] ∧ getH h (some a) [] = .ok (some b)) → Shares D h b t x') := by
      intro o ho hk hu
      have e1 : unmarshalD D f h a [] t x = unmD D f t h (some a) x := by cases o <;> first | exact hk.elim | simp only [unmarshalD, ho]
      rw [hu, e1]
      cases hr : v.unm D.env t.ty u with
      | none => rw [hr] at hl; exact hl
      | some q =>
        obtain ⟨w, e⟩ := q
        rw [hr] at hl
        obtain ⟨x', h', k1, k2, k3, k4⟩ := hl
        refine ⟨x', h', k1, k2, k3, fun he hS b hb => ?_⟩
        rcases hb with ⟨_, rfl, _⟩ | ⟨h3, _⟩
        · exact k4 he hS
        · exact absurd rfl h3
    cases v with
    | str s => exact node _ hs.2 trivial rfl
    | arr xs => obtain ⟨_, rs, ho, _⟩ := hs; exact node _ ho trivial rfl
    | dict id xs => obtain ⟨_, rs, ho, _⟩ := hs; exact node _ ho trivial rfl
    | null => exact zero _ hs.2 trivial id
    | bool b => exact zero _ hs.2 trivial id
    | int b => exact zero _ hs.2 trivial id
    | float b c => exact zero _ hs.2 trivial id
    | ptr b => exact hn.elim
  | cons k ks =>
    have hg := get_seen hs (k :: ks)
    simp only [J.unmarshal, unmarshalD]
    cases hr : v.get (k :: ks) with
    | ok c =>
      rw [hr] at hg
      obtain ⟨b, hb1, hb2⟩ := hg
      have hq : c.WF ∧ c.OrderlyFor D ∧ (S → c.PlainFor D.env) ∧ c.NoPtr := get_child (Q := fun c => c.WF ∧ c.OrderlyFor D ∧ (S → c.PlainFor D.env) ∧ c.NoPtr)
        (fun id kvs k x hq hm => ⟨wff_mem hq.1.2 hm, orderlyForf_get hq.2.1.2 k x hm, fun hS => plainForf_get (hq.2.2.1 hS).2 k x hm, noPtrf_get hq.2.2.2 hm⟩)
        ⟨hw, ho, hp, hn⟩ hr
      refine ⟨c.size, fun f hf => ?_⟩
      have hl := lands (S := S) hP c hq.1 hq.2.1 hq.2.2.1 hq.2.2.2 f h b t x u hb2 hf ht hu hx hb
      simp only [hb1]
      cases hr : c.unm D.env t.ty u with
      | none => rw [hr] at hl; exact hl
      | some q =>
        obtain ⟨w, e⟩ := q
        rw [hr] at hl
        obtain ⟨x', h', k1, k2, k3, k4⟩ := hl
        refine ⟨x', h', k1, k2, k3, fun he hS b' hb' => ?_⟩
        rcases hb' with ⟨h3, _⟩ | ⟨_, h3⟩
        · cases h3
        · cases h3; exact k4 he hS
    | err e =>
      rw [hr] at hg
      refine ⟨0, fun f _ => ?_⟩
      simp only [hg]
      exact ⟨x, h, rfl, List.prefix_refl _, hx, (by intro he; cases he)⟩
    | diverge => rw [hr] at hg; exact hg.elim

/-- **C81, the content.** Into a variable none of whose `*JSONString`, `*JSONInt`, `*JSONBool` points to an object yet, `Unmarshal` puts what
the properties on `Unmarshal` (C52 to C60) say, where a variable holding a document reads as that document; the error is the one they say;
and no object that was in memory has changed.  (Documents without references.  Deprecated-by fields only in struct types that have no
`*JSONString`, `*JSONInt`, `*JSONBool` in them.) -/
theorem C81_content (hP : D.env.Ok) {v : J} (hw : v.WF) (hp : v.OrderlyFor D) (hn : v.NoPtr) {h : Heap} {a : Addr} (hs : v.Seen h a) (keys : List Bytes) {t : DTy}
    (ht : t.ty.Valid D.env.defs) {x : DV} {u : UV} (hu : u.HasTy D.env.defs t.ty) (hx : x.Is h u) (hb : x.Blank D t) :
    ∃ f0, ∀ f, f0 ≤ f → match v.unmarshal D.env keys t.ty u with
      | none => unmarshalD D f h a keys t x = .panic
      | some (w, e) => ∃ x' h', unmarshalD D f h a keys t x = .ok ((x', e), h') ∧ h <+: h' ∧ x'.Is h' w := by
  obtain ⟨f0, h0⟩ := unmarshal_matches (S := False) hP hw hp (fun h => h.elim) hn hs keys ht hu hx hb
  refine ⟨f0, fun f hf => ?_⟩
  have := h0 f hf
  cases hr : v.unmarshal D.env keys t.ty u with
  | none => rw [hr] at this; exact this
  | some q =>
    rw [hr] at this
    obtain ⟨x', h', k1, k2, k3, _⟩ := this
    exact ⟨x', h', k1, k2, k3⟩

/-- **C81, sharing.** If it succeeds, then at every position of the (sub-)document for which the variable has a place of type `JSONObject`, or
`*JSONDict`, `*JSONArray`, ... of the type of the object there, that place holds the very object of the document, nil for null. -/
theorem C81_shares (hP : D.env.Ok) {v : J} (hw : v.WF) (hp : v.PlainFor D.env) (hn : v.NoPtr) {h : Heap} {a : Addr} (hs : v.Seen h a) (keys : List Bytes) {t : DTy}
    (ht : t.ty.Valid D.env.defs) {x : DV} {u : UV} (hu : u.HasTy D.env.defs t.ty) (hx : x.Is h u) (hb : x.Blank D t)
    (b : Addr) (hat : keys = [] ∧ b = a ∧ v.IsNode ∨ keys ≠ [] ∧ getH h (some a) keys = .ok (some b)) :
    ∃ f0, ∀ f, f0 ≤ f → ∀ x' h', unmarshalD D f h a keys t x = .ok ((x', none), h') → Shares D h b t x' := by
  obtain ⟨f0, h0⟩ := unmarshal_matches (S := True) hP hw (plain_orderly v hp) (fun _ => hp) hn hs keys ht hu hx hb
  refine ⟨f0, fun f hf x' h' hr => ?_⟩
  have := h0 f hf
  cases hr2 : v.unmarshal D.env keys t.ty u with
  | none => rw [hr2] at this; simp only at this; rw [this] at hr; cases hr
  | some q =>
    obtain ⟨w, e⟩ := q
    rw [hr2] at this
    obtain ⟨x2, h2, k1, k2, k3, k4⟩ := this
    rw [k1] at hr
    cases hr
    exact k4 rfl trivial b hat

/-- **C81, an edit of the variable is an edit of the document.** After `Unmarshal` of a dictionary, array or text into a variable of type
`t`: where `t` leads along the position `p` to a place of type `JSONObject`, the place holds the object at `p`, and whatever call later
changes that object changes the document there, and nowhere else. -/
theorem C81_edit (hP : D.env.Ok) {v : J} (hw : v.WF) (hp : v.PlainFor D.env) (hn : v.NoPtr) (hnode : v.IsNode) {h : Heap} {a : Addr} (hs : v.Seen h a) {t : DTy}
    (ht : t.ty.Valid D.env.defs) {x : DV} {u : UV} (hu : u.HasTy D.env.defs t.ty) (hx : x.Is h u) (hb : x.Blank D t) (p : List Move) (hr : t.Route D p .obj)
    (b : Addr) (hway : Way h a p b) (hnull : h[b]? ≠ some .null) :
    ∃ f0, ∀ f, f0 ≤ f → ∀ x' h', unmarshalD D f h a [] t x = .ok ((x', none), h') → x'.Spot D t p .obj (.ref b) ∧
      ∀ (c : Call) (w : J), c.target = some b → w.Seen (c.run h') b → ∃ v', J.Seen (c.run h') v' a ∧ v'.Sub p w ∧ Edited h' b w a v v' := by
  obtain ⟨f0, h0⟩ := C81_shares hP hw hp hn hs [] ht hu hx hb a (.inl ⟨rfl, rfl, hnode⟩)
  obtain ⟨f1, h1⟩ := C81_content hP hw (plain_orderly v hp) hn hs [] ht hu hx hb
  refine ⟨max f0 f1, fun f hf x' h' hres => ?_⟩
  have hS := h0 f (by omega) x' h' hres
  have hC := h1 f (by omega)
  have hpre : h <+: h' := by
    cases hr2 : v.unmarshal D.env [] t.ty u with
    | none => rw [hr2] at hC; simp only at hC; rw [hC] at hres; cases hres
    | some q =>
      obtain ⟨w, e⟩ := q
      rw [hr2] at hC
      obtain ⟨x2, h2, k1, k2, _⟩ := hC
      rw [k1] at hres; cases hres; exact k2
  have hlt : ∃ o, h[b]? = some o := by
    obtain ⟨w, hw⟩ := seen_way hway hs
    exact seen_get hw
  obtain ⟨o, ho⟩ := hlt
  have hon : o ≠ .null := fun e => hnull (e ▸ ho)
  obtain ⟨y, hy⟩ := hS.there p b o .obj hway ho hon hr (.inl rfl)
  have := ((hS.held p b o .obj y hway ho hy).1 rfl).2 hon
  subst this
  refine ⟨hy, fun c w hc hw => ?_⟩
  obtain ⟨v', k1, k2⟩ := C79_edit h' c b hc w hw v a (At_prefix hpre hs)
  exact ⟨v', k1, k2.inside p (hway.mono hpre), k2⟩

/-- **C81, what can change.** Whatever the variable (its `*JSONxxx` parts point to objects of their type), the document and the type: of the
objects in memory only those that a `*JSONxxx` part of the variable points to, or that are part of the document, can have changed, and only
a text into a text, an integer into an integer, a boolean into a boolean. -/
theorem C81_frame (f : Nat) (h : Heap) (a : Addr) (keys : List Bytes) (t : DTy) (x : DV) (hx : ∀ k b, x.Var D t (.jptr k) (.ref b) → ∃ o, h[b]? = some o ∧ o.IsKind k)
    (x' : DV) (e : Option UErr) (h' : Heap) (hr : unmarshalD D f h a keys t x = .ok ((x', e), h')) (b : Addr) (o : Obj) (hb : h[b]? = some o) :
    h'[b]? = some o ∨ ((∃ k, x.Var D t (.jptr k) (.ref b)) ∨ Reach h a b) ∧ ∃ k o', h'[b]? = some o' ∧ k.Soft ∧ o.IsKind k ∧ o'.IsKind k := by
  let S : Addr → Prop := fun b => h.length ≤ b ∨ (∃ k, x.Var D t (.jptr k) (.ref b)) ∨ Reach h a b
  have hS : VSafe D S h t x := fun k b hv => ⟨.inr (.inl ⟨k, hv⟩), hx k b hv⟩
  have hcl : RClosed (Reach h a) h := fun c o d hc ho hd => reach_trans hc (.step ho hd (.refl d))
  have hout : ∀ r, (∀ c, r = some c → Reach h a c) → VOut D S h t (unmD D f t h r x) := fun r hr =>
    unmD_out (R := Reach h a) (fun c hc => .inr (.inr hc)) f t h r x (fun c hc => .inl hc) hcl hr hS
  have hg : VGrow S h h' := by
    cases keys with
    | nil =>
      have hself : ∀ c, some a = some c → Reach h a c := fun c hc => by cases hc; exact .refl a
      simp only [unmarshalD] at hr
      split at hr
      · cases hr
      · exact (hout _ hself _ _ _ hr).1
      · exact (hout _ hself _ _ _ hr).1
      · exact (hout _ hself _ _ _ hr).1
      · cases hr; exact .refl h
    | cons k ks =>
      simp only [unmarshalD] at hr
      split at hr
      · rename_i r hget
        exact (hout r (fun c hc => get_reach (hc ▸ hget)) _ _ _ hr).1
      · cases hr; exact .refl h
      · cases hr
  rcases hg.keep b o hb with k1 | ⟨k1, k2⟩
  · exact .inl k1
  · refine .inr ⟨?_, k2⟩
    rcases k1 with k1 | k1
    · exact absurd (List.getElem?_eq_some_iff.1 hb).1 (Nat.not_lt.2 k1)
    · exact k1

/-- **C81, what does change.** If the `*JSONString`, `*JSONInt` or `*JSONBool` variable points to the object at `b`, `Unmarshal` of a scalar of
another kind into it writes into that object: every document in memory of which it is a part is changed there. -/
theorem C81_overwrites (h : Heap) (a c : Addr) (keys : List Bytes) (v : J) (hat : keys = [] ∧ c = a ∧ v.IsNode ∨ keys ≠ [] ∧ getH h (some a) keys = .ok (some c))
    (hv : v.Seen h c) (k : JKind) (w : J) (hw : Turned D.trunc v k = some w) (b : Addr) (hb : b < h.length) :
    ∃ h', (∀ f, unmarshalD D (f + 1) h a keys (.jptr k) (.ref b) = .ok ((.ref b, none), h')) ∧ w.Seen h' b ∧
      ∀ (u : J) e, u.Seen h e → ∃ u', J.Seen h' u' e ∧ Edited h b w e u u' := by
  have main : ∃ h', (∀ f, unmD D (f + 1) (.jptr k) h (some c) (.ref b) = .ok ((.ref b, none), h')) ∧ (∀ y, y ≠ b → h'[y]? = h[y]?) ∧ w.Seen h' b := by
    have put : ∀ o' : Obj, (∀ y, y ≠ b → (h.set b o')[y]? = h[y]?) ∧ (h.set b o')[b]? = some o' := fun o' =>
      ⟨fun y hy => List.getElem?_set_ne (Ne.symm hy), List.getElem?_set_self hb⟩
    cases v with
    | int n =>
      have := hv.2
      cases k <;> simp only [Turned, reduceCtorEq, Option.some.injEq] at hw
      subst hw
      exact ⟨h.set b (.str (intDec n)), fun f => by simp only [unmD, this, DEnv.alloc, putScalar, putPtr, convert, dok], (put _).1, trivial, by rw [(put _).2]; rfl⟩
    | bool n =>
      have := hv.2
      cases k <;> simp only [Turned, reduceCtorEq, Option.some.injEq] at hw
      subst hw
      exact ⟨h.set b (.str (if n then b!"true" else b!"false")), fun f => by simp only [unmD, this, DEnv.alloc, putScalar, putPtr, convert, dok], (put _).1, trivial,
        by rw [(put _).2]; cases n <;> rfl⟩
    | float y bit =>
      have := hv.2
      cases k <;> simp only [Turned, reduceCtorEq, Option.some.injEq] at hw
      · subst hw
        exact ⟨h.set b (.str (sprintfF y)), fun f => by simp only [unmD, this, DEnv.alloc, putScalar, putPtr, convert, dok], (put _).1, trivial, by rw [(put _).2]⟩
      · subst hw
        exact ⟨h.set b (.int (D.trunc y)), fun f => by simp only [unmD, this, DEnv.alloc, putScalar, putPtr, convert, dok], (put _).1, trivial, by rw [(put _).2]⟩
    | str s =>
      have := hv.2
      cases k <;> simp only [Turned, reduceCtorEq, Option.some.injEq] at hw
      subst hw
      exact ⟨h.set b (.bool (isTrueWord s)), fun f => by simp only [unmD, this, DEnv.alloc, putScalar, putPtr, convert, dok], (put _).1, trivial, by rw [(put _).2]⟩
    | _ => cases k <;> cases hw
  obtain ⟨h', h1, h2, h3⟩ := main
  refine ⟨h', fun f => ?_, h3, fun u e hu => edit_exists (fun y _ hy => h2 y hy) h3 u e hu⟩
  rcases hat with ⟨rfl, rfl, hn⟩ | ⟨hk, hg⟩
  · rw [← h1 f]
    cases v with
    | str s => have := hv.2; simp only [unmarshalD, this]
    | arr xs => cases hw
    | dict id xs => cases hw
    | _ => exact hn.elim
  · rw [← h1 f]
    cases keys with
    | nil => exact absurd rfl hk
    | cons k ks => simp only [unmarshalD, hg]

/-- **C81, the shared true.** The parser and `NewBool` use one object for all `true`.  A `*JSONBool` variable that has received a `true` by
`Unmarshal` points to that object, and `Unmarshal` of a text like "no" into the variable makes it false: in every document in memory, every
`true` from the parser is now `false`. -/
theorem C81_true (h : Heap) (hok : h.Ok) (a b : Addr) (k : Bytes) (s : Bytes) (hk : getH h (some a) [k] = .ok (some trueAddr)) (hs : h[b]? = some (.str s))
    (hno : isTrueWord s = false) :
    ∃ h1 h2, (∀ f, unmarshalD D (f + 1) h a [k] (.jptr .bool) .nil = .ok ((.ref trueAddr, none), h1)) ∧ h <+: h1 ∧
      (∀ f, unmarshalD D (f + 1) h1 b [] (.jptr .bool) (.ref trueAddr) = .ok ((.ref trueAddr, none), h2)) ∧ h2[trueAddr]? = some (.bool false) ∧
      ∀ (u : J) e, u.Seen h e → ∃ u', J.Seen h2 u' e ∧ Edited h trueAddr (.bool false) e u u' := by
  have htrue : h[trueAddr]? = some (.bool true) := prefix_get hok.base rfl
  have hlt : trueAddr < h.length := (List.getElem?_eq_some_iff.1 htrue).1
  have hs1 : (h ++ [.bool false])[b]? = some (.str s) := prefix_get ⟨_, rfl⟩ hs
  have hset : ((h ++ [Obj.bool false]).set trueAddr (.bool false))[trueAddr]? = some (.bool false) :=
    List.getElem?_set_self (by simp only [List.length_append]; exact Nat.lt_of_lt_of_le hlt (Nat.le_add_right ..))
  refine ⟨h ++ [Obj.bool false], (h ++ [Obj.bool false]).set trueAddr (Obj.bool false), fun f => ?_, ⟨_, rfl⟩, fun f => ?_, hset, fun u e hu => ?_⟩
  · simp only [unmarshalD, hk, unmD, htrue, DEnv.alloc, Heap.alloc, JKind.zeroObj, putScalar, putPtr, convert, dok]
  · simp only [unmarshalD, unmD, hs1, DEnv.alloc, putScalar, putPtr, convert, dok, hno]
  · refine edit_exists (fun y hy hne => ?_) (show J.Seen _ (.bool false) trueAddr from ⟨trivial, hset⟩) u e hu
    rw [List.getElem?_set_ne (Ne.symm hne), List.getElem?_append_left hy]

/-- A struct type with the fields `New *JSONString` and `Old *JSONString`, the latter deprecated by `new`. -/
def exOld : DEnv where
  defs := [[({ name := b!"new" }, .jptr .str), ({ name := b!"old", deprecatedBy := some b!"new" }, .jptr .str)]]
  idx := fun _ k => if k = b!"new" then [0] else if k = b!"old" then [1] else []
  toBool := fun _ => false
  us := fun _ => false
  eu := fun _ => false
  trunc := fun _ => 0

/-- **C81, its own document.** With a field deprecated by another one, `Unmarshal` can change the very document it reads: the document
`{"new":"x","old":5}` becomes `{"new":"5","old":5}`. -/
theorem C81_own_document :
    let h : Heap := Heap.base ++ [.str b!"x", .int 5, .dict 0 [(b!"new", some 3), (b!"old", some 4)]]
    (J.dict 0 [(b!"new", .str b!"x"), (b!"old", .int 5)]).Seen h 5 ∧
    ∃ h', (∀ f, unmarshalD exOld (f + 2) h 5 [] (.struct 0) (exOld.zero (.struct 0)) = .ok ((.struct [.ref 3, .ref 7], none), h')) ∧
      (J.dict 0 [(b!"new", .str b!"5"), (b!"old", .int 5)]).Seen h' 5 := by
  refine ⟨⟨trivial, _, rfl, 3, _, rfl, ⟨trivial, rfl⟩, 4, _, rfl, ⟨trivial, rfl⟩, rfl⟩, _, fun f => rfl, ?_⟩
  exact ⟨trivial, _, rfl, 3, _, rfl, ⟨trivial, rfl⟩, 4, _, rfl, ⟨trivial, rfl⟩, rfl⟩

/-! ### Cases -/

/-- `struct { Obj JSONObject; Arr *JSONArray; All []JSONObject; Map map[string]*JSONDict; N *JSONString }` -/
def exShare : DEnv where
  defs := [[({ name := b!"obj" }, .obj), ({ name := b!"arr" }, .jptr .arr), ({ name := b!"all" }, .slice .obj), ({ name := b!"map" }, .map (.jptr .dict)),
    ({ name := b!"n" }, .jptr .str)]]
  idx := fun _ k => if k = b!"obj" then [0] else if k = b!"arr" then [1] else if k = b!"all" then [2] else if k = b!"map" then [3] else if k = b!"n" then [4] else []
  toBool := fun _ => false
  us := fun _ => false
  eu := fun _ => false
  trunc := fun _ => 0

/-- `{"all":[true,{}],"arr":[7],"map":{"k":{}},"n":7,"obj":{"x":null}}`, parsed. -/
def exShareHeap : Heap := Heap.base ++ [.dict 0 [], .arr [some 1, some 3], .int 7, .arr [some 5], .dict 0 [], .dict 0 [(b!"k", some 7)], .int 7, .dict 0 [(b!"x", some 0)],
  .dict 0 [(b!"all", some 4), (b!"arr", some 6), (b!"map", some 8), (b!"n", some 9), (b!"obj", some 10)]]

/-- The variable holds the objects of the document; only the number in a `*JSONString` has got an object of its own. -/
example : ∃ x h', unmarshalD exShare 9 exShareHeap 11 [] (.struct 0) (exShare.zero (.struct 0)) = .ok ((x, none), h') ∧
    x = .struct [.ref 10, .ref 6, .seq [.ref 1, .ref 3] [], .map [(b!"k", .ref 7)], .ref 14] ∧ h' = exShareHeap ++ [.arr [], .dict 0 [], .str b!"7"] := ⟨_, _, rfl, rfl, rfl⟩

def exShareDoc : J := .dict 0 [(b!"all", .arr [.bool true, .dict 0 []]), (b!"arr", .arr [.int 7]), (b!"map", .dict 0 [(b!"k", .dict 0 [])]), (b!"n", .int 7),
  (b!"obj", .dict 0 [(b!"x", .null)])]

theorem exShare_ok : exShare.env.Ok := by
  refine ⟨?_, ?_, ?_⟩
  · intro n fs h i t hm
    cases n with
    | succ n => simp [exShare, DEnv.env] at h
    | zero =>
      simp only [exShare, DEnv.env, List.map_cons, List.map_nil, List.getElem?_cons_zero, Option.some.injEq] at h
      subst h
      simp only [List.mem_cons, Prod.mk.injEq, List.not_mem_nil, or_false] at hm
      rcases hm with ⟨_, rfl⟩ | ⟨_, rfl⟩ | ⟨_, rfl⟩ | ⟨_, rfl⟩ | ⟨_, rfl⟩ <;> simp [Ty.Below, DTy.ty]
  · intro n fs h i t hm
    cases n with
    | succ n => simp [exShare, DEnv.env] at h
    | zero =>
      simp only [exShare, DEnv.env, List.map_cons, List.map_nil, List.getElem?_cons_zero, Option.some.injEq] at h
      subst h
      simp only [List.mem_cons, Prod.mk.injEq, List.not_mem_nil, or_false] at hm
      rcases hm with ⟨_, rfl⟩ | ⟨_, rfl⟩ | ⟨_, rfl⟩ | ⟨_, rfl⟩ | ⟨_, rfl⟩ <;> simp [Ty.Valid, DTy.ty]
  · intro n fs h k i hi
    cases n with
    | succ n => simp [exShare, DEnv.env] at h
    | zero =>
      simp only [exShare, DEnv.env, List.map_cons, List.map_nil, List.getElem?_cons_zero, Option.some.injEq] at h
      subst h
      simp only [exShare, DEnv.env] at hi
      (repeat' split at hi) <;> simp at hi <;> subst hi <;> decide

/-- The hypotheses of `C81_content` (`plain_orderly`), `C81_shares` and `C81_edit` hold of it. -/
example : exShareDoc.Seen exShareHeap 11 ∧ exShareDoc.WF ∧ exShareDoc.PlainFor exShare.env ∧ exShareDoc.NoPtr ∧ exShareDoc.IsNode ∧
    (DTy.struct 0).ty.Valid exShare.env.defs ∧ (exShare.env.zero (.struct 0)).HasTy exShare.env.defs (.struct 0) ∧
    (exShare.zero (.struct 0)).Is exShareHeap (exShare.env.zero (.struct 0)) ∧ (exShare.zero (.struct 0)).Blank exShare (.struct 0) ∧
    (DTy.struct 0).Route exShare [.key b!"all", .elem 1] .obj ∧ Way exShareHeap 11 [.key b!"all", .elem 1] 3 ∧ exShareHeap[3]? ≠ some .null := by
  refine ⟨?_, ?_, ?_, ?_, trivial, by simp [DTy.ty, Ty.Valid, exShare, DEnv.env], zero_hasTy exShare_ok _ (by simp [Ty.Valid, exShare, DEnv.env]), zero_is _ (.struct 0), zero_blank _ _, ?_, ?_, by simp [exShareHeap, Heap.base]⟩
  · simp [exShareDoc, exShareHeap, Heap.base, J.At, J.Ats, J.Atf]
  · simp [exShareDoc, J.WF, J.WFs, J.WFf, SMap.Sorted, InI64, blt, i64min, i64max]
  · simp only [exShareDoc, J.PlainFor, J.PlainForf, J.PlainFors, and_true, true_and]
    have plain : ∀ kvs : List (Bytes × J), (kvs.map (·.1)).Nodup → ∀ n fs, exShare.env.defs[n]? = some fs → PlainKeys (exShare.env.idx n) fs kvs := by
      intro kvs hnd n fs h
      cases n with
      | succ n => simp [exShare, DEnv.env] at h
      | zero =>
        simp only [exShare, DEnv.env, List.map_cons, List.map_nil, List.getElem?_cons_zero, Option.some.injEq] at h
        subst h
        refine ⟨fun k j _ => ?_, ?_⟩
        · simp only [exShare, DEnv.env]
          (repeat' split) <;> first | exact .inl rfl | exact .inr ⟨_, _, _, rfl, rfl, rfl⟩
        · rw [List.Nodup, List.pairwise_map] at hnd
          have key : ∀ k i, exShare.idx 0 k = [i] → k = [b!"obj", b!"arr", b!"all", b!"map", b!"n"].getD i [] := by
            intro k i h
            simp only [exShare] at h
            (repeat' split at h) <;> simp only [List.cons.injEq, and_true, reduceCtorEq] at h <;> subst h <;> assumption
          exact hnd.imp fun {p q} hne i h1 h2 => hne ((key _ i h1).trans (key _ i h2).symm)
    exact ⟨plain _ (by decide), plain _ (by simp), ⟨plain _ (by simp), plain _ (by simp)⟩, plain _ (by simp)⟩
  · simp [exShareDoc, J.NoPtr, J.NoPtrs, J.NoPtrf]
  · exact .field (i := 2) (n := 0) (by simp [exShare]) rfl rfl (.elem (.here _))
  · exact .key rfl (List.mem_cons_self ..) (.elem rfl rfl (.here _))

/-- `struct { New JSONObject; Old JSONObject "deprecated-by:new" }`: the keys of the document are not plain, but the type has no `*JSONString`,
`*JSONInt`, `*JSONBool`; so the hypotheses of `C81_content` hold. -/
def exFirm : DEnv where
  defs := [[({ name := b!"new" }, .obj), ({ name := b!"old", deprecatedBy := some b!"new" }, .obj)]]
  idx := fun _ k => if k = b!"new" then [0] else if k = b!"old" then [1] else []
  toBool := fun _ => false
  us := fun _ => false
  eu := fun _ => false
  trunc := fun _ => 0

theorem exFirm_ok : exFirm.env.Ok := by
  refine ⟨?_, ?_, ?_⟩
  · intro n fs h i t hm
    cases n with
    | succ n => simp [exFirm, DEnv.env] at h
    | zero =>
      simp only [exFirm, DEnv.env, List.map_cons, List.map_nil, List.getElem?_cons_zero, Option.some.injEq] at h
      subst h
      simp only [List.mem_cons, Prod.mk.injEq, List.not_mem_nil, or_false] at hm
      rcases hm with ⟨_, rfl⟩ | ⟨_, rfl⟩ <;> simp [Ty.Below, DTy.ty]
  · intro n fs h i t hm
    cases n with
    | succ n => simp [exFirm, DEnv.env] at h
    | zero =>
      simp only [exFirm, DEnv.env, List.map_cons, List.map_nil, List.getElem?_cons_zero, Option.some.injEq] at h
      subst h
      simp only [List.mem_cons, Prod.mk.injEq, List.not_mem_nil, or_false] at hm
      rcases hm with ⟨_, rfl⟩ | ⟨_, rfl⟩ <;> simp [Ty.Valid, DTy.ty]
  · intro n fs h k i hi
    cases n with
    | succ n => simp [exFirm, DEnv.env] at h
    | zero =>
      simp only [exFirm, DEnv.env, List.map_cons, List.map_nil, List.getElem?_cons_zero, Option.some.injEq] at h
      subst h
      simp only [exFirm, DEnv.env] at hi
      (repeat' split at hi) <;> simp at hi <;> subst hi <;> decide

example : let v : J := .dict 0 [(b!"new", .str b!"x"), (b!"old", .int 5)]
    v.OrderlyFor exFirm ∧ ¬ v.PlainFor exFirm.env ∧ v.WF ∧ v.NoPtr ∧ (DTy.struct 0).ty.Valid exFirm.env.defs ∧
      (exFirm.zero (.struct 0)).Blank exFirm (.struct 0) := by
  refine ⟨⟨fun n fs h => .inr ?_, trivial, trivial, trivial⟩, fun h => ?_, ?_, by simp [J.NoPtr, J.NoPtrf], by simp [DTy.ty, Ty.Valid, exFirm, DEnv.env], zero_blank _ _⟩
  · cases n with
    | succ n => simp [exFirm, DEnv.env] at h
    | zero =>
      intro k hk
      cases hk with
      | field h1 h2 h3 =>
        simp only [exFirm, List.getElem?_cons_zero, Option.some.injEq] at h1
        subst h1
        simp only [List.mem_cons, Prod.mk.injEq, List.not_mem_nil, or_false] at h2
        rcases h2 with ⟨_, rfl⟩ | ⟨_, rfl⟩ <;> cases h3
  · rcases (h.1 0 _ rfl).1 b!"old" (.int 5) (by simp) with h | ⟨i, info, t, h1, h2, h3⟩
    · revert h; decide
    · have : i = 1 := by simp only [exFirm, DEnv.env] at h1; revert h1; simp; exact fun h => h.symm
      subst this
      simp at h2
      rw [← h2.1] at h3
      cases h3
  · simp [J.WF, J.WFf, SMap.Sorted, InI64, blt, i64min, i64max]

/-- The hypotheses of `C81_overwrites` and `C81_true`: the number at `n` into a `*JSONString` that points to object 12, say. -/
example : getH exShareHeap (some 11) [b!"n"] = .ok (some 9) ∧ (J.int 7).Seen exShareHeap 9 ∧ Turned exShare.trunc (.int 7) .str = some (.str b!"7") ∧
    (let h : Heap := Heap.base ++ [.dict 0 [(b!"on", some 1)], .str b!"no"]; h.Ok ∧ getH h (some 3) [b!"on"] = .ok (some trueAddr) ∧ h[4]? = some (.str b!"no") ∧
      isTrueWord b!"no" = false) := by
  refine ⟨rfl, ⟨trivial, rfl⟩, rfl, ⟨⟨_, rfl⟩, ?_⟩, rfl, rfl, by decide⟩
  intro o ho b hb
  simp only [Heap.base, List.cons_append, List.nil_append, List.mem_cons, List.not_mem_nil, or_false] at ho
  rcases ho with rfl | rfl | rfl | rfl | rfl <;> simp [Obj.refs] at hb
  subst hb; decide

end Jsonutils.Props
