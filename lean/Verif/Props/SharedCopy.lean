import Verif.Props.SharedMarshal
import Verif.Props.Unmarshal
import Verif.Proofs.SharedRefs

/-!
# C87: copying a variable through `Marshal` and `Unmarshal`
-/

namespace Jsonutils.Props

open Jsonutils

variable {D : DEnv} {ord : SMap Bytes → List (Bytes × Bytes)} {pick : List Nat → Nat} {oe : Bool}

theorem defs_env {n : Nat} {tys : List (FInfo × DTy)} (h : D.defs[n]? = some tys) : D.env.defs[n]? = some (tys.map fun f => (f.1, f.2.ty)) := by
  simp only [DEnv.env, List.getElem?_map, h, Option.map_some]

theorem roundTripsQ_distinct {text : Bool} (hR : D.env.RoundTripsQ text) : D.Distinct := by
  intro n tys h
  have := (hR.2 n _ (defs_env h)).1
  unfold DistinctNames at this ⊢
  rw [List.filter_map, List.map_map] at this
  exact this

theorem seen_kind {h : Heap} {j : J} {b : Addr} {k : JKind} (hs : j.Seen h b) (hk : j.HasKind k) : ∃ o, h[b]? = some o ∧ o.IsKind k := by
  cases j with
  | null => exact hk.elim
  | ptr _ => exact hk.elim
  | arr xs => obtain ⟨_, rs, ho, _⟩ := hs; exact ⟨_, ho, hk⟩
  | dict id xs => obtain ⟨_, rs, ho, _⟩ := hs; exact ⟨_, ho, hk⟩
  | _ => exact ⟨_, hs.2, hk⟩

/-- Where `Marshal` puts a document, the type has a place for it. -/
theorem put_route {text : Bool} (hR : D.env.RoundTripsQ text) {t : DTy} {s : Bool} {x : DV} {p : List Move} {b : Addr} (hp : x.Put D oe t s p b) :
    ∀ {h : Heap} {u : UV}, x.Is h u → u.HasTy D.env.defs t.ty →
    ∃ t', t.Route D p t' ∧ (t' = .obj ∨ ∃ k, t' = .jptr k ∧ ∃ o, h[b]? = some o ∧ o.IsKind k) ∧ (p = [] → ¬ t.ty.Rooted) := by
  induction hp with
  | here t s b =>
    intro h u hx hu
    obtain ⟨j, rfl, hj⟩ := hx
    cases t with
    | obj => exact ⟨_, .here _, .inl rfl, fun _ h => h⟩
    | jptr k => exact ⟨_, .here _, .inr ⟨k, rfl, seen_kind hj hu⟩, fun _ h => h⟩
    | sc s => cases s <;> exact hu.elim
    | _ => exact hu.elim
  | ptr hp ih =>
    intro h u hx ht
    simp only [DV.Is] at hx
    obtain ⟨w, rfl, h1⟩ := hx
    simp only [UV.HasTy, DTy.ty] at ht
    obtain ⟨t', ht, hw⟩ := ht
    cases ht
    obtain ⟨t', k1, k2, k3⟩ := ih h1 hw
    exact ⟨t', .ptr k1, k2, k3⟩
  | @elem t xs sp i x p b hxi hp ih =>
    intro h u hx ht
    simp only [DV.Is] at hx
    obtain ⟨us, ss, rfl, h1, h2⟩ := hx
    simp only [UV.HasTy, DTy.ty] at ht
    obtain ⟨t', ht, hts, _⟩ := ht
    cases ht
    obtain ⟨u, hu1, hu2⟩ := Iss_at h1 hts i x hxi
    obtain ⟨t', k1, k2, _⟩ := ih hu1 hu2
    exact ⟨t', .elem k1, k2, fun h => by cases h⟩
  | @entry t m k x p b hxi hp ih =>
    intro h u hx ht
    simp only [DV.Is] at hx
    obtain ⟨us, rfl, h1⟩ := hx
    simp only [UV.HasTy, DTy.ty] at ht
    obtain ⟨hsort, t', ht, hts⟩ := ht
    rcases ht with ht | ht <;> cases ht
    obtain ⟨u, hu1, hu2⟩ := Ism_at h1 hts k x hxi
    obtain ⟨t', k1, k2, _⟩ := ih hu1 hu2
    exact ⟨t', .entry k1, k2, fun h => by cases h⟩
  | @field n i fs tys finfo t x p b hd hty hfi hprop hp ih =>
    intro h u hx ht
    obtain ⟨us, h1, hts⟩ := struct_is hd hx ht
    obtain ⟨u, hu1, hu2⟩ := (Issf_at h1 hts).2 i finfo t x hty hfi
    obtain ⟨t', k1, k2, _⟩ := ih hu1 hu2
    have hidx := ((hR.2 n _ (defs_env hd)).2 i finfo t.ty (by simp only [List.getElem?_map, hty, Option.map_some]) hprop.1).2.2.2
    exact ⟨t', .field (by show i ∈ D.env.idx n finfo.name; rw [hidx]; exact List.mem_cons_self ..) hd hty k1, k2, fun h => by cases h⟩
  | @old n i j fs tys finfo info' t t' x p b k hd htj hig hdep hend hty hfi hprop hp ih =>
    intro h u hx ht
    have := ((hR.2 n _ (defs_env hd)).2 j info' t'.ty (by simp only [List.getElem?_map, htj, Option.map_some]) hig).2.2.1
    rw [hdep] at this
    cases this

/-- **C87.** Copy a variable: `Marshal` (or `MarshalAll`) it and `Unmarshal` the result into a fresh variable of the type.  The copy reads as C38
says, no object in memory is changed, and where the variable held a document, the copy holds the very same object (not a copy of it); but for
`JSONNull`, in whose place there is nil. -/
theorem C87_copy_shares (hord : ∀ dep, (ord dep).Perm dep) (hP : D.env.Ok) (hR : D.env.RoundTripsQ false) {t : DTy} (ht : t.ty.RoundTrips false) (hroot : t.ty.Rooted)
    (hval : t.ty.Valid D.env.defs) {gh : List GV} {g : GV} {u : UV} (hv : IsValue D.env.defs gh g u t.ty) (hr : u.Restorable oe false)
    (hok : ValuesOk gh g) {n : Nat} {j : J} (hm : marshal ord pick oe gh n g = some j) (hp : j.PlainFor D.env) (hn : j.NoPtr)
    {h : Heap} (hh : h.Ok) {x : DV} (hx : x.Is h u) :
    ∃ f0, ∀ f, f0 ≤ f → ∃ a h1 y h2, marshalD ord oe D f t h x = .ok (a, h1) ∧ unmarshalD D f h1 a [] t (D.zero t) = .ok ((y, none), h2) ∧
      h <+: h2 ∧ y.Is h2 (u.restored D.env oe t.ty) ∧
      ∀ p b, x.Put D oe t false p b → h[b]? ≠ some .null → ∃ t', t.Route D p t' ∧ y.Spot D t p t' (.ref b) := by
  obtain ⟨f0, a, h1, k1, k2, k3⟩ := C82_content hv hm hh hx
  obtain ⟨f1, k4⟩ := unmarshal_matches (S := True) hP (C55_well_formed hord hok hm) (plain_orderly _ hp) (fun _ => hp) hn k3 [] hval (zero_hasTy hP t.ty hval) (zero_is h1 t) (zero_blank (D := D) t t)
  refine ⟨max f0 f1, fun f hf => ?_⟩
  have hc := C38_root hord hR.toD ht hroot hv hr hm
  have k5 := k4 f (by omega)
  rw [hc] at k5
  obtain ⟨y, h2, e1, e2, e3, e4⟩ := k5
  refine ⟨a, h1, y, h2, k1 f (by omega), e1, k2.trans e2, e3, fun p b hput hb => ?_⟩
  obtain ⟨t', r1, r2, r3⟩ := put_route hR hput hx hv.1
  have hway := C82_shares hord (roundTripsQ_distinct hR) hx hv.1 (k1 f (by omega)) hput
  have hnode : j.IsNode := by
    cases hway with
    | here => exact absurd hroot (r3 rfl)
    | key ho _ _ => cases j <;> first | exact trivial | (have := k3.2; rw [ho] at this; cases this)
    | elem ho _ _ => cases j <;> first | exact trivial | (have := k3.2; rw [ho] at this; cases this)
  have hS := e4 rfl trivial a (.inl ⟨rfl, rfl, hnode⟩)
  obtain ⟨o, ho⟩ : ∃ o, h[b]? = some o := by
    obtain ⟨w, hw⟩ := put_inside hput hx hv.1
    exact seen_get hw
  have ho1 := prefix_get k2 ho
  have hon : o ≠ .null := fun e => hb (e ▸ ho)
  obtain ⟨z, hz⟩ := hS.there p b o t' hway ho1 hon r1 (r2.imp_right fun ⟨k, e, _⟩ => ⟨k, e⟩)
  refine ⟨t', r1, ?_⟩
  have hH := hS.held p b o t' z hway ho1 hz
  rcases r2 with e | ⟨k, e, o', ho', hk⟩
  · rw [(hH.1 e).2 hon] at hz; exact hz
  · rw [ho] at ho'; cases ho'
    rw [(hH.2 k e).2.1 hk] at hz; exact hz

theorem unmarshalD_in {f : Nat} {h h' : Heap} {a : Addr} {keys : List Bytes} {t : DTy} {x x' : DV} {e : Option UErr}
    (hr : unmarshalD D f h a keys t x = .ok ((x', e), h')) : HGrow h h' ∧ x'.In fun b => x.Has b ∨ Reach h a b ∨ h.length ≤ b := by
  have hcl : RClosed (Reach h a) h := fun c o d hc ho hd => reach_trans hc (.step ho hd (.refl d))
  let T : Addr → Prop := fun b => x.Has b ∨ Reach h a b ∨ h.length ≤ b
  have hx : x.In T := fun b hb => .inl hb
  have hout : ∀ r, (∀ c, r = some c → Reach h a c) → HOut T h (unmD D f t h r x) := fun r hr =>
    unmD_in (R := Reach h a) (fun c hc => .inr (.inl hc)) f t h r x (fun c hc => .inr (.inr hc)) hcl hr hx
  cases keys with
  | nil =>
    have hself : ∀ c, some a = some c → Reach h a c := fun c hc => by cases hc; exact .refl a
    simp only [unmarshalD] at hr
    split at hr
    · cases hr
    · exact hout _ hself _ _ _ hr
    · exact hout _ hself _ _ _ hr
    · exact hout _ hself _ _ _ hr
    · cases hr; exact ⟨.refl h, in_zero t⟩
  | cons k ks =>
    simp only [unmarshalD] at hr
    split at hr
    · rename_i r hget
      exact hout r (fun c hc => get_reach (hc ▸ hget)) _ _ _ hr
    · cases hr; exact ⟨.refl h, hx⟩
    · cases hr

/-- **C87, what a variable holds after `Unmarshal`.** Whatever the document, the keys, the variable and the type: every object that the variable
then holds it held before, or it is (part of) the document, or `Unmarshal` has made it. -/
theorem C87_sources {f : Nat} {h h' : Heap} {a : Addr} {keys : List Bytes} {t : DTy} {x x' : DV} {e : Option UErr}
    (hr : unmarshalD D f h a keys t x = .ok ((x', e), h')) (b : Addr) (hb : x'.Has b) : x.Has b ∨ Reach h a b ∨ h.length ≤ b :=
  (unmarshalD_in hr).2 b hb

/-- All that can be reached from a fresh variable after `Unmarshal`. -/
theorem unmarshal_below {f : Nat} {h h' : Heap} {a : Addr} {keys : List Bytes} {t : DTy} {x' : DV} {e : Option UErr}
    (hr : unmarshalD D f h a keys t (D.zero t) = .ok ((x', e), h')) {b c : Addr} (hb : x'.Has b) (hc : Reach h' b c) :
    Reach h a c ∨ h.length ≤ c := by
  have hb' : Reach h a b ∨ h.length ≤ b := ((unmarshalD_in hr).2 b hb).resolve_left (zero_noref t b)
  clear hb
  induction hc with
  | refl => exact hb'
  | @step a1 o b1 c ho hm _ ih =>
    refine ih ?_
    rcases (unmarshalD_in hr).1.same _ _ ho with e | e
    · rcases hb' with k | k
      · exact .inl (reach_trans k (.step e hm (.refl _)))
      · exact absurd (List.getElem?_eq_some_iff.1 e).1 (Nat.not_lt.2 k)
    · rw [e] at hm; cases hm

/-- **C87, an independent copy.** With a `DeepCopy` of the document between `Marshal` and `Unmarshal`, the copy reads the same, but it holds no
object that was there before.  So no later history of calls made through what was there before (the variable's documents and all other) changes the
copy, and none made through the copy changes the variable. -/
theorem C87_independent (hord : ∀ dep, (ord dep).Perm dep) {cord : SMap Ref → SMap Ref} (hcord : ∀ l, (cord l).Perm l) (hP : D.env.Ok) (hR : D.env.RoundTripsQ false)
    {t : DTy} (ht : t.ty.RoundTrips false) (hroot : t.ty.Rooted) (hval : t.ty.Valid D.env.defs) {gh : List GV} {g : GV} {u : UV}
    (hv : IsValue D.env.defs gh g u t.ty) (hr : u.Restorable oe false) (hok : ValuesOk gh g) {n : Nat} {j : J} (hm : marshal ord pick oe gh n g = some j)
    (hp : j.PlainFor D.env) (hn : j.NoPtr) (hid : j.NoIds) {h : Heap} (hh : h.Ok) {x : DV} (hx : x.Is h u) :
    ∃ f0, ∀ f, f0 ≤ f → ∃ a h1 a' h2 y h3, marshalD ord oe D f t h x = .ok (a, h1) ∧ deepCopyH cord f h1 (some a) = .ok (some a', h2) ∧
      unmarshalD D f h2 a' [] t (D.zero t) = .ok ((y, none), h3) ∧ h <+: h3 ∧ y.Is h3 (u.restored D.env oe t.ty) ∧
      (∀ b c, y.Has b → Reach h3 b c → h.length ≤ c) ∧
      (∀ cs, OrdersOk cs → Mentions (fun b => b < h.length ∨ h3.length ≤ b) cs → y.Is (runCalls h3 cs) (u.restored D.env oe t.ty)) ∧
      ∀ cs, OrdersOk cs → Mentions (fun b => (∃ c, y.Has c ∧ Reach h3 c b) ∨ h3.length ≤ b ∨ b < Heap.base.length) cs → x.Is (runCalls h3 cs) u := by
  obtain ⟨f0, a, h1, k1, k2, k3⟩ := C82_content hv hm hh hx
  have hw := C55_well_formed hord hok hm
  obtain ⟨f1, a', h2, q1, q2, q3⟩ := copy_ok hcord j hw hn h1 a k3
  rw [dropIds_eq j hid] at q2
  have q2' : j.Seen h2 a' := At_agree (fun _ _ => trivial) (fun _ _ _ ho => ho) _ _ q2
  obtain ⟨f2, k4⟩ := unmarshal_matches (S := True) hP hw (plain_orderly _ hp) (fun _ => hp) hn q2' [] hval (zero_hasTy hP t.ty hval) (zero_is h2 t) (zero_blank (D := D) t t)
  refine ⟨max f0 (max f1 f2), fun f hf => ?_⟩
  have hc := C38_root hord hR.toD ht hroot hv hr hm
  have k5 := k4 f (by omega)
  rw [hc] at k5
  obtain ⟨y, h3, e1, e2, e3, _⟩ := k5
  have hpre : h <+: h3 := (k2.trans q1).trans e2
  have hl12 := q1.length_le
  have hl01 := k2.length_le
  have hnew : ∀ b c, y.Has b → Reach h3 b c → h.length ≤ c := by
    intro b c hb hc
    rcases unmarshal_below e1 hb hc with g | g
    · have := (At_reach _ _ q2 c g).1; omega
    · omega
  have hold : ∀ b c, x.Has b → Reach h3 b c → c < h.length := by
    intro b c hb hc
    have hb' := has_inside hb hx
    clear hb
    induction hc with
    | refl => exact hb'
    | step ho hm _ ih =>
      obtain ⟨w, rfl⟩ := hpre
      rw [List.getElem?_append_left hb'] at ho
      exact ih (hh.inside _ (List.mem_of_getElem? ho) _ hm)
  have hbase : Heap.base <+: h3 := hh.base.trans hpre
  have hbase' : ∀ b, b < Heap.base.length → h3[b]? = Heap.base[b]? := by
    intro b hb
    obtain ⟨t, rfl⟩ := hbase
    exact List.getElem?_append_left hb
  refine ⟨a, h1, a', h2, y, h3, k1 f (by omega), q3 f (by omega), e1, hpre, e3, hnew, fun cs ho hm => ?_, fun cs ho hm => ?_⟩
  · have hcl : Closed (fun b => b < h.length ∨ h3.length ≤ b) h3 := by
      refine ⟨fun b hb => .inr hb, fun z o hz hzo b hb => ?_⟩
      rcases hz with hz | hz
      · obtain ⟨w, rfl⟩ := hpre
        rw [List.getElem?_append_left hz] at hzo
        exact .inl (hh.inside _ (List.mem_of_getElem? hzo) _ hb)
      · exact absurd (List.getElem?_eq_some_iff.1 hzo).1 (Nat.not_lt.2 hz)
    have s := runCalls_ok cs h3 hcl hm ho
    refine is_agree y _ (fun b hb c hc hr => s.keep c hc ?_) e3
    rintro (g | g)
    · exact absurd (hnew b c hb hr) (Nat.not_le.2 g)
    · exact absurd hc (Nat.not_lt.2 g)
  · have hcl : Closed (fun b => (∃ c, y.Has c ∧ Reach h3 c b) ∨ h3.length ≤ b ∨ b < Heap.base.length) h3 := by
      refine ⟨fun b hb => .inr (.inl hb), fun z o hz hzo b hb => ?_⟩
      rcases hz with ⟨c, hc, hr⟩ | hz | hz
      · exact .inl ⟨c, hc, reach_trans hr (.step hzo hb (.refl b))⟩
      · exact absurd (List.getElem?_eq_some_iff.1 hzo).1 (Nat.not_lt.2 hz)
      · rw [hbase' z hz] at hzo
        have : o ∈ Heap.base := List.mem_of_getElem? hzo
        simp only [Heap.base, List.mem_cons, List.not_mem_nil, or_false] at this
        rcases this with rfl | rfl | rfl <;> simp [Obj.refs] at hb
    have s := runCalls_ok cs h3 hcl hm ho
    refine is_agree x _ (fun b hb c hc hr => ?_) (Is_mono hpre x u hx)
    by_cases hb3 : c < Heap.base.length
    · refine s.imm c ?_
      rw [hbase' c hb3]
      have : c = 0 ∨ c = 1 ∨ c = 2 := by simp [Heap.base] at hb3; omega
      rcases this with rfl | rfl | rfl
      · left; rfl
      · right; exact ⟨true, rfl⟩
      · right; exact ⟨false, rfl⟩
    · refine s.keep c hc ?_
      have hco := hold b c hb hr
      rintro (⟨d, hd, g⟩ | g | g)
      · exact absurd (hnew d c hd g) (Nat.not_le.2 hco)
      · exact absurd hpre.length_le (by omega)
      · exact hb3 g

/-! ### Non-vacuity -/

/-- In the variable of type `exShare`: the dictionary `{"x":null}` in three places, the text `"s"` in two. -/
def exCopyVar : DV := .struct [.ref 3, .nil, .seq [.ref 4, .ref 3] [], .map [(b!"k", .ref 3)], .ref 4]

def exCopyVal : UV := .struct [.json (.dict 0 [(b!"x", .null)]), .nil, .seq [.json (.str b!"s"), .json (.dict 0 [(b!"x", .null)])] [],
  .map [(b!"k", .json (.dict 0 [(b!"x", .null)]))], .json (.str b!"s")]

def exCopyGV : GV := .struct [({ name := b!"obj" }, .leaf (.jsonIface (.dict 0 [(b!"x", .null)]))), ({ name := b!"arr" }, .leaf .nil),
  ({ name := b!"all" }, .seq [.leaf (.jsonIface (.str b!"s")), .leaf (.jsonIface (.dict 0 [(b!"x", .null)]))]),
  ({ name := b!"map" }, .map [(b!"k", .jsonPtr (.dict 0 [(b!"x", .null)]))]), ({ name := b!"n" }, .jsonPtr (.str b!"s"))]

/-- The copy holds the same dictionary and the same text. -/
example : ∃ a h1 h2, marshalD (fun m => m) true exShare 9 (.struct 0) exPutHeap exCopyVar = .ok (a, h1) ∧
    unmarshalD exShare 9 h1 a [] (.struct 0) (exShare.zero (.struct 0)) = .ok ((exCopyVar, none), h2) := ⟨_, _, _, rfl, rfl⟩

/-- With a deep copy in between it holds a dictionary of its own in each place. -/
example : ∃ a h1 a' h2 h3, marshalD (fun m => m) true exShare 9 (.struct 0) exPutHeap exCopyVar = .ok (a, h1) ∧
    deepCopyH (fun m => m) 9 h1 (some a) = .ok (some a', h2) ∧
    unmarshalD exShare 9 h2 a' [] (.struct 0) (exShare.zero (.struct 0)) =
      .ok ((.struct [.ref 17, .nil, .seq [.ref 8, .ref 10] [], .map [(b!"k", .ref 13)], .ref 15], none), h3) := ⟨_, _, _, _, _, rfl, rfl, rfl⟩

theorem exShare_roundTrips : exShare.env.RoundTripsQ false := by
  refine ⟨exShare_ok.1, ?_⟩
  intro n fs h
  cases n with
  | succ n => simp [exShare, DEnv.env] at h
  | zero =>
    simp only [exShare, DEnv.env, List.map_cons, List.map_nil, List.getElem?_cons_zero, Option.some.injEq] at h
    subst h
    refine ⟨by unfold DistinctNames; decide, ?_⟩
    intro k i t hk _
    match k with
    | 0 => simp at hk; obtain ⟨rfl, rfl⟩ := hk; exact ⟨trivial, (fun h => by cases h), rfl, by decide⟩
    | 1 => simp at hk; obtain ⟨rfl, rfl⟩ := hk; exact ⟨trivial, (fun h => by cases h), rfl, by decide⟩
    | 2 => simp at hk; obtain ⟨rfl, rfl⟩ := hk; exact ⟨trivial, (fun h => by cases h), rfl, by decide⟩
    | 3 => simp at hk; obtain ⟨rfl, rfl⟩ := hk; exact ⟨trivial, (fun h => by cases h), rfl, by decide⟩
    | 4 => simp at hk; obtain ⟨rfl, rfl⟩ := hk; exact ⟨trivial, (fun h => by cases h), rfl, by decide⟩
    | k + 5 => simp at hk

/-- No struct type of `exShare` has two fields for one key, and every key leads to its own field. -/
theorem exShare_plain (kvs : List (Bytes × J)) (hnd : (kvs.map (·.1)).Nodup) (n : Nat) (fs : List (FInfo × Ty)) (h : exShare.env.defs[n]? = some fs) :
    PlainKeys (exShare.env.idx n) fs kvs := by
  cases n with
  | succ n => simp [exShare, DEnv.env] at h
  | zero =>
    simp only [exShare, DEnv.env, List.map_cons, List.map_nil, List.getElem?_cons_zero, Option.some.injEq] at h
    subst h
    refine ⟨fun k j _ => ?_, ?_⟩
    · simp only [exShare, DEnv.env]
      (repeat' split) <;> first | exact .inl rfl | exact .inr ⟨_, _, _, rfl, rfl, rfl⟩
    · rw [List.Nodup, List.pairwise_map] at hnd
      have key : ∀ k i, exShare.idx 0 k = [i] → k = [b!"obj", b!"arr", b!"all", b!"map", b!"n"].getD i [] := by
        intro k i h
        simp only [exShare] at h
        (repeat' split at h) <;> simp only [List.cons.injEq, and_true, reduceCtorEq] at h <;> subst h <;> assumption
      exact hnd.imp fun {p q} hne i h1 h2 => hne ((key _ i h1).trans (key _ i h2).symm)

/-- The hypotheses of `C87_copy_shares` and `C87_independent` hold of it. -/
example : ∃ j, exShare.env.Ok ∧ exShare.env.RoundTripsQ false ∧ (DTy.struct 0).ty.RoundTrips false ∧ (DTy.struct 0).ty.Rooted ∧ (DTy.struct 0).ty.Valid exShare.env.defs ∧
    IsValue exShare.env.defs [] exCopyGV exCopyVal (DTy.struct 0).ty ∧ exCopyVal.Restorable true false ∧ ValuesOk [] exCopyGV ∧
    marshal (fun m => m) (fun _ => 0) true [] 3 exCopyGV = some j ∧ j.PlainFor exShare.env ∧ j.NoPtr ∧ j.NoIds ∧ exPutHeap.Ok ∧ exCopyVar.Is exPutHeap exCopyVal ∧
    exCopyVar.Put exShare true (.struct 0) false [.key b!"map", .key b!"k"] 3 ∧ exPutHeap[3]? ≠ some .null := by
  refine ⟨.dict 0 [(b!"all", .arr [.str b!"s", .dict 0 [(b!"x", .null)]]), (b!"map", .dict 0 [(b!"k", .dict 0 [(b!"x", .null)])]), (b!"n", .str b!"s"),
    (b!"obj", .dict 0 [(b!"x", .null)])], exShare_ok, exShare_roundTrips, trivial, trivial, by simp [DTy.ty, Ty.Valid, exShare, DEnv.env], ⟨?_, ?_⟩, ?_, ⟨?_, ?_⟩, rfl, ?_, ?_, ?_, ⟨⟨_, rfl⟩, ?_⟩, ?_, ?_, ?_⟩
  · simp [exCopyVal, UV.HasTy, UV.HasTys, UV.HasTym, UV.HasTyf, DTy.ty, exShare, DEnv.env, Ty.Nilable, SMap.Sorted, J.HasKind]
  · simp only [exCopyVal, exCopyGV, exShare, DEnv.env, DTy.ty, UV.toTV, UV.toTVs, UV.toTVm, UV.toTVf, Ty.fields, Ty.elem, List.map_cons, List.map_nil, List.getD_cons_zero]
    exact .struct (.cons (.leaf _) (.cons (.leaf _) (.cons (.seq (.cons (.leaf _) (.cons (.leaf _) .nil))) (.cons (.map (.cons (.jsonPtr _) .nil)) (.cons (.jsonPtr _) .nil)))))
  · simp [exCopyVal, UV.Restorable, UV.Restorables, UV.Restorablem, UV.nilLike]
  · simp [exCopyGV, GV.Ok, GV.Okf, GV.Oks, GV.Okm, Leaf.Ok, J.WF, J.WFf, SMap.Sorted, InI64, i64min, i64max, J.Refable, J.Refablef, jsonPointerKey, blt]
  · intro x hx; cases hx
  · simp only [J.PlainFor, J.PlainForf, J.PlainFors, and_true, true_and]
    exact ⟨exShare_plain _ (by decide), exShare_plain _ (by simp), ⟨exShare_plain _ (by simp), exShare_plain _ (by simp)⟩, exShare_plain _ (by simp)⟩
  · simp [J.NoPtr, J.NoPtrs, J.NoPtrf]
  · simp [J.NoIds, J.NoIdss, J.NoIdsf]
  · intro o ho b hb
    simp only [exPutHeap, Heap.base, List.cons_append, List.nil_append, List.mem_cons, List.not_mem_nil, or_false] at ho
    rcases ho with rfl | rfl | rfl | rfl | rfl <;> simp [Obj.refs] at hb
    subst hb; decide
  · simp [exCopyVar, exCopyVal, DV.Is, DV.Iss, DV.Ism, UV.IsPlain, J.At, J.Atf, exPutHeap, Heap.base]
  · exact .field (n := 0) (i := 3) (info := { name := b!"map" }) rfl rfl rfl ⟨rfl, rfl⟩ (.entry (List.mem_cons_self ..) (.here _ _ _))
  · simp [exPutHeap, Heap.base]

end Jsonutils.Props
