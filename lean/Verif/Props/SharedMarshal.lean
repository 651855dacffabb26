import Verif.Proofs.SharedPut
import Verif.Props.SharedData

/-!
# C82: documents marshalled from variables

`Marshal` of variables of types like `JSONObject` and `*JSONDict` puts the documents they hold, not copies, into its result.
-/

namespace Jsonutils.Props

open Jsonutils

variable {D : DEnv} {ord : SMap Bytes → List (Bytes × Bytes)} {pick : List Nat → Nat} {oe : Bool}

/-- **C82, the content.** `Marshal` (or `MarshalAll`) of a variable that holds documents makes the document that the properties on `Marshal`
(C38 to C46) say, where a variable holding a document counts as that document; and no object that was in memory has changed. -/
theorem C82_content {gh : List GV} {g : GV} {u : UV} {t : DTy} (hv : IsValue D.env.defs gh g u t.ty) {n : Nat} {j : J} (hm : marshal ord pick oe gh n g = some j)
    {h : Heap} (hok : h.Ok) {x : DV} (hx : x.Is h u) :
    ∃ f0 a h', (∀ f, f0 ≤ f → marshalD ord oe D f t h x = .ok (a, h')) ∧ h <+: h' ∧ j.Seen h' a := by
  obtain ⟨o, ho, rfl⟩ := marshal_tree hv.2 hm
  obtain ⟨f0, r, h', k1, k2, k3⟩ := marD_is x u t h none o hok.base hx hv.1 ho
  refine ⟨f0, r.getD nullAddr, h', fun f hf => by simp only [marshalD, k1 f hf, CRes.map], k2, ?_⟩
  cases o with
  | none => cases k3; exact ⟨trivial, prefix_get k2 (prefix_get hok.base rfl)⟩
  | some j => obtain ⟨a, rfl, ha⟩ := k3; exact ha

theorem marshalD_marD {f : Nat} {t : DTy} {h h' : Heap} {x : DV} {a : Addr} (hr : marshalD ord oe D f t h x = .ok (a, h')) :
    ∃ r, DV.marD ord oe D f x t h none = .ok (r, h') ∧ a = r.getD nullAddr := by
  unfold marshalD at hr
  cases hm : DV.marD ord oe D f x t h none with
  | ok q => rw [hm] at hr; simp only [CRes.map] at hr; cases hr; exact ⟨q.1, rfl, rfl⟩
  | panic => rw [hm] at hr; cases hr
  | fuel => rw [hm] at hr; cases hr

/-- **C82, sharing.** Every document that the variable holds, other than below a field with option `,string`, is in the result: the very
object, at the position of its place in the variable; under the key of a deprecated field too. -/
theorem C82_shares (hord : ∀ dep, (ord dep).Perm dep) (hdis : D.Distinct) {f : Nat} {t : DTy} {h h' : Heap} {x : DV} {u : UV} (hx : x.Is h u) (hu : u.HasTy D.env.defs t.ty)
    {a : Addr} (hr : marshalD ord oe D f t h x = .ok (a, h')) {p : List Move} {b : Addr} (hp : x.Put D oe t false p b) : Way h' a p b := by
  obtain ⟨r, h1, rfl⟩ := marshalD_marD hr
  obtain ⟨c, rfl, hw⟩ := marD_put hord hdis hp hx hu rfl h1
  exact hw

/-- **C82, nothing else is shared.** Every object that can be reached from the result is new, or `JSONNull`, `JSONTrue`, `JSONFalse`, or one
of the documents held by the variable or part of one. -/
theorem C82_fresh (hord : ∀ dep, (ord dep).Perm dep) (hdis : D.Distinct) {f : Nat} {t : DTy} {h h' : Heap} (hok : h.Ok) {x : DV} {u : UV} (hx : x.Is h u)
    (hu : u.HasTy D.env.defs t.ty) {a : Addr} (hr : marshalD ord oe D f t h x = .ok (a, h')) {b : Addr} (hb : Reach h' a b) :
    h.length ≤ b ∨ b < 3 ∨ ∃ p c, x.Put D oe t false p c ∧ Way h' a p c ∧ Reach h c b := by
  obtain ⟨r, h1, rfl⟩ := marshalD_marD hr
  obtain ⟨L, k1, k2⟩ := marD_built hord hdis x hx hu h1
  have ht : Tgt L (fun b => ∃ p, x.Put D oe t (optForce none) p b) (r.getD nullAddr) := by
    cases r with
    | none => exact .inr (.inl (by decide))
    | some a => exact k2 a rfl
  have hin : ∀ c, (∃ p, x.Put D oe t (optForce none) p c) → c < h.length := by
    rintro c ⟨p, hp⟩
    obtain ⟨j, hj⟩ := put_inside hp hx hu
    obtain ⟨o, ho⟩ := seen_get hj
    exact (List.getElem?_eq_some_iff.1 ho).1
  rcases built_reach hok (marD_prefix x h1) k1 hin ht hb with g | g | ⟨c, ⟨p, hp⟩, g⟩
  · exact .inl g
  · exact .inr (.inl g)
  · exact .inr (.inr ⟨p, c, hp, C82_shares hord hdis hx hu hr hp, g⟩)

/-- **C82, an edit of the document.** A later change of a document that the variable holds, be it through the variable or through the result,
changes the result at that document's position, and the variable: both still hold the same object. -/
theorem C82_edit (hord : ∀ dep, (ord dep).Perm dep) (hdis : D.Distinct) {f : Nat} {t : DTy} {h h' : Heap} {x : DV} {u : UV} (hx : x.Is h u) (hu : u.HasTy D.env.defs t.ty)
    {a : Addr} (hr : marshalD ord oe D f t h x = .ok (a, h')) {v : J} (hv : v.Seen h' a) {p : List Move} {b : Addr} (hp : x.Put D oe t false p b)
    (c : Call) (hc : c.target = some b) (w : J) (hw : w.Seen (c.run h') b) :
    ∃ v', J.Seen (c.run h') v' a ∧ v'.Sub p w ∧ Edited h' b w a v v' := by
  obtain ⟨v', h1, h2⟩ := C79_edit h' c b hc w hw v a hv
  exact ⟨v', h1, h2.inside p (C82_shares hord hdis hx hu hr hp), h2⟩

mutual
theorem is_agree {h h' : Heap} : ∀ (x : DV) (u : UV), (∀ b, x.Has b → ∀ y, y < h.length → Reach h b y → h'[y]? = h[y]?) → x.Is h u → x.Is h' u
  | .nil, u, hd, hx => hx
  | .sc _, u, hd, hx => hx
  | .ref a, u, hd, hx => by
    obtain ⟨j, rfl, hj⟩ := hx
    exact ⟨j, rfl, Seen_keep hj (hd a (.ref a))⟩
  | .seq xs sp, u, hd, hx => by
    obtain ⟨us, ss, rfl, h1, h2⟩ := hx
    exact ⟨us, ss, rfl, iss_agree xs us (fun x hm b hb => hd b (.elem (List.mem_append_left _ hm) hb)) h1,
      iss_agree sp ss (fun x hm b hb => hd b (.elem (List.mem_append_right _ hm) hb)) h2⟩
  | .map m, u, hd, hx => by
    obtain ⟨us, rfl, h1⟩ := hx
    exact ⟨us, rfl, ism_agree m us (fun k x hm b hb => hd b (.entry hm hb)) h1⟩
  | .ptr x, u, hd, hx => by
    obtain ⟨w, rfl, h1⟩ := hx
    exact ⟨w, rfl, is_agree x w (fun b hb => hd b (.ptr hb)) h1⟩
  | .struct fs, u, hd, hx => by
    obtain ⟨us, rfl, h1⟩ := hx
    exact ⟨us, rfl, iss_agree fs us (fun x hm b hb => hd b (.field hm hb)) h1⟩
theorem iss_agree {h h' : Heap} : ∀ (xs : List DV) (us : List UV), (∀ x ∈ xs, ∀ b, x.Has b → ∀ y, y < h.length → Reach h b y → h'[y]? = h[y]?) → DV.Iss h xs us → DV.Iss h' xs us
  | [], us, hd, hx => hx
  | x :: xs, us, hd, hx => by
    obtain ⟨u, r, rfl, h1, h2⟩ := hx
    exact ⟨u, r, rfl, is_agree x u (hd x (List.mem_cons_self ..)) h1, iss_agree xs r (fun y hy => hd y (List.mem_cons_of_mem _ hy)) h2⟩
theorem ism_agree {h h' : Heap} : ∀ (xs : List (Bytes × DV)) (us : List (Bytes × UV)), (∀ k x, (k, x) ∈ xs → ∀ b, x.Has b → ∀ y, y < h.length → Reach h b y → h'[y]? = h[y]?) → DV.Ism h xs us → DV.Ism h' xs us
  | [], us, hd, hx => hx
  | (k, x) :: xs, us, hd, hx => by
    obtain ⟨u, r, rfl, h1, h2⟩ := hx
    exact ⟨u, r, rfl, is_agree x u (hd k x (List.mem_cons_self ..)) h1, ism_agree xs r (fun k' y hy => hd k' y (List.mem_cons_of_mem _ hy)) h2⟩
end

theorem is_keep {h h' : Heap} {d : Addr} (hk : ∀ y, y ≠ d → h'[y]? = h[y]?) (x : DV) (u : UV) (hd : ∀ b, x.Has b → ¬ Reach h b d) (hx : x.Is h u) : x.Is h' u :=
  is_agree x u (fun b hb y _ hy => hk y fun e => hd b hb (e ▸ hy)) hx

theorem iss_mem {h : Heap} : ∀ {xs : List DV} {us : List UV}, DV.Iss h xs us → ∀ x ∈ xs, ∃ u, x.Is h u
  | [], us, _, x, hm => by cases hm
  | y :: xs, us, hx, x, hm => by
    obtain ⟨u, r, rfl, h1, h2⟩ := hx
    rcases List.mem_cons.1 hm with rfl | hm
    · exact ⟨u, h1⟩
    · exact iss_mem h2 x hm

theorem ism_mem {h : Heap} : ∀ {xs : List (Bytes × DV)} {us : List (Bytes × UV)}, DV.Ism h xs us → ∀ k x, (k, x) ∈ xs → ∃ u, x.Is h u
  | [], us, _, k, x, hm => by cases hm
  | (k', y) :: xs, us, hx, k, x, hm => by
    obtain ⟨u, r, rfl, h1, h2⟩ := hx
    rcases List.mem_cons.1 hm with hm | hm
    · cases hm; exact ⟨u, h1⟩
    · exact ism_mem h2 k x hm

theorem has_inside {h : Heap} {x : DV} {b : Addr} (hb : x.Has b) : ∀ {u : UV}, x.Is h u → b < h.length := by
  induction hb with
  | ref b =>
    rintro u ⟨j, rfl, hj⟩
    obtain ⟨o, ho⟩ := seen_get hj
    exact (List.getElem?_eq_some_iff.1 ho).1
  | elem hm _ ih =>
    rintro u ⟨us, ss, rfl, h1, h2⟩
    rcases List.mem_append.1 hm with hm | hm
    · obtain ⟨u, hu⟩ := iss_mem h1 _ hm; exact ih hu
    · obtain ⟨u, hu⟩ := iss_mem h2 _ hm; exact ih hu
  | entry hm _ ih =>
    rintro u ⟨us, rfl, h1⟩
    obtain ⟨u, hu⟩ := ism_mem h1 _ _ hm; exact ih hu
  | ptr _ ih => rintro u ⟨w, rfl, h1⟩; exact ih h1
  | field hm _ ih =>
    rintro u ⟨us, rfl, h1⟩
    obtain ⟨u, hu⟩ := iss_mem h1 _ hm; exact ih hu

/-- **C82, an edit of the rest.** A later change of an object that `Marshal` has made (the dictionaries of structs and maps, the arrays of
slices) leaves the variable as it was. -/
theorem C82_apart {f : Nat} {t : DTy} {h h' : Heap} (hok : h.Ok) {x : DV} {u : UV} (hx : x.Is h u) {a : Addr} (hr : marshalD ord oe D f t h x = .ok (a, h'))
    (c : Call) (d : Addr) (hc : c.target = some d) (hd : h.length ≤ d) : x.Is (c.run h') u := by
  obtain ⟨r, h1, rfl⟩ := marshalD_marD hr
  have hpre := marD_prefix x h1
  refine is_keep (target_keep hc) x u (fun b hb hreach => ?_) (Is_mono hpre x u hx)
  have hb' := has_inside hb hx
  have : d < h.length := by
    have key : ∀ {b d : Addr}, b < h.length → Reach h' b d → d < h.length := by
      intro b d hb hbd
      induction hbd with
      | refl => exact hb
      | step ho hm _ ih =>
        obtain ⟨w, rfl⟩ := hpre
        rw [List.getElem?_append_left hb] at ho
        exact ih (hok.inside _ (List.mem_of_getElem? ho) _ hm)
    exact key hb' hreach
  exact absurd hd (Nat.not_le.2 this)

/-! ### Non-vacuity -/

/-- `struct { Obj JSONObject; All []JSONObject; M map[string]*JSONDict; T []JSONObject (",string"); Old JSONObject (deprecated by obj); N int64 }` -/
def exPut : DEnv where
  defs := [[({ name := b!"obj" }, .obj), ({ name := b!"all" }, .slice .obj), ({ name := b!"m" }, .map (.jptr .dict)), ({ name := b!"t", forceString := true }, .slice .obj),
    ({ name := b!"old", deprecatedBy := some b!"obj" }, .obj), ({ name := b!"n" }, .sc (.int 64))]]
  idx := fun _ _ => []
  toBool := fun _ => false
  us := fun _ => false
  eu := fun _ => false
  trunc := fun _ => 0

/-- `{"x":null}` and `"s"` -/
def exPutHeap : Heap := Heap.base ++ [.dict 0 [(b!"x", some 0)], .str b!"s"]

def exPutVar : DV := .struct [.ref 3, .seq [.nil, .ref 4, .ref 3] [], .map [(b!"k", .ref 3)], .seq [.ref 4] [], .nil, .sc (.int 7)]

/-- Its result: `{"all":["s",{"x":null}],"m":{"k":{"x":null}},"n":7,"obj":{"x":null},"old":{"x":null},"t":"[\"s\"]"}`, in which all the dictionaries
`{"x":null}` are one. -/
example : ∃ a h', marshalD (fun m => m) true exPut 9 (.struct 0) exPutHeap exPutVar = .ok (a, h') ∧
    a = 10 ∧ h' = exPutHeap ++ [.arr [some 4, some 3], .dict 0 [(b!"k", some 3)], .arr [some 4], .str b!"[\"s\"]", .int 7,
      .dict 0 [(b!"all", some 5), (b!"m", some 6), (b!"n", some 9), (b!"obj", some 3), (b!"old", some 3), (b!"t", some 8)]] := ⟨_, _, rfl, rfl, rfl⟩

def exPutVal : UV := .struct [.json (.dict 0 [(b!"x", .null)]), .seq [.nil, .json (.str b!"s"), .json (.dict 0 [(b!"x", .null)])] [],
  .map [(b!"k", .json (.dict 0 [(b!"x", .null)]))], .seq [.json (.str b!"s")] [], .nil, .int 7]

/-- The hypotheses of the theorems hold of it, and documents are put: the dictionary is in four places. -/
example : exPutHeap.Ok ∧ exPut.Distinct ∧ exPutVar.Is exPutHeap exPutVal ∧ exPutVal.HasTy exPut.env.defs (DTy.struct 0).ty ∧
    exPutVar.Put exPut true (.struct 0) false [.key b!"obj"] 3 ∧ exPutVar.Put exPut true (.struct 0) false [.key b!"all", .elem 1] 3 ∧
    exPutVar.Put exPut false (.struct 0) false [.key b!"all", .elem 2] 3 ∧
    exPutVar.Put exPut true (.struct 0) false [.key b!"m", .key b!"k"] 3 ∧ exPutVar.Put exPut true (.struct 0) false [.key b!"old"] 3 := by
  refine ⟨⟨⟨_, rfl⟩, ?_⟩, ?_, ?_, ?_, ?_, ?_, ?_, ?_, ?_⟩
  · intro o ho b hb
    simp only [exPutHeap, Heap.base, List.cons_append, List.nil_append, List.mem_cons, List.not_mem_nil, or_false] at ho
    rcases ho with rfl | rfl | rfl | rfl | rfl <;> simp [Obj.refs] at hb
    subst hb; decide
  · intro n tys hd
    cases n with
    | succ n => simp [exPut] at hd
    | zero => simp only [exPut, List.getElem?_cons_zero, Option.some.injEq] at hd; subst hd; unfold DistinctNames; decide
  · simp [exPutVar, exPutVal, DV.Is, DV.Iss, DV.Ism, UV.IsPlain, J.At, J.Atf, exPutHeap, Heap.base]
  · simp [exPutVal, UV.HasTy, UV.HasTys, UV.HasTym, UV.HasTyf, DTy.ty, Sc.ty, exPut, DEnv.env, Ty.Nilable, SMap.Sorted, J.HasKind]
  · exact .field (n := 0) (i := 0) (info := { name := b!"obj" }) rfl rfl rfl ⟨rfl, rfl⟩ (.here _ _ _)
  · exact .field (n := 0) (i := 1) (info := { name := b!"all" }) rfl rfl rfl ⟨rfl, rfl⟩ (.elem (i := 2) rfl (.here _ _ _))
  · exact .field (n := 0) (i := 1) (info := { name := b!"all" }) rfl rfl rfl ⟨rfl, rfl⟩ (.elem (i := 2) rfl (.here _ _ _))
  · exact .field (n := 0) (i := 2) (info := { name := b!"m" }) rfl rfl rfl ⟨rfl, rfl⟩ (.entry (List.mem_cons_self ..) (.here _ _ _))
  · exact .old (n := 0) (i := 0) (j := 4) (info := { name := b!"obj" }) (info' := { name := b!"old", deprecatedBy := some b!"obj" }) rfl rfl rfl rfl (.here rfl) rfl rfl ⟨rfl, rfl⟩ (.here _ _ _)

/-- And those of `C82_content`. -/
example : ∃ g j, IsValue exPut.env.defs [] g exPutVal (DTy.struct 0).ty ∧ marshal (fun m => m) (fun _ => 0) true [] 3 g = some j := by
  refine ⟨.struct [({ name := b!"obj" }, .leaf (.jsonIface (.dict 0 [(b!"x", .null)]))),
    ({ name := b!"all" }, .seq [.leaf .nil, .leaf (.jsonIface (.str b!"s")), .leaf (.jsonIface (.dict 0 [(b!"x", .null)]))]),
    ({ name := b!"m" }, .map [(b!"k", .jsonPtr (.dict 0 [(b!"x", .null)]))]), ({ name := b!"t", forceString := true }, .seq [.leaf (.jsonIface (.str b!"s"))]),
    ({ name := b!"old", deprecatedBy := some b!"obj" }, .leaf .nil), ({ name := b!"n" }, .leaf (.int 7))], _, ⟨?_, ?_⟩, rfl⟩
  · simp [exPutVal, UV.HasTy, UV.HasTys, UV.HasTym, UV.HasTyf, DTy.ty, Sc.ty, exPut, DEnv.env, Ty.Nilable, SMap.Sorted, J.HasKind]
  · simp only [exPutVal, exPut, DEnv.env, DTy.ty, Sc.ty, UV.toTV, UV.toTVs, UV.toTVm, UV.toTVf, Ty.fields, Ty.elem, List.map_cons, List.map_nil, List.getD_cons_zero]
    exact .struct (.cons (.leaf _) (.cons (.seq (.cons (.leaf _) (.cons (.leaf _) (.cons (.leaf _) .nil)))) (.cons (.map (.cons (.jsonPtr _) .nil))
      (.cons (.seq (.cons (.leaf _) .nil)) (.cons (.leaf _) (.cons (.leaf _) .nil))))))

end Jsonutils.Props
