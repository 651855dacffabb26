import Verif.Spec.SharedData
import Verif.Proofs.HeapEdit
import Verif.Proofs.HeapRead
import Verif.Proofs.UnmarshalTyped
import Verif.Proofs.UnmarshalFrame

/-!
# Proofs about variables that share memory with documents
-/

namespace Jsonutils

variable {D : DEnv}

/-! ### Reading variables -/

mutual
theorem Is_mono {h h' : Heap} (hp : h <+: h') : ∀ (x : DV) (u : UV), x.Is h u → x.Is h' u
  | .nil, u, hx => hx
  | .sc x, u, hx => hx
  | .ref a, u, hx => by
    simp only [DV.Is] at hx ⊢
    obtain ⟨j, h1, h2⟩ := hx
    exact ⟨j, h1, At_prefix hp h2⟩
  | .seq xs sp, u, hx => by
    simp only [DV.Is] at hx ⊢
    obtain ⟨us, ss, h1, h2, h3⟩ := hx
    exact ⟨us, ss, h1, Iss_mono hp xs us h2, Iss_mono hp sp ss h3⟩
  | .map m, u, hx => by
    simp only [DV.Is] at hx ⊢
    obtain ⟨us, h1, h2⟩ := hx
    exact ⟨us, h1, Ism_mono hp m us h2⟩
  | .ptr x, u, hx => by
    simp only [DV.Is] at hx ⊢
    obtain ⟨w, h1, h2⟩ := hx
    exact ⟨w, h1, Is_mono hp x w h2⟩
  | .struct fs, u, hx => by
    simp only [DV.Is] at hx ⊢
    obtain ⟨us, h1, h2⟩ := hx
    exact ⟨us, h1, Iss_mono hp fs us h2⟩
theorem Iss_mono {h h' : Heap} (hp : h <+: h') : ∀ (xs : List DV) (us : List UV), DV.Iss h xs us → DV.Iss h' xs us
  | [], us, hx => hx
  | x :: xs, us, hx => by
    simp only [DV.Iss] at hx ⊢
    obtain ⟨u, r, h1, h2, h3⟩ := hx
    exact ⟨u, r, h1, Is_mono hp x u h2, Iss_mono hp xs r h3⟩
theorem Ism_mono {h h' : Heap} (hp : h <+: h') : ∀ (xs : List (Bytes × DV)) (us : List (Bytes × UV)), DV.Ism h xs us → DV.Ism h' xs us
  | [], us, hx => hx
  | (k, x) :: xs, us, hx => by
    simp only [DV.Ism] at hx ⊢
    obtain ⟨u, r, h1, h2, h3⟩ := hx
    exact ⟨u, r, h1, Is_mono hp x u h2, Ism_mono hp xs r h3⟩
end

theorem Iss_length {h : Heap} : ∀ {xs : List DV} {us : List UV}, DV.Iss h xs us → us.length = xs.length
  | [], us, hx => by simp only [DV.Iss] at hx; simp [hx]
  | x :: xs, us, hx => by
    simp only [DV.Iss] at hx
    obtain ⟨u, r, rfl, _, h3⟩ := hx
    simp [Iss_length h3]

theorem Iss_get {h : Heap} : ∀ {xs : List DV} {us : List UV}, DV.Iss h xs us → ∀ (i : Nat) {x : DV} {u : UV}, xs[i]? = some x → us[i]? = some u → x.Is h u
  | [], us, _, i, x, u, h1, _ => by simp at h1
  | y :: xs, us, hx, i, x, u, h1, h2 => by
    simp only [DV.Iss] at hx
    obtain ⟨w, r, rfl, h4, h3⟩ := hx
    cases i with
    | zero => simp at h1 h2; subst h1; subst h2; exact h4
    | succ i => exact Iss_get h3 i (by simpa using h1) (by simpa using h2)

theorem Iss_set {h : Heap} : ∀ {xs : List DV} {us : List UV}, DV.Iss h xs us → ∀ (i : Nat) {x : DV} {u : UV}, x.Is h u → DV.Iss h (xs.set i x) (us.set i u)
  | [], us, hx, i, x, u, _ => by simp only [DV.Iss] at hx; subst hx; simp [DV.Iss]
  | y :: xs, us, hx, i, x, u, h1 => by
    simp only [DV.Iss] at hx
    obtain ⟨w, r, rfl, h4, h3⟩ := hx
    cases i with
    | zero => simp only [List.set_cons_zero, DV.Iss]; exact ⟨u, r, rfl, h1, h3⟩
    | succ i => simp only [List.set_cons_succ, DV.Iss]; exact ⟨w, _, rfl, h4, Iss_set h3 i h1⟩

theorem Iss_append {h : Heap} : ∀ {xs : List DV} {us : List UV}, DV.Iss h xs us → ∀ {ys : List DV} {ws : List UV}, DV.Iss h ys ws → DV.Iss h (xs ++ ys) (us ++ ws)
  | [], us, hx, ys, ws, hy => by simp only [DV.Iss] at hx; subst hx; simpa using hy
  | y :: xs, us, hx, ys, ws, hy => by
    simp only [DV.Iss] at hx
    obtain ⟨w, r, rfl, h4, h3⟩ := hx
    exact ⟨w, _, rfl, h4, Iss_append h3 hy⟩

theorem Iss_take {h : Heap} : ∀ {xs : List DV} {us : List UV}, DV.Iss h xs us → ∀ (n : Nat), DV.Iss h (xs.take n) (us.take n) ∧ DV.Iss h (xs.drop n) (us.drop n)
  | [], us, hx, n => by simp only [DV.Iss] at hx; subst hx; simp [DV.Iss]
  | y :: xs, us, hx, n => by
    have hx0 := hx
    simp only [DV.Iss] at hx
    obtain ⟨w, r, rfl, h4, h3⟩ := hx
    cases n with
    | zero => exact ⟨rfl, hx0⟩
    | succ n => exact ⟨⟨w, _, rfl, h4, (Iss_take h3 n).1⟩, (Iss_take h3 n).2⟩

theorem Iss_replicate {h : Heap} {x : DV} {u : UV} (hx : x.Is h u) : ∀ n, DV.Iss h (List.replicate n x) (List.replicate n u)
  | 0 => rfl
  | n + 1 => ⟨u, _, rfl, hx, Iss_replicate hx n⟩

theorem Ism_smAdd {h : Heap} {x : DV} {u : UV} (hx : x.Is h u) (k : Bytes) : ∀ {m : SMap DV} {us : SMap UV}, DV.Ism h m us → DV.Ism h (smAdd m k x) (smAdd us k u)
  | [], us, hm => by simp only [DV.Ism] at hm; subst hm; exact ⟨u, _, rfl, hx, rfl⟩
  | (k', y) :: m, us, hm => by
    have hm0 := hm
    simp only [DV.Ism] at hm
    obtain ⟨w, r, rfl, h4, h3⟩ := hm
    simp only [smAdd]
    split
    · exact ⟨w, _, rfl, h4, Ism_smAdd hx k h3⟩
    · split
      · exact ⟨u, _, rfl, hx, h3⟩
      · exact ⟨u, _, rfl, hx, hm0⟩

/-! ### Zero values -/

theorem sc_zeroIn (s : Sc) (zs zs' : List UV) : s.ty.zeroIn zs = s.ty.zeroIn zs' := by cases s <;> rfl

theorem zeroIn_is {h : Heap} {zs : List DV} {us : List UV} (hz : DV.Iss h zs us) (t : DTy) : (t.zeroIn zs).Is h (t.ty.zeroIn us) := by
  cases t with
  | sc s => simp only [DTy.zeroIn, DTy.ty, DV.Is]; exact ⟨sc_zeroIn s _ _, by cases s <;> trivial⟩
  | struct n =>
    simp only [DTy.zeroIn, DTy.ty, Ty.zeroIn, List.getD_eq_getElem?_getD]
    cases hn : zs[n]? with
    | none =>
      have : us[n]? = none := by rw [List.getElem?_eq_none_iff] at hn ⊢; rw [Iss_length hz]; exact hn
      simp [this, DV.Is]
    | some x =>
      have hl := (List.getElem?_eq_some_iff.1 hn).1
      obtain ⟨u, hu⟩ : ∃ u, us[n]? = some u := ⟨_, List.getElem?_eq_getElem (by rw [Iss_length hz]; exact hl)⟩
      simp only [hu, Option.getD_some]
      exact Iss_get hz n hn hu
  | _ => simp [DTy.zeroIn, DTy.ty, Ty.zeroIn, DV.Is]

theorem zeros_is {h : Heap} : ∀ (fs : List (List (FInfo × DTy))) {zs : List DV} {us : List UV}, DV.Iss h zs us →
    DV.Iss h (zerosD fs zs) (zerosOf (fs.map fun fs => fs.map fun f => (f.1, f.2.ty)) us)
  | [], zs, us, hz => hz
  | fs :: r, zs, us, hz => by
    simp only [zerosD, List.map_cons, zerosOf]
    refine zeros_is r (Iss_append hz ⟨_, _, rfl, ?_, rfl⟩)
    simp only [DV.Is]
    refine ⟨_, rfl, ?_⟩
    rw [List.map_map]
    induction fs with
    | nil => rfl
    | cons f fs ih => exact ⟨_, _, rfl, zeroIn_is hz f.2, ih⟩

theorem zero_is (h : Heap) (t : DTy) : (D.zero t).Is h (D.env.zero t.ty) := zeroIn_is (zeros_is D.defs (zs := []) (us := []) rfl) t

theorem zeroIn_noref {zs : List DV} (hz : ∀ z ∈ zs, ∀ b, ¬ z.Has b) (t : DTy) (b : Addr) : ¬ (t.zeroIn zs).Has b := by
  cases t with
  | struct n =>
    simp only [DTy.zeroIn, List.getD_eq_getElem?_getD]
    cases hn : zs[n]? with
    | none => intro h; cases h
    | some x => exact hz x (List.mem_of_getElem? hn) b
  | _ => intro h; cases h

theorem zeros_noref : ∀ (fs : List (List (FInfo × DTy))) {zs : List DV}, (∀ z ∈ zs, ∀ b, ¬ z.Has b) → ∀ z ∈ zerosD fs zs, ∀ b, ¬ z.Has b
  | [], zs, hz => hz
  | fs :: r, zs, hz => by
    refine zeros_noref r (zs := zs ++ [_]) fun z hm b hb => ?_
    rcases List.mem_append.1 hm with hm | hm
    · exact hz z hm b hb
    · rw [List.mem_singleton] at hm
      subst hm
      cases hb with
      | field hm hb =>
        obtain ⟨f, _, rfl⟩ := List.mem_map.1 hm
        exact zeroIn_noref hz _ _ hb

theorem zero_noref (t : DTy) (b : Addr) : ¬ (D.zero t).Has b := zeroIn_noref (zeros_noref D.defs (by simp)) t b

theorem Var.has {t t' : DTy} {x y : DV} (hv : x.Var D t t' y) {b : Addr} (hb : y.Has b) : x.Has b := by
  induction hv with
  | here => exact hb
  | ptr _ ih => exact .ptr (ih hb)
  | elem hm _ ih => exact .elem hm (ih hb)
  | field _ _ hm _ ih => exact .field (List.mem_of_getElem? hm) (ih hb)

theorem blank_noref {t : DTy} {x : DV} (hx : ∀ b, ¬ x.Has b) : x.Blank D t := fun _ b hv => absurd (Var.has hv (.ref b)) (hx b)

theorem zero_blank (t t' : DTy) : (D.zero t').Blank D t := blank_noref fun b => zero_noref t' b

/-! ### Sharing -/

theorem Way.mono {h h' : Heap} (hp : h <+: h') {a b : Addr} {p : List Move} (hw : Way h a p b) : Way h' a p b := by
  induction hw with
  | here a => exact .here a
  | key h1 h2 _ ih => exact .key (prefix_get hp h1) h2 ih
  | elem h1 h2 _ ih => exact .elem (prefix_get hp h1) h2 ih

theorem Handed.mono {h h' : Heap} (hl : h.length ≤ h'.length) {b : Addr} {o : Obj} {t : DTy} {y : DV} (hh : Handed h' b o t y) : Handed h b o t y := by
  refine ⟨hh.1, fun k hk => ⟨(hh.2 k hk).1, (hh.2 k hk).2.1, fun h1 h2 => ?_⟩⟩
  obtain ⟨c, h3, h4⟩ := (hh.2 k hk).2.2 h1 h2
  exact ⟨c, h3, Nat.le_trans hl h4⟩

theorem Shares.mono {h h' : Heap} (hp : h <+: h') {a : Addr} {t : DTy} {x : DV} (hs : Shares D h' a t x) : Shares D h a t x :=
  ⟨fun p b o t' y hw ho hy => (hs.held p b o t' y (hw.mono hp) (prefix_get hp ho) hy).mono hp.length_le,
   fun p b o t' hw ho hn hr hd => hs.there p b o t' (hw.mono hp) (prefix_get hp ho) hn hr hd⟩

theorem Shares.ptr {h : Heap} {a : Addr} {t : DTy} {x : DV} (hs : Shares D h a t x) : Shares D h a (.ptr t) (.ptr x) := by
  refine ⟨fun p b o t' y hw ho hy => ?_, fun p b o t' hw ho hn hr hd => ?_⟩
  · cases hy with
    | here => exact ⟨(by intro h; cases h), (by intro k h; cases h)⟩
    | ptr hy => exact hs.held p b o t' y hw ho hy
  · cases hr with
    | here => rcases hd with h | ⟨k, h⟩ <;> cases h
    | ptr hr =>
      obtain ⟨y, hy⟩ := hs.there p b o t' hw ho hn hr hd
      exact ⟨y, .ptr hy⟩

theorem shares_obj {h : Heap} {a : Addr} {o : Obj} (ho : h[a]? = some o) (hn : o ≠ .null) : Shares D h a .obj (.ref a) := by
  refine ⟨fun p b o' t' y hw ho' hy => ?_, fun p b o' t' hw ho' _ hr hd => ?_⟩
  · cases hy
    cases hw
    exact ⟨fun _ => ⟨fun e => by rw [ho] at ho'; cases ho'; exact absurd e hn, fun _ => rfl⟩, fun k h => by cases h⟩
  · cases hr; exact ⟨_, .here _ _⟩

theorem shares_jptr {h : Heap} {a : Addr} {o : Obj} {k : JKind} {y : DV} (ho : h[a]? = some o) (hn : o ≠ .null) (hs : o.IsKind k → y = .ref a)
    (hd : ¬ o.IsKind k → ∃ c, y = .ref c ∧ h.length ≤ c) : Shares D h a (.jptr k) y := by
  refine ⟨fun p b o' t' y' hw ho' hy => ?_, fun p b o' t' hw ho' _ hr _ => ?_⟩
  · cases hy
    cases hw
    rw [ho] at ho'
    cases ho'
    exact ⟨(by intro h; cases h), fun k' h => by cases h; exact ⟨fun e => absurd e hn, hs, fun _ h => hd h⟩⟩
  · cases hr; exact ⟨_, .here _ _⟩

/-- Types that are no pointers and hold no JSON object themselves. -/
def DTy.Own : DTy → Prop
  | .sc _ => True
  | .slice _ => True
  | .map _ => True
  | .struct _ => True
  | _ => False

theorem Way.leaf {h : Heap} {a b : Addr} {p : List Move} {o : Obj} (ho : h[a]? = some o) (hr : o.refs = []) (hw : Way h a p b) : p = [] ∧ b = a := by
  cases hw with
  | here => exact ⟨rfl, rfl⟩
  | key h1 h2 _ =>
    rw [ho] at h1; cases h1
    simp only [Obj.refs, List.map_eq_nil_iff] at hr
    subst hr; cases h2
  | elem h1 h2 _ =>
    rw [ho] at h1; cases h1
    simp only [Obj.refs] at hr
    subst hr; simp at h2

theorem shares_leaf {h : Heap} {a : Addr} {o : Obj} (ho : h[a]? = some o) (hr : o.refs = []) {t : DTy} (ht : t.Own) (x : DV) : Shares D h a t x := by
  refine ⟨fun p b o' t' y hw _ hy => ?_, fun p b o' t' hw _ _ hrt hd => ?_⟩
  · obtain ⟨rfl, rfl⟩ := hw.leaf ho hr
    cases hy with
    | here => exact ⟨fun h => by subst h; exact ht.elim, fun k h => by subst h; exact ht.elim⟩
    | ptr => exact ht.elim
  · obtain ⟨rfl, rfl⟩ := hw.leaf ho hr
    cases hrt with
    | here => rcases hd with rfl | ⟨k, rfl⟩ <;> exact ht.elim
    | ptr => exact ht.elim

theorem shares_null {h : Heap} {a : Addr} (ho : h[a]? = some .null) (t : DTy) : Shares D h a t (D.zero t) := by
  refine ⟨fun p b o' t' y hw ho' hy => ?_, fun p b o' t' hw ho' hn hrt hd => ?_⟩
  · obtain ⟨rfl, rfl⟩ := hw.leaf ho rfl
    rw [ho] at ho'; cases ho'
    have : ∀ x, x = D.zero t → DV.Spot D t x [] t' y → t' = t ∧ y = x := by
      intro x hx hs
      cases hs with
      | here => exact ⟨rfl, rfl⟩
      | ptr => cases hx
    obtain ⟨rfl, rfl⟩ := this _ rfl hy
    exact ⟨fun h => by subst h; exact ⟨fun _ => rfl, fun h => absurd rfl h⟩, fun k h => by subst h; exact ⟨fun _ => rfl, fun h => h.elim, fun h => absurd rfl h⟩⟩
  · obtain ⟨rfl, rfl⟩ := hw.leaf ho rfl
    rw [ho] at ho'; cases ho'
    exact absurd rfl hn

end Jsonutils
