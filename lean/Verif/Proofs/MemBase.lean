import Verif.Spec.Memory
import Verif.Proofs.GraphMem
import Verif.Proofs.UnmarshalTyped

/-! # Values in memory: frames, updates -/

namespace Jsonutils

/-! ### `Rep` depends on its objects only -/

mutual
theorem rep_lt {M : List HV} : ∀ (x : UV) (c : HV) (F : List Nat), x.Rep M c F → ∀ b ∈ F, b < M.length
  | .ptr x, c, F, h => by
    obtain ⟨l, c', G, -, hg, rfl, hx⟩ := h
    intro b hb
    rcases List.mem_cons.1 hb with rfl | hb
    · exact memGet_lt hg
    · exact rep_lt x c' G hx b hb
  | .seq xs sp, c, F, h => by
    obtain ⟨b, ys, zs, G, H, -, hg, rfl, hx, hs⟩ := h
    intro b' hb
    rcases List.mem_cons.1 hb with rfl | hb
    · exact (List.getElem?_eq_some_iff.1 hg).1
    · rcases List.mem_append.1 hb with hb | hb
      · exact reps_lt xs ys G hx b' hb
      · exact reps_lt sp zs H hs b' hb
  | .map kvs, c, F, h => by
    obtain ⟨b, m, G, -, hg, rfl, hx⟩ := h
    intro b' hb
    rcases List.mem_cons.1 hb with rfl | hb
    · exact (List.getElem?_eq_some_iff.1 hg).1
    · exact repm_lt kvs m G hx b' hb
  | .arr xs, c, F, h => by obtain ⟨ys, -, hx⟩ := h; exact reps_lt xs ys F hx
  | .struct xs, c, F, h => by obtain ⟨ys, -, hx⟩ := h; exact reps_lt xs ys F hx
  | .nil, c, F, h => by simp [h.2]
  | .bool _, c, F, h => by simp [h.2]
  | .int _, c, F, h => by simp [h.2]
  | .float _, c, F, h => by simp [h.2]
  | .str _, c, F, h => by simp [h.2]
  | .any _, c, F, h => by simp [h.2]
  | .json _, c, F, h => by simp [h.2]
theorem reps_lt {M : List HV} : ∀ (xs : List UV) (ys : List HV) (F : List Nat), UV.Reps M xs ys F → ∀ b ∈ F, b < M.length
  | [], _, _, h => by simp [h.2]
  | x :: xs, _, _, h => by
    obtain ⟨c, r, G, H, rfl, rfl, hx, hs⟩ := h
    intro b hb
    rcases List.mem_append.1 hb with hb | hb
    · exact rep_lt x c G hx b hb
    · exact reps_lt xs r H hs b hb
theorem repm_lt {M : List HV} : ∀ (xs : List (Bytes × UV)) (ys : List (Bytes × HV)) (F : List Nat), UV.Repm M xs ys F → ∀ b ∈ F, b < M.length
  | [], _, _, h => by simp [h.2]
  | (k, x) :: xs, _, _, h => by
    obtain ⟨c, r, G, H, rfl, rfl, hx, hs⟩ := h
    intro b hb
    rcases List.mem_append.1 hb with hb | hb
    · exact rep_lt x c G hx b hb
    · exact repm_lt xs r H hs b hb
end

mutual
theorem rep_frame {M M' : List HV} : ∀ (x : UV) (c : HV) (F : List Nat), x.Rep M c F → (∀ b ∈ F, M'[b]? = M[b]?) → x.Rep M' c F
  | .ptr x, c, F, h, hm => by
    obtain ⟨l, c', G, rfl, hg, rfl, hx⟩ := h
    exact ⟨l, c', G, rfl, by rw [memGet_congr (hm _ (by simp))]; exact hg, rfl, rep_frame x c' G hx fun b hb => hm b (by simp [hb])⟩
  | .seq xs sp, c, F, h, hm => by
    obtain ⟨b, ys, zs, G, H, rfl, hg, rfl, hx, hs⟩ := h
    exact ⟨b, ys, zs, G, H, rfl, by rw [hm _ (by simp)]; exact hg, rfl, reps_frame xs ys G hx fun b hb => hm b (by simp [hb]),
      reps_frame sp zs H hs fun b hb => hm b (by simp [hb])⟩
  | .map kvs, c, F, h, hm => by
    obtain ⟨b, m, G, rfl, hg, rfl, hx⟩ := h
    exact ⟨b, m, G, rfl, by rw [hm _ (by simp)]; exact hg, rfl, repm_frame kvs m G hx fun b hb => hm b (by simp [hb])⟩
  | .arr xs, c, F, h, hm => by obtain ⟨ys, rfl, hx⟩ := h; exact ⟨ys, rfl, reps_frame xs ys F hx hm⟩
  | .struct xs, c, F, h, hm => by obtain ⟨ys, rfl, hx⟩ := h; exact ⟨ys, rfl, reps_frame xs ys F hx hm⟩
  | .nil, c, F, h, _ => h
  | .bool _, c, F, h, _ => h
  | .int _, c, F, h, _ => h
  | .float _, c, F, h, _ => h
  | .str _, c, F, h, _ => h
  | .any _, c, F, h, _ => h
  | .json _, c, F, h, _ => h
theorem reps_frame {M M' : List HV} : ∀ (xs : List UV) (ys : List HV) (F : List Nat), UV.Reps M xs ys F → (∀ b ∈ F, M'[b]? = M[b]?) → UV.Reps M' xs ys F
  | [], _, _, h, _ => h
  | x :: xs, _, _, h, hm => by
    obtain ⟨c, r, G, H, rfl, rfl, hx, hs⟩ := h
    exact ⟨c, r, G, H, rfl, rfl, rep_frame x c G hx fun b hb => hm b (by simp [hb]), reps_frame xs r H hs fun b hb => hm b (by simp [hb])⟩
theorem repm_frame {M M' : List HV} : ∀ (xs : List (Bytes × UV)) (ys : List (Bytes × HV)) (F : List Nat), UV.Repm M xs ys F → (∀ b ∈ F, M'[b]? = M[b]?) → UV.Repm M' xs ys F
  | [], _, _, h, _ => h
  | (k, x) :: xs, _, _, h, hm => by
    obtain ⟨c, r, G, H, rfl, rfl, hx, hs⟩ := h
    exact ⟨c, r, G, H, rfl, rfl, rep_frame x c G hx fun b hb => hm b (by simp [hb]), repm_frame xs r H hs fun b hb => hm b (by simp [hb])⟩
end

/-! ### Lists -/

theorem reps_length {M : List HV} : ∀ {xs : List UV} {ys : List HV} {F : List Nat}, UV.Reps M xs ys F → ys.length = xs.length
  | [], _, _, h => by simp [h.1]
  | x :: xs, _, _, h => by
    obtain ⟨c, r, G, H, rfl, rfl, hx, hs⟩ := h
    simp [reps_length hs]

theorem reps_append {M : List HV} : ∀ {xs xs' : List UV} {ys ys' : List HV} {F F' : List Nat}, UV.Reps M xs ys F → UV.Reps M xs' ys' F' →
    UV.Reps M (xs ++ xs') (ys ++ ys') (F ++ F')
  | [], _, _, _, _, _, h, h' => by obtain ⟨rfl, rfl⟩ := h; exact h'
  | x :: xs, _, _, _, _, _, h, h' => by
    obtain ⟨c, r, G, H, rfl, rfl, hx, hs⟩ := h
    exact ⟨c, _, G, _, rfl, by simp, hx, reps_append hs h'⟩

theorem reps_split {M : List HV} : ∀ {xs xs' : List UV} {zs : List HV} {F : List Nat}, UV.Reps M (xs ++ xs') zs F →
    ∃ ys ys' G H, zs = ys ++ ys' ∧ F = G ++ H ∧ UV.Reps M xs ys G ∧ UV.Reps M xs' ys' H
  | [], _, zs, F, h => ⟨[], zs, [], F, rfl, rfl, ⟨rfl, rfl⟩, h⟩
  | x :: xs, _, _, _, h => by
    obtain ⟨c, r, G, H, rfl, rfl, hx, hs⟩ := h
    obtain ⟨ys, ys', G', H', rfl, rfl, h1, h2⟩ := reps_split hs
    exact ⟨c :: ys, ys', G ++ G', H', rfl, by simp, ⟨c, ys, G, G', rfl, rfl, hx, h1⟩, h2⟩

/-- One component of a list, and what becomes of the list when it changes. -/
theorem reps_zip {M : List HV} {xs : List UV} {ys : List HV} {F : List Nat} (h : UV.Reps M xs ys F) {i : Nat} {x : UV} (hx : xs[i]? = some x) :
    ∃ y G1 G G2, ys[i]? = some y ∧ F = G1 ++ G ++ G2 ∧ x.Rep M y G ∧
      ∀ (M' : List HV) (x' : UV) (y' : HV) (G' : List Nat), (∀ b, b ∈ G1 ∨ b ∈ G2 → M'[b]? = M[b]?) → x'.Rep M' y' G' → UV.Reps M' (xs.set i x') (ys.set i y') (G1 ++ G' ++ G2) := by
  induction xs generalizing ys F i with
  | nil => simp at hx
  | cons a xs ih =>
    obtain ⟨c, r, G, H, rfl, rfl, ha, hs⟩ := h
    match i with
    | 0 =>
      simp only [List.getElem?_cons_zero, Option.some.injEq] at hx
      subst hx
      refine ⟨c, [], G, H, rfl, rfl, ha, fun M' x' y' G' hm hx' => ?_⟩
      exact ⟨y', r, G', H, rfl, by simp, hx', reps_frame _ _ _ hs fun b hb => hm b (Or.inr hb)⟩
    | i + 1 =>
      obtain ⟨y, G1, G', G2, hy, rfl, hr, hall⟩ := ih hs (by simpa using hx)
      refine ⟨y, G ++ G1, G', G2, by simpa using hy, by simp, hr, fun M' x' y' H' hm hx' => ?_⟩
      refine ⟨c, _, G, G1 ++ H' ++ G2, rfl, by simp, rep_frame _ _ _ ha fun b hb => hm b (Or.inl (by simp [hb])), ?_⟩
      exact hall M' x' y' H' (fun b hb => hm b (by rcases hb with hb | hb <;> simp [hb])) hx'

/-! ### Zero values -/

mutual
/-- No objects outside the variable. -/
def UV.Flat : UV → Prop
  | .ptr _ => False
  | .seq _ _ => False
  | .map _ => False
  | .arr xs => UV.Flats xs
  | .struct xs => UV.Flats xs
  | _ => True
def UV.Flats : List UV → Prop
  | [] => True
  | x :: xs => x.Flat ∧ UV.Flats xs
end

mutual
theorem rep_inline {M : List HV} : ∀ (v : UV), v.Flat → v.Rep M v.inline []
  | .ptr _, h => (show False from h).elim
  | .seq _ _, h => (show False from h).elim
  | .map _, h => (show False from h).elim
  | .arr xs, h => ⟨_, rfl, reps_inline xs h⟩
  | .struct xs, h => ⟨_, rfl, reps_inline xs h⟩
  | .nil, _ => ⟨rfl, rfl⟩
  | .bool _, _ => ⟨rfl, rfl⟩
  | .int _, _ => ⟨rfl, rfl⟩
  | .float _, _ => ⟨rfl, rfl⟩
  | .str _, _ => ⟨rfl, rfl⟩
  | .any _, _ => ⟨rfl, rfl⟩
  | .json _, _ => ⟨rfl, rfl⟩
theorem reps_inline {M : List HV} : ∀ (vs : List UV), UV.Flats vs → UV.Reps M vs (UV.inlines vs) []
  | [], _ => ⟨rfl, rfl⟩
  | v :: vs, h => ⟨_, _, [], [], rfl, rfl, rep_inline v h.1, reps_inline vs h.2⟩
end

theorem flats_iff (xs : List UV) : UV.Flats xs ↔ ∀ x ∈ xs, x.Flat := by
  induction xs with
  | nil => simp [UV.Flats]
  | cons x xs ih => simp [UV.Flats, ih]

theorem zeroIn_flat {zs : List UV} (hz : ∀ z ∈ zs, z.Flat) : ∀ t : Ty, (t.zeroIn zs).Flat
  | .array n t => by
    refine (flats_iff _).2 fun x hx => ?_
    rw [(List.mem_replicate.1 hx).2]; exact zeroIn_flat hz t
  | .struct n => by
    simp only [Ty.zeroIn, List.getD]
    cases h : zs[n]? with
    | none => trivial
    | some z => exact hz z (List.mem_of_getElem? h)
  | .bool => trivial
  | .int _ => trivial
  | .uint _ => trivial
  | .float32 => trivial
  | .float64 => trivial
  | .string => trivial
  | .slice _ => trivial
  | .map _ => trivial
  | .mapOther _ => trivial
  | .ptr _ => trivial
  | .any => trivial
  | .jobj => trivial
  | .jptr _ => trivial
  | .jval _ => trivial
  | .other => trivial

theorem zerosOf_flat : ∀ (D : Defs) (zs : List UV), (∀ z ∈ zs, z.Flat) → ∀ z ∈ zerosOf D zs, z.Flat
  | [], _, h => h
  | fs :: r, zs, h => zerosOf_flat r _ fun z hz => by
    rcases List.mem_append.1 hz with hz | hz
    · exact h z hz
    · simp only [List.mem_singleton] at hz
      subst hz
      refine (flats_iff _).2 fun x hx => ?_
      obtain ⟨f, -, rfl⟩ := List.mem_map.1 hx
      exact zeroIn_flat h _

theorem rep_zero (P : UEnv) (t : Ty) (M : List HV) : (P.zero t).Rep M (P.hzero t) [] :=
  rep_inline _ (zeroIn_flat (zerosOf_flat _ _ (by simp)) t)

/-! ### One step of the state -/

/-- The session: no resolved references.  `U`: the ids referred to. -/
def Inv (U : Int → Prop) (s : UH) : Prop := ∀ id n, s.sess id = some n → (U id → n.node = none) ∧ (¬ U id → n.targets = [])

/-- The variable at `l`, with contents `c`, is the value `v`. -/
structure Own (U : Int → Prop) (s : UH) (l : Loc) (c : HV) (F : List Nat) (v : UV) : Prop where
  get : s.get l = some c
  rep : v.Rep s.mem c F
  nodup : (l.base :: F).Nodup
  inv : Inv U s

/-- From `s` to `s'`, with the variable at `l` changed to contents `c'` and its objects from `F` to `F'`. -/
structure Fr (s s' : UH) (l : Loc) (F : List Nat) (c' : HV) (F' : List Nat) : Prop where
  len : s.mem.length ≤ s'.mem.length
  out : ∀ b, b < s.mem.length → b ≠ l.base → b ∉ F → s'.mem[b]? = s.mem[b]?
  base : s'.mem[l.base]? = (memSet s.mem l c')[l.base]?
  sub : ∀ b ∈ F', b ∈ F ∨ s.mem.length ≤ b

variable {U : Int → Prop} {s s' s'' : UH} {l l' : Loc} {c c' c'' : HV} {F F' F'' G G' : List Nat} {v v' x x' : UV}

theorem Own.lt (h : Own U s l c F v) : l.base < s.mem.length := memGet_lt h.get

theorem Fr.get (h : Fr s s' l F c' F') (hg : s.get l = some c) : s'.get l = some c' := by
  unfold UH.get at *
  rw [memGet_congr h.base, memGet_set hg]

theorem Fr.refl (hg : s.get l = some c) (F : List Nat) : Fr s s l F c F where
  len := Nat.le_refl _
  out := fun _ _ _ _ => rfl
  base := by rw [memSet_self hg]
  sub := fun b hb => Or.inl hb

theorem memSet_base_congr {M M' : List HV} {l : Loc} (h : M'[l.base]? = M[l.base]?) (c : HV) : (memSet M' l c)[l.base]? = (memSet M l c)[l.base]? := by
  unfold memSet
  rw [h]
  cases ho : M[l.base]? with
  | none => simp only [h, ho]
  | some o =>
    have h1 : l.base < M.length := (List.getElem?_eq_some_iff.1 ho).1
    have h2 : l.base < M'.length := (List.getElem?_eq_some_iff.1 (h.trans ho)).1
    simp [h1, h2]

theorem Fr.trans (hg : s.get l = some c) (h : Fr s s' l F c' F') (h' : Fr s' s'' l F' c'' F'') : Fr s s'' l F c'' F'' where
  len := Nat.le_trans h.len h'.len
  out := fun b hb h1 h2 => by
    rw [h'.out b (Nat.lt_of_lt_of_le hb h.len) h1 (fun h3 => by
      rcases h.sub b h3 with h4 | h4
      · exact h2 h4
      · omega), h.out b hb h1 h2]
  base := by
    rw [h'.base, memSet_base_congr h.base, memSet_set hg]
  sub := fun b hb => by
    rcases h'.sub b hb with h1 | h1
    · exact h.sub b h1
    · exact Or.inr (Nat.le_trans h.len h1)

/-- Through a reference held in the variable. -/
theorem Fr.lift (hg : s.get l = some c) (hn : (l.base :: l'.base :: G).Nodup) (h : Fr s s' l' G c' G') : Fr s s' l (l'.base :: G) c (l'.base :: G') where
  len := h.len
  out := fun b hb _ h2 => h.out b hb (fun e => h2 (by simp [e])) (fun e => h2 (by simp [e]))
  base := by
    simp only [List.nodup_cons, List.mem_cons, not_or] at hn
    rw [memSet_self hg, h.out _ (memGet_lt hg) hn.1.1 hn.1.2]
  sub := fun b hb => by
    rcases List.mem_cons.1 hb with rfl | hb
    · exact Or.inl (by simp)
    · rcases h.sub b hb with h1 | h1
      · exact Or.inl (by simp [h1])
      · exact Or.inr h1

theorem Fr.lift_nodup (hg : s.get l = some c) (hn : (l.base :: l'.base :: G).Nodup) (h : Fr s s' l' G c' G') (hn' : (l'.base :: G').Nodup) :
    (l.base :: l'.base :: G').Nodup := by
  have := memGet_lt hg
  simp only [List.nodup_cons, List.mem_cons, not_or] at hn hn' ⊢
  refine ⟨⟨hn.1.1, fun h1 => ?_⟩, hn'⟩
  rcases h.sub _ h1 with h2 | h2
  · exact hn.1.2 h2
  · omega

/-- Assignment to the variable. -/
theorem Fr.set (hg : s.get l = some c) (c' : HV) (hs : ∀ b ∈ F', b ∈ F ∨ s.mem.length ≤ b) : Fr s (s.set l c') l F c' F' where
  len := by simp [UH.set, memSet_length]
  out := fun b _ h1 _ => by simp [UH.set, memSet_obj_ne h1]
  base := rfl
  sub := hs

theorem Own.inv_set (h : Inv U s) (l : Loc) (c : HV) : Inv U (s.set l c) := h
theorem Own.inv_new (h : Inv U s) (o : HV) : Inv U (s.new o).2 := h

/-- Assignment of a value without objects of its own. -/
theorem own_leaf (h : Own U s l c F v) {c' : HV} {v' : UV} (hv : v'.Rep (s.set l c').mem c' []) :
    Fr s (s.set l c') l F c' [] ∧ Own U (s.set l c') l c' [] v' :=
  ⟨Fr.set h.get c' (by simp), ⟨by unfold UH.get UH.set; exact memGet_set h.get c', hv, by simp, h.inv⟩⟩

/-- A new object, to which the variable then refers. -/
theorem own_new (h : Own U s l c F v) (o mk : HV) :
    Fr s ((s.new o).2.set l mk) l F mk [s.mem.length] ∧ ((s.new o).2.set l mk).get l = some mk ∧
    ((s.new o).2.set l mk).mem[s.mem.length]? = some o ∧ (l.base :: [s.mem.length]).Nodup := by
  have hl := h.lt
  have hne : s.mem.length ≠ l.base := by omega
  have hg : UH.get (s.new o).2 l = some c := by
    simp only [UH.new, UH.get, memGet_append hl]; exact h.get
  refine ⟨⟨?_, ?_, ?_, ?_⟩, ?_, ?_, ?_⟩
  · simp [UH.new, UH.set, memSet_length]
  · intro b hb h1 h2
    simp only [UH.new, UH.set, memSet_obj_ne h1, List.getElem?_append_left hb]
  · simp only [UH.new, UH.set]
    exact memSet_base_congr (by rw [List.getElem?_append_left hl]) _
  · intro b hb; simp at hb; omega
  · exact memGet_set hg mk
  · simp only [UH.new, UH.set, memSet_obj_ne hne]; simp
  · simp; omega

end Jsonutils
