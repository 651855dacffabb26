import Verif.Spec.HeapRead
import Mathlib.Data.List.Forall2
import Verif.Proofs.HeapCopy

/-! # Reading documents in memory -/

namespace Jsonutils

/-- How a call ends, forgetting what it returns. -/
def CRes.shape {α} (r : CRes α) : CRes Unit := r.map fun _ => ()

theorem shape_map {α β} (g : α → β) (r : CRes α) : (r.map g).shape = r.shape := by cases r <;> rfl

theorem shape_seq {α β γ} {g : α → CRes β} {g' : α → CRes γ} (hg : ∀ x, (g x).shape = (g' x).shape) :
    ∀ xs, (seqH g xs).shape = (seqH g' xs).shape
  | [] => rfl
  | x :: xs => by
    have h1 := hg x
    have h2 := shape_seq hg xs
    simp only [seqH]
    cases hx : g x <;> cases hx' : g' x <;> rw [hx, hx'] at h1 <;> first | rfl | (simp [CRes.shape, CRes.map] at h1; done) | skip
    rw [shape_map, shape_map]; exact h2

theorem shape_seq_map {α α' β γ} {g : α → CRes β} {g' : α' → CRes γ} {p : α → α'} (hg : ∀ x, (g x).shape = (g' (p x)).shape) :
    ∀ xs, (seqH g xs).shape = (seqH g' (xs.map p)).shape
  | [] => rfl
  | x :: xs => by
    have h1 := hg x
    have h2 := shape_seq_map hg xs
    simp only [seqH, List.map_cons]
    cases hx : g x <;> cases hx' : g' (p x) <;> rw [hx, hx'] at h1 <;> first | rfl | (simp [CRes.shape, CRes.map] at h1; done) | skip
    rw [shape_map, shape_map]; exact h2

theorem shape_ok {α} {r : CRes α} (h : r.shape = .ok ()) : ∃ a, r = .ok a := by
  cases r <;> first | exact ⟨_, rfl⟩ | simp [CRes.shape, CRes.map] at h

theorem shape_panic {α} {r : CRes α} (h : r.shape = .panic) : r = .panic := by
  cases r <;> first | rfl | simp [CRes.shape, CRes.map] at h

theorem shape_fuel {α} {r : CRes α} (h : r.shape = .fuel) : r = .fuel := by
  cases r <;> first | rfl | simp [CRes.shape, CRes.map] at h

/-- The bare traversal. -/
def visitH : Nat → Heap → Ref → CRes Unit
  | _, _, none => .panic
  | 0, _, some _ => .fuel
  | f + 1, h, some a => match h[a]? with
    | none => .panic
    | some o => (seqH (visitH f h) o.refs).shape

theorem text_shape : ∀ f h r, (textH f h r).shape = visitH f h r := by
  intro f
  induction f with
  | zero => intro h r; cases r <;> rfl
  | succ f ih =>
    intro h r
    cases r with
    | none => rfl
    | some a =>
      simp only [textH, visitH]
      cases ho : h[a]? with
      | none => rfl
      | some o =>
        cases o with
        | bool b => cases b <;> rfl
        | arr xs => simp only [shape_map, Obj.refs]; exact shape_seq (fun x => by rw [ih]; cases visitH f h x <;> rfl) xs
        | dict id kvs =>
          simp only [shape_map, Obj.refs]
          exact shape_seq_map (fun x => by rw [shape_map, ih]; cases visitH f h x.2 <;> rfl) kvs
        | _ => rfl

theorem interface_shape : ∀ f h r, (interfaceH f h r).shape = visitH f h r := by
  intro f
  induction f with
  | zero => intro h r; cases r <;> rfl
  | succ f ih =>
    intro h r
    cases r with
    | none => rfl
    | some a =>
      simp only [interfaceH, visitH]
      cases ho : h[a]? with
      | none => rfl
      | some o =>
        cases o with
        | arr xs => simp only [shape_map, Obj.refs]; exact shape_seq (fun x => by rw [ih]; cases visitH f h x <;> rfl) xs
        | dict id kvs =>
          simp only [shape_map, Obj.refs]
          exact shape_seq_map (fun x => by rw [shape_map, ih]; cases visitH f h x.2 <;> rfl) kvs
        | _ => rfl

theorem pretty_shape : ∀ f h l r, (prettyH f h l r).shape = visitH f h r := by
  intro f
  induction f with
  | zero => intro h l r; cases r <;> rfl
  | succ f ih =>
    intro h l r
    cases r with
    | none => rfl
    | some a =>
      simp only [prettyH]
      cases ho : h[a]? with
      | none => simp only [shape_map, text_shape]
      | some o =>
        cases o with
        | arr xs =>
          simp only [visitH, ho]
          simp only [shape_map, Obj.refs]; exact shape_seq (fun x => by rw [ih]; cases visitH f h x <;> rfl) xs
        | dict id kvs =>
          simp only [visitH, ho]
          simp only [shape_map, Obj.refs]
          refine shape_seq_map (fun x => ?_) kvs
          split
          · rw [shape_map, ih]; cases visitH f h x.2 <;> rfl
          · rw [shape_map, text_shape]; cases visitH f h x.2 <;> rfl
        | _ => simp only [shape_map, text_shape]

/-! ### Sequences -/

theorem seq_ok {α β} {g : α → CRes β} : ∀ {xs ys}, seqH g xs = .ok ys ↔ List.Forall₂ (fun x y => g x = .ok y) xs ys
  | [], ys => by cases ys <;> simp [seqH]
  | x :: xs, ys => by
    simp only [seqH]
    cases hx : g x with
    | ok y =>
      cases hs : seqH g xs with
      | ok zs =>
        cases ys with
        | nil => simp [CRes.map]
        | cons z ws =>
          rw [List.forall₂_cons, ← seq_ok (xs := xs) (ys := ws), hs, hx]
          simp [CRes.map]
      | panic =>
        cases ys with
        | nil => simp [CRes.map]
        | cons z ws => rw [List.forall₂_cons, ← seq_ok (xs := xs) (ys := ws), hs]; simp [CRes.map]
      | fuel =>
        cases ys with
        | nil => simp [CRes.map]
        | cons z ws => rw [List.forall₂_cons, ← seq_ok (xs := xs) (ys := ws), hs]; simp [CRes.map]
    | panic => cases ys <;> simp [hx]
    | fuel => cases ys <;> simp [hx]

theorem seq_panic {α β} {g : α → CRes β} : ∀ {xs}, seqH g xs = .panic → ∃ x ∈ xs, g x = .panic
  | [], h => by simp [seqH] at h
  | x :: xs, h => by
    simp only [seqH] at h
    cases hx : g x with
    | ok y =>
      rw [hx] at h
      cases hs : seqH g xs with
      | panic => obtain ⟨z, hz, h'⟩ := seq_panic hs; exact ⟨z, by simp [hz], h'⟩
      | ok zs => rw [hs] at h; simp [CRes.map] at h
      | fuel => rw [hs] at h; simp [CRes.map] at h
    | panic => exact ⟨x, by simp, hx⟩
    | fuel => rw [hx] at h; simp at h

theorem seq_fuel {α β} {g : α → CRes β} : ∀ {xs}, seqH g xs = .fuel → ∃ x ∈ xs, g x = .fuel
  | [], h => by simp [seqH] at h
  | x :: xs, h => by
    simp only [seqH] at h
    cases hx : g x with
    | ok y =>
      rw [hx] at h
      cases hs : seqH g xs with
      | fuel => obtain ⟨z, hz, h'⟩ := seq_fuel hs; exact ⟨z, by simp [hz], h'⟩
      | ok zs => rw [hs] at h; simp [CRes.map] at h
      | panic => rw [hs] at h; simp [CRes.map] at h
    | fuel => exact ⟨x, by simp, hx⟩
    | panic => rw [hx] at h; simp at h

/-! ### The traversal -/

theorem Ats_forall₂ {h : Heap} {P : Addr → Prop} : ∀ {xs : List J} {rs : List Ref},
    J.Ats h P xs rs ↔ List.Forall₂ (fun x r => ∃ b, r = some b ∧ x.At h P b) xs rs
  | [], rs => by simp [J.Ats]
  | x :: xs, rs => by
    simp only [J.Ats]
    cases rs with
    | nil => simp
    | cons r rs =>
      rw [List.forall₂_cons, ← Ats_forall₂]
      constructor
      · rintro ⟨b, rs', h1, h2, h3⟩; cases h1; exact ⟨⟨b, rfl, h2⟩, h3⟩
      · rintro ⟨⟨b, rfl, h2⟩, h3⟩; exact ⟨b, rs, rfl, h2, h3⟩

theorem Atf_forall₂ {h : Heap} {P : Addr → Prop} : ∀ {xs : List (Bytes × J)} {rs : SMap Ref},
    J.Atf h P xs rs ↔ List.Forall₂ (fun x (r : Bytes × Ref) => x.1 = r.1 ∧ ∃ b, r.2 = some b ∧ x.2.At h P b) xs rs
  | [], rs => by simp [J.Atf]
  | (k, x) :: xs, rs => by
    simp only [J.Atf]
    cases rs with
    | nil => simp
    | cons r rs =>
      rw [List.forall₂_cons, ← Atf_forall₂]
      obtain ⟨k', r⟩ := r
      constructor
      · rintro ⟨b, rs', h1, h2, h3⟩; cases h1; exact ⟨⟨rfl, b, rfl, h2⟩, h3⟩
      · rintro ⟨⟨rfl, b, h1, h2⟩, h3⟩; simp only at h1; subst h1; exact ⟨b, rs, rfl, h2, h3⟩

/-- Choosing a document for every variable of a list. -/
theorem exists_ats {h : Heap} : ∀ {rs : List Ref}, (∀ r ∈ rs, ∃ b v, r = some b ∧ J.Seen h v b) → ∃ xs, J.Ats h (fun _ => True) xs rs
  | [], _ => ⟨[], by simp [J.Ats]⟩
  | r :: rs, hr => by
    obtain ⟨b, v, rfl, hv⟩ := hr r (by simp)
    obtain ⟨xs, hxs⟩ := exists_ats (rs := rs) fun r h => hr r (by simp [h])
    exact ⟨v :: xs, by simp only [J.Ats]; exact ⟨b, rs, rfl, hv, hxs⟩⟩

theorem exists_atf {h : Heap} : ∀ {rs : SMap Ref}, (∀ r ∈ rs.map (·.2), ∃ b v, r = some b ∧ J.Seen h v b) → ∃ xs, J.Atf h (fun _ => True) xs rs
  | [], _ => ⟨[], by simp [J.Atf]⟩
  | (k, r) :: rs, hr => by
    obtain ⟨b, v, hb, hv⟩ := hr r (by simp)
    subst hb
    obtain ⟨xs, hxs⟩ := exists_atf (rs := rs) fun r h => hr r (by rw [List.map_cons]; exact List.mem_cons_of_mem _ h)
    exact ⟨(k, v) :: xs, by simp only [J.Atf]; exact ⟨b, rs, rfl, hv, hxs⟩⟩

/-- An object all of whose variables hold documents spells a document. -/
theorem seen_of_refs {h : Heap} {a : Addr} {o : Obj} (ho : h[a]? = some o) (hr : ∀ r ∈ o.refs, ∃ b v, r = some b ∧ J.Seen h v b) :
    ∃ v, J.Seen h v a := by
  cases o with
  | null => exact ⟨.null, by simp only [J.Seen, J.At]; exact ⟨trivial, ho⟩⟩
  | bool b => exact ⟨.bool b, by simp only [J.Seen, J.At]; exact ⟨trivial, ho⟩⟩
  | int b => exact ⟨.int b, by simp only [J.Seen, J.At]; exact ⟨trivial, ho⟩⟩
  | float x b => exact ⟨.float x b, by simp only [J.Seen, J.At]; exact ⟨trivial, ho⟩⟩
  | str b => exact ⟨.str b, by simp only [J.Seen, J.At]; exact ⟨trivial, ho⟩⟩
  | ptr b => exact ⟨.ptr b, by simp only [J.Seen, J.At]; exact ⟨trivial, ho⟩⟩
  | arr xs =>
    obtain ⟨vs, hv⟩ := exists_ats hr
    exact ⟨.arr vs, by simp only [J.Seen, J.At]; exact ⟨trivial, xs, ho, hv⟩⟩
  | dict id kvs =>
    obtain ⟨vs, hv⟩ := exists_atf hr
    exact ⟨.dict id vs, by simp only [J.Seen, J.At]; exact ⟨trivial, kvs, ho, hv⟩⟩

theorem forall₂_left {α β} {R : α → β → Prop} {xs : List α} {ys : List β} (h : List.Forall₂ R xs ys) : ∀ x ∈ xs, ∃ y ∈ ys, R x y := by
  induction h with
  | nil => simp
  | cons h1 _ ih =>
    intro x hx
    rcases List.mem_cons.1 hx with rfl | hx
    · exact ⟨_, by simp, h1⟩
    · obtain ⟨y, hy, hr⟩ := ih x hx; exact ⟨y, by simp [hy], hr⟩

theorem visit_ok : ∀ {f h r}, visitH f h r = .ok () → ∃ a v, r = some a ∧ J.Seen h v a := by
  intro f
  induction f with
  | zero => intro h r hv; cases r <;> simp [visitH] at hv
  | succ f ih =>
    intro h r hv
    cases r with
    | none => simp [visitH] at hv
    | some a =>
      simp only [visitH] at hv
      cases ho : h[a]? with
      | none => rw [ho] at hv; simp at hv
      | some o =>
        rw [ho] at hv
        obtain ⟨ys, hs⟩ := shape_ok hv
        have hf := seq_ok.1 hs
        obtain ⟨v, hv'⟩ := seen_of_refs ho fun r hr => by
          obtain ⟨y, _, hy⟩ := forall₂_left hf r hr
          exact ih hy
        exact ⟨a, v, rfl, hv'⟩

theorem seq_all_ok {α} {g : α → CRes Unit} : ∀ {xs}, (∀ x ∈ xs, g x = .ok ()) → (seqH g xs).shape = .ok ()
  | [], _ => rfl
  | x :: xs, hx => by
    simp only [seqH, hx x (by simp), shape_map]
    exact seq_all_ok fun y hy => hx y (by simp [hy])

/-- A common bound for finitely many. -/
theorem common_bound {α} {p : α → Nat → Prop} : ∀ {xs : List α}, (∀ x ∈ xs, ∃ f0, ∀ f, f0 ≤ f → p x f) → ∃ f0, ∀ f, f0 ≤ f → ∀ x ∈ xs, p x f
  | [], _ => ⟨0, by simp⟩
  | x :: xs, hx => by
    obtain ⟨f1, h1⟩ := hx x (by simp)
    obtain ⟨f2, h2⟩ := common_bound (xs := xs) fun y hy => hx y (by simp [hy])
    refine ⟨max f1 f2, fun f hf y hy => ?_⟩
    rcases List.mem_cons.1 hy with rfl | hy
    · exact h1 f (by omega)
    · exact h2 f (by omega) y hy

theorem visit_finite {h : Heap} {r : Ref} (hf : Knotless h r) : ∃ f0, ∀ f, f0 ≤ f → visitH f h r ≠ .fuel := by
  induction hf with
  | nil => exact ⟨0, fun f _ => by cases f <;> simp [visitH]⟩
  | @node a o ho _ ih =>
    obtain ⟨f0, h0⟩ := common_bound ih
    refine ⟨f0 + 1, fun f hf he => ?_⟩
    obtain ⟨f, rfl⟩ : ∃ g, f = g + 1 := ⟨f - 1, by omega⟩
    simp only [visitH, ho] at he
    obtain ⟨r, hr, h1⟩ := seq_fuel (shape_fuel he)
    exact h0 f (by omega) r hr h1

theorem Ats_of_mem {h : Heap} {P : Addr → Prop} : ∀ {xs : List J} {rs : List Ref}, J.Ats h P xs rs → ∀ r ∈ rs, ∃ b, ∃ x ∈ xs, r = some b ∧ x.At h P b
  | [], rs, hr, r, hm => by simp only [J.Ats] at hr; subst hr; simp at hm
  | x :: xs, rs, hr, r, hm => by
    simp only [J.Ats] at hr
    obtain ⟨b, rs', rfl, h1, h2⟩ := hr
    rcases List.mem_cons.1 hm with rfl | hm
    · exact ⟨b, x, by simp, rfl, h1⟩
    · obtain ⟨c, y, hy, h3⟩ := Ats_of_mem h2 r hm; exact ⟨c, y, by simp [hy], h3⟩

theorem Atf_of_mem {h : Heap} {P : Addr → Prop} : ∀ {xs : List (Bytes × J)} {rs : SMap Ref}, J.Atf h P xs rs → ∀ e ∈ rs, ∃ b, ∃ x, (e.1, x) ∈ xs ∧ e.2 = some b ∧ x.At h P b
  | [], rs, hr, r, hm => by simp only [J.Atf] at hr; subst hr; simp at hm
  | (k, x) :: xs, rs, hr, r, hm => by
    simp only [J.Atf] at hr
    obtain ⟨b, rs', rfl, h1, h2⟩ := hr
    rcases List.mem_cons.1 hm with rfl | hm
    · exact ⟨b, x, by simp, rfl, h1⟩
    · obtain ⟨c, y, hy, h3⟩ := Atf_of_mem h2 r hm; exact ⟨c, y, by simp [hy], h3⟩

/-- A document seen in memory is finite. -/
theorem seen_finite {h : Heap} (v : J) : ∀ a, J.Seen h v a → Knotless h (some a) := by
  induction v using J.ind with
  | arr xs ih =>
    intro a hA
    simp only [J.Seen, J.At] at hA
    obtain ⟨_, rs, h2, h3⟩ := hA
    refine .node h2 fun r hr => ?_
    obtain ⟨b, x, hx, rfl, hxb⟩ := Ats_of_mem h3 r hr
    obtain ⟨i, hi⟩ := List.getElem?_of_mem hx
    exact ih i x hi b hxb
  | dict id kvs ih =>
    intro a hA
    simp only [J.Seen, J.At] at hA
    obtain ⟨_, rs, h2, h3⟩ := hA
    refine .node h2 fun r hr => ?_
    simp only [Obj.refs, List.mem_map] at hr
    obtain ⟨e, he, rfl⟩ := hr
    obtain ⟨b, x, hx, hb, hxb⟩ := Atf_of_mem h3 e he
    rw [hb]
    exact ih e.1 x hx b hxb
  | _ =>
    intro a hA
    simp only [J.Seen, J.At] at hA
    exact .node hA.2 (by simp [Obj.refs])

theorem seen_noNil {h : Heap} (v : J) : ∀ a, J.Seen h v a → ¬ HasNil h (some a) := by
  induction v using J.ind with
  | arr xs ih =>
    intro a hA hn
    simp only [J.Seen, J.At] at hA
    obtain ⟨_, rs, h2, h3⟩ := hA
    cases hn with
    | inside g hm hn =>
      rw [h2] at g; cases g
      obtain ⟨b, x, hx, rfl, hxb⟩ := Ats_of_mem h3 _ hm
      obtain ⟨i, hi⟩ := List.getElem?_of_mem hx
      exact ih i x hi b hxb hn
  | dict id kvs ih =>
    intro a hA hn
    simp only [J.Seen, J.At] at hA
    obtain ⟨_, rs, h2, h3⟩ := hA
    cases hn with
    | inside g hm hn =>
      rw [h2] at g; cases g
      simp only [Obj.refs, List.mem_map] at hm
      obtain ⟨e, he, rfl⟩ := hm
      obtain ⟨b, x, hx, hb, hxb⟩ := Atf_of_mem h3 e he
      rw [hb] at hn
      exact ih e.1 x hx b hxb hn
  | _ =>
    intro a hA hn
    simp only [J.Seen, J.At] at hA
    cases hn with
    | inside g hm hn => rw [hA.2] at g; cases g; simp [Obj.refs] at hm

theorem visit_panic : ∀ {f h r}, RefsIn h [r] → (∀ o ∈ h, RefsIn h o.refs) → visitH f h r = .panic → HasNil h r := by
  intro f
  induction f with
  | zero => intro h r _ _ hv; cases r <;> first | exact .here | simp [visitH] at hv
  | succ f ih =>
    intro h r hr hin hv
    cases r with
    | none => exact .here
    | some a =>
      simp only [visitH] at hv
      cases ho : h[a]? with
      | none => exact absurd (hr a (by simp)) (Nat.not_lt.2 (List.getElem?_eq_none_iff.1 ho))
      | some o =>
        rw [ho] at hv
        obtain ⟨r, hm, h1⟩ := seq_panic (shape_panic hv)
        refine .inside ho hm (ih (fun b hb => ?_) hin h1)
        simp only [List.mem_singleton] at hb
        exact hin o (List.mem_of_getElem? ho) b (by rw [hb]; exact hm)

/-! ### The values -/

theorem text_val {h : Heap} (v : J) : ∀ f a out, J.Seen h v a → textH f h (some a) = .ok out → out = v.toBytes := by
  have elems : ∀ (g : Ref → CRes Bytes) (xs : List J) (rs : List Ref) (ts : List Bytes), (∀ x ∈ xs, ∀ b t, J.Seen h x b → g (some b) = .ok t → t = x.toBytes) →
      J.Ats h (fun _ => True) xs rs → List.Forall₂ (fun x y => g x = .ok y) rs ts → ∀ c, joinElems ts c = J.arrBytes xs c := by
    intro g xs
    induction xs with
    | nil => intro rs ts _ hr ht c; simp only [J.Ats] at hr; subst hr; cases ht; simp [joinElems, J.arrBytes]
    | cons x xs ih =>
      intro rs ts hx hr ht c
      simp only [J.Ats] at hr
      obtain ⟨b, rs', rfl, h1, h2⟩ := hr
      cases ht with
      | cons e1 e2 =>
        simp only [joinElems, J.arrBytes]
        rw [hx x (by simp) b _ h1 e1, ih _ _ (fun y hy => hx y (by simp [hy])) h2 e2]
  have entries : ∀ (g : Ref → CRes Bytes) (xs : List (Bytes × J)) (rs : SMap Ref) (ts : List (Bytes × Bytes)),
      (∀ k x, (k, x) ∈ xs → ∀ b t, J.Seen h x b → g (some b) = .ok t → t = x.toBytes) →
      J.Atf h (fun _ => True) xs rs → List.Forall₂ (fun (x : Bytes × Ref) y => ((g x.2).map fun t => (x.1, t)) = CRes.ok y) rs ts → ∀ c, joinEntries ts c = J.dictBytes xs c := by
    intro g xs
    induction xs with
    | nil => intro rs ts _ hr ht c; simp only [J.Atf] at hr; subst hr; cases ht; simp [joinEntries, J.dictBytes]
    | cons x xs ih =>
      obtain ⟨k, x⟩ := x
      intro rs ts hx hr ht c
      simp only [J.Atf] at hr
      obtain ⟨b, rs', rfl, h1, h2⟩ := hr
      cases ht with
      | cons e1 e2 =>
        simp only at e1
        cases hg : g (some b) with
        | ok t =>
          rw [hg] at e1
          simp only [CRes.map, CRes.ok.injEq] at e1
          subst e1
          simp only [joinEntries, J.dictBytes]
          rw [hx k x (by simp) b _ h1 hg, ih _ _ (fun k y hy => hx k y (by simp [hy])) h2 e2]
        | panic => rw [hg] at e1; simp [CRes.map] at e1
        | fuel => rw [hg] at e1; simp [CRes.map] at e1
  induction v using J.ind with
  | arr xs ih =>
    intro f a out hA ht
    cases f with
    | zero => simp [textH] at ht
    | succ f =>
      simp only [J.Seen, J.At] at hA
      obtain ⟨_, rs, h2, h3⟩ := hA
      simp only [textH, h2] at ht
      cases hs : seqH (textH f h) rs with
      | ok ts =>
        rw [hs] at ht
        simp only [CRes.map, CRes.ok.injEq] at ht
        subst ht
        simp only [J.toBytes]
        rw [elems (textH f h) xs rs ts (fun x hx b t hb => by obtain ⟨i, hi⟩ := List.getElem?_of_mem hx; exact ih i x hi f b t hb) h3 (seq_ok.1 hs)]
      | panic => rw [hs] at ht; simp [CRes.map] at ht
      | fuel => rw [hs] at ht; simp [CRes.map] at ht
  | dict id kvs ih =>
    intro f a out hA ht
    cases f with
    | zero => simp [textH] at ht
    | succ f =>
      simp only [J.Seen, J.At] at hA
      obtain ⟨_, rs, h2, h3⟩ := hA
      simp only [textH, h2] at ht
      cases hs : seqH (fun e : Bytes × Ref => (textH f h e.2).map fun t => (e.1, t)) rs with
      | ok ts =>
        rw [hs] at ht
        simp only [CRes.map, CRes.ok.injEq] at ht
        subst ht
        have e := entries (textH f h) kvs rs ts (fun k x hx b t hb => ih k x hx f b t hb) h3 (seq_ok.1 hs)
        simp only [J.toBytes, e]
      | panic => rw [hs] at ht; simp [CRes.map] at ht
      | fuel => rw [hs] at ht; simp [CRes.map] at ht
  | bool c =>
    intro f a out hA ht
    cases f with
    | zero => simp [textH] at ht
    | succ f =>
      simp only [J.Seen, J.At] at hA
      cases c <;> simp only [textH, hA.2, CRes.ok.injEq] at ht <;> subst ht <;> simp only [J.toBytes]
  | _ =>
    intro f a out hA ht
    cases f with
    | zero => simp [textH] at ht
    | succ f =>
      simp only [J.Seen, J.At] at hA
      simp only [textH, hA.2, CRes.ok.injEq] at ht
      subst ht; simp only [J.toBytes]

theorem interface_val {h : Heap} (v : J) : ∀ f a out, J.Seen h v a → interfaceH f h (some a) = .ok out → out = v.interface := by
  have elems : ∀ (g : Ref → CRes Iface) (xs : List J) (rs : List Ref) (ts : List Iface), (∀ x ∈ xs, ∀ b t, J.Seen h x b → g (some b) = .ok t → t = x.interface) →
      J.Ats h (fun _ => True) xs rs → List.Forall₂ (fun x y => g x = .ok y) rs ts → ts = J.interfaces xs := by
    intro g xs
    induction xs with
    | nil => intro rs ts _ hr ht; simp only [J.Ats] at hr; subst hr; cases ht; simp [J.interfaces]
    | cons x xs ih =>
      intro rs ts hx hr ht
      simp only [J.Ats] at hr
      obtain ⟨b, rs', rfl, h1, h2⟩ := hr
      cases ht with
      | cons e1 e2 =>
        simp only [J.interfaces]
        rw [hx x (by simp) b _ h1 e1, ih _ _ (fun y hy => hx y (by simp [hy])) h2 e2]
  have entries : ∀ (g : Ref → CRes Iface) (xs : List (Bytes × J)) (rs : SMap Ref) (ts : List (Bytes × Iface)),
      (∀ k x, (k, x) ∈ xs → ∀ b t, J.Seen h x b → g (some b) = .ok t → t = x.interface) →
      J.Atf h (fun _ => True) xs rs → List.Forall₂ (fun (x : Bytes × Ref) y => ((g x.2).map fun t => (x.1, t)) = CRes.ok y) rs ts → ts = J.interfacef xs := by
    intro g xs
    induction xs with
    | nil => intro rs ts _ hr ht; simp only [J.Atf] at hr; subst hr; cases ht; simp [J.interfacef]
    | cons x xs ih =>
      obtain ⟨k, x⟩ := x
      intro rs ts hx hr ht
      simp only [J.Atf] at hr
      obtain ⟨b, rs', rfl, h1, h2⟩ := hr
      cases ht with
      | cons e1 e2 =>
        simp only at e1
        cases hg : g (some b) with
        | ok t =>
          rw [hg] at e1
          simp only [CRes.map, CRes.ok.injEq] at e1
          subst e1
          simp only [J.interfacef]
          rw [hx k x (by simp) b _ h1 hg, ih _ _ (fun k y hy => hx k y (by simp [hy])) h2 e2]
        | panic => rw [hg] at e1; simp [CRes.map] at e1
        | fuel => rw [hg] at e1; simp [CRes.map] at e1
  induction v using J.ind with
  | arr xs ih =>
    intro f a out hA ht
    cases f with
    | zero => simp [interfaceH] at ht
    | succ f =>
      simp only [J.Seen, J.At] at hA
      obtain ⟨_, rs, h2, h3⟩ := hA
      simp only [interfaceH, h2] at ht
      cases hs : seqH (interfaceH f h) rs with
      | ok ts =>
        rw [hs] at ht
        simp only [CRes.map, CRes.ok.injEq] at ht
        subst ht
        simp only [J.interface]
        rw [elems (interfaceH f h) xs rs ts (fun x hx b t hb => by obtain ⟨i, hi⟩ := List.getElem?_of_mem hx; exact ih i x hi f b t hb) h3 (seq_ok.1 hs)]
      | panic => rw [hs] at ht; simp [CRes.map] at ht
      | fuel => rw [hs] at ht; simp [CRes.map] at ht
  | dict id kvs ih =>
    intro f a out hA ht
    cases f with
    | zero => simp [interfaceH] at ht
    | succ f =>
      simp only [J.Seen, J.At] at hA
      obtain ⟨_, rs, h2, h3⟩ := hA
      simp only [interfaceH, h2] at ht
      cases hs : seqH (fun e : Bytes × Ref => (interfaceH f h e.2).map fun t => (e.1, t)) rs with
      | ok ts =>
        rw [hs] at ht
        simp only [CRes.map, CRes.ok.injEq] at ht
        subst ht
        have e := entries (interfaceH f h) kvs rs ts (fun k x hx b t hb => ih k x hx f b t hb) h3 (seq_ok.1 hs)
        simp only [J.interface, e]
      | panic => rw [hs] at ht; simp [CRes.map] at ht
      | fuel => rw [hs] at ht; simp [CRes.map] at ht
  | _ =>
    intro f a out hA ht
    cases f with
    | zero => simp [interfaceH] at ht
    | succ f =>
      simp only [J.Seen, J.At] at hA
      simp only [interfaceH, hA.2, CRes.ok.injEq] at ht
      subst ht; simp only [J.interface]

theorem isContainer_seen {h : Heap} {v : J} {a : Addr} (hv : J.Seen h v a) : isContainerH h (some a) = v.isDictOrArr := by
  cases v <;> simp only [J.Seen, J.At] at hv <;> simp only [isContainerH, J.isDictOrArr]
  case arr => obtain ⟨_, rs, h2, _⟩ := hv; simp [h2]
  case dict => obtain ⟨_, rs, h2, _⟩ := hv; simp [h2]
  all_goals simp [hv.2]

theorem pretty_val {h : Heap} (v : J) : ∀ f l a out, J.Seen h v a → prettyH f h l (some a) = .ok out → out = v.pretty l := by
  have elems : ∀ (g : Ref → CRes Bytes) (l : Nat) (xs : List J) (rs : List Ref) (ts : List Bytes),
      (∀ x ∈ xs, ∀ b t, J.Seen h x b → g (some b) = .ok t → t = x.pretty (l + 1)) →
      J.Ats h (fun _ => True) xs rs → List.Forall₂ (fun x y => g x = .ok y) rs ts → ∀ c, prettyElems ts c = J.prettyArr xs l c := by
    intro g l xs
    induction xs with
    | nil => intro rs ts _ hr ht c; simp only [J.Ats] at hr; subst hr; cases ht; simp [prettyElems, J.prettyArr]
    | cons x xs ih =>
      intro rs ts hx hr ht c
      simp only [J.Ats] at hr
      obtain ⟨b, rs', rfl, h1, h2⟩ := hr
      cases ht with
      | cons e1 e2 =>
        simp only [prettyElems, J.prettyArr]
        rw [hx x (by simp) b _ h1 e1, ih _ _ (fun y hy => hx y (by simp [hy])) h2 e2]
  have entries : ∀ (g : Ref → CRes Bytes) (f l : Nat) (xs : List (Bytes × J)) (rs : SMap Ref) (ts : List (Bytes × Bytes)),
      (∀ k x, (k, x) ∈ xs → ∀ b t, J.Seen h x b → g (some b) = .ok t → t = x.pretty (l + 2)) →
      J.Atf h (fun _ => True) xs rs → List.Forall₂ (fun (x : Bytes × Ref) y => (if isContainerH h x.2 then (g x.2).map fun t => (x.1, 10 :: t)
        else (textH f h x.2).map fun t => (x.1, 32 :: t)) = CRes.ok y) rs ts → ∀ c, prettyEntries l ts c = J.prettyDict xs l c := by
    intro g f l xs
    induction xs with
    | nil => intro rs ts _ hr ht c; simp only [J.Atf] at hr; subst hr; cases ht; simp [prettyEntries, J.prettyDict]
    | cons x xs ih =>
      obtain ⟨k, x⟩ := x
      intro rs ts hx hr ht c
      simp only [J.Atf] at hr
      obtain ⟨b, rs', rfl, h1, h2⟩ := hr
      cases ht with
      | cons e1 e2 =>
        simp only at e1
        rw [isContainer_seen h1] at e1
        have e3 := ih _ _ (fun k y hy => hx k y (by simp [hy])) h2 e2
        cases hd : x.isDictOrArr with
        | true =>
          rw [hd] at e1
          simp only [if_true] at e1
          cases hg : g (some b) with
          | ok t =>
            rw [hg] at e1
            simp only [CRes.map, CRes.ok.injEq] at e1
            subst e1
            simp only [prettyEntries, J.prettyDict, hd, if_true]
            rw [hx k x (by simp) b _ h1 hg, e3]
          | panic => rw [hg] at e1; simp [CRes.map] at e1
          | fuel => rw [hg] at e1; simp [CRes.map] at e1
        | false =>
          rw [hd] at e1
          simp only [Bool.false_eq_true, if_false] at e1
          cases hg : textH f h (some b) with
          | ok t =>
            rw [hg] at e1
            simp only [CRes.map, CRes.ok.injEq] at e1
            subst e1
            simp only [prettyEntries, J.prettyDict, hd, Bool.false_eq_true, if_false]
            rw [text_val x f b _ h1 hg, e3]
          | panic => rw [hg] at e1; simp [CRes.map] at e1
          | fuel => rw [hg] at e1; simp [CRes.map] at e1
  have scalar : ∀ (v : J) f l a out, J.Seen h v a → v.isDictOrArr = false → prettyH (f + 1) h l (some a) = .ok out → out = indent l ++ v.toBytes := by
    intro v f l a out hA hd ht
    have ht' : (textH (f + 1) h (some a)).map (fun t => indent l ++ t) = .ok out := by
      rw [← ht]
      have := isContainer_seen hA
      rw [hd] at this
      simp only [isContainerH] at this
      simp only [prettyH]
      split at this <;> first | (simp at this; done) | skip
      rename_i h1 h2
      cases ho : h[a]? with
      | none => rfl
      | some o => cases o <;> first | rfl | exact absurd ho (h1 _) | exact absurd ho (h2 _ _)
    cases hx : textH (f + 1) h (some a) with
    | ok t =>
      rw [hx] at ht'
      simp only [CRes.map, CRes.ok.injEq] at ht'
      subst ht'
      rw [text_val v (f + 1) a t hA hx]
    | panic => rw [hx] at ht'; simp [CRes.map] at ht'
    | fuel => rw [hx] at ht'; simp [CRes.map] at ht'
  induction v using J.ind with
  | arr xs ih =>
    intro f l a out hA ht
    cases f with
    | zero => simp [prettyH] at ht
    | succ f =>
      simp only [J.Seen, J.At] at hA
      obtain ⟨_, rs, h2, h3⟩ := hA
      simp only [prettyH, h2] at ht
      cases hs : seqH (prettyH f h (l + 1)) rs with
      | ok ts =>
        rw [hs] at ht
        simp only [CRes.map, CRes.ok.injEq] at ht
        subst ht
        rw [elems (prettyH f h (l + 1)) l xs rs ts (fun x hx b t hb => by obtain ⟨i, hi⟩ := List.getElem?_of_mem hx; exact ih i x hi f (l + 1) b t hb) h3 (seq_ok.1 hs)]
        cases xs with
        | nil => simp only [J.Ats] at h3; subst h3; simp [J.pretty, J.prettyArr]
        | cons x xs =>
          simp only [J.Ats] at h3
          obtain ⟨b, rs', rfl, _, _⟩ := h3
          simp [J.pretty]
      | panic => rw [hs] at ht; simp [CRes.map] at ht
      | fuel => rw [hs] at ht; simp [CRes.map] at ht
  | dict id kvs ih =>
    intro f l a out hA ht
    cases f with
    | zero => simp [prettyH] at ht
    | succ f =>
      simp only [J.Seen, J.At] at hA
      obtain ⟨_, rs, h2, h3⟩ := hA
      simp only [prettyH, h2] at ht
      cases hs : seqH (fun e : Bytes × Ref => if isContainerH h e.2 then (prettyH f h (l + 2) e.2).map fun t => (e.1, 10 :: t)
        else (textH f h e.2).map fun t => (e.1, 32 :: t)) rs with
      | ok ts =>
        rw [hs] at ht
        simp only [CRes.map, CRes.ok.injEq] at ht
        subst ht
        rw [entries (prettyH f h (l + 2)) f l kvs rs ts (fun k x hx b t hb => ih k x hx f (l + 2) b t hb) h3 (seq_ok.1 hs)]
        cases kvs with
        | nil => simp only [J.Atf] at h3; subst h3; simp [J.pretty, J.prettyDict]
        | cons x xs =>
          obtain ⟨k, x⟩ := x
          simp only [J.Atf] at h3
          obtain ⟨b, rs', rfl, _, _⟩ := h3
          simp [J.pretty]
      | panic => rw [hs] at ht; simp [CRes.map] at ht
      | fuel => rw [hs] at ht; simp [CRes.map] at ht
  | _ =>
    intro f l a out hA ht
    cases f with
    | zero => simp [prettyH] at ht
    | succ f =>
      rw [scalar _ f l a out hA rfl ht]
      simp only [J.pretty]

/-! ### Following keys -/

theorem smGet_mem_iff {α} {m : SMap α} (hs : SMap.Sorted m) {k : Bytes} {x : α} : smGet m k = some x ↔ (k, x) ∈ m := by
  rw [← lastValue_sorted hs, lastValue_eq_of_nodup _ (sorted_keys_nodup hs)]

theorem smGet_none_iff {α} {m : SMap α} (hs : SMap.Sorted m) {k : Bytes} : smGet m k = none ↔ ∀ x, (k, x) ∉ m := by
  constructor
  · intro h x hx; rw [← smGet_mem_iff hs, h] at hx; cases hx
  · intro h
    cases hg : smGet m k with
    | none => rfl
    | some x => exact absurd ((smGet_mem_iff hs).1 hg) (h x)

theorem Leads.dict {h : Heap} {a : Addr} {ks : List Bytes} {r : Ref} (l : Leads h a ks r) : ∃ id kvs, h[a]? = some (.dict id kvs) := by
  cases l with
  | last h1 _ => exact ⟨_, _, h1⟩
  | step h1 _ _ => exact ⟨_, _, h1⟩

/-- Keys lead to at most one place. -/
theorem Leads.unique {h : Heap} (ht : h.Tidy) {a : Addr} {ks : List Bytes} {r : Ref} (l : Leads h a ks r) : ∀ {r'}, Leads h a ks r' → r = r' := by
  induction l with
  | last h1 h2 =>
    intro r' l'
    cases l' with
    | last g1 g2 =>
      rw [h1] at g1; cases g1
      have e1 := (smGet_mem_iff (ht _ _ _ h1)).2 h2
      have e2 := (smGet_mem_iff (ht _ _ _ h1)).2 g2
      rw [e1] at e2; exact Option.some.inj e2
  | step h1 h2 _ ih =>
    intro r' l'
    cases l' with
    | step g1 g2 l2 =>
      rw [h1] at g1; cases g1
      have e1 := (smGet_mem_iff (ht _ _ _ h1)).2 h2
      have e2 := (smGet_mem_iff (ht _ _ _ h1)).2 g2
      rw [e1] at e2
      cases e2
      exact ih l2

/-- What the loop of `Get` finds. -/
theorem getLoop_spec {h : Heap} (ht : h.Tidy) : ∀ (keys : List Bytes) (a : Addr) (id : Int) (kvs : SMap Ref), keys ≠ [] → h[a]? = some (.dict id kvs) →
    match getLoopH h kvs keys with
    | .ok r => r ≠ none ∧ Leads h a keys r
    | .panic => Leads h a keys none
    | .err .invalidDict => ∃ p q r, keys = p ++ q ∧ q ≠ [] ∧ Leads h a p r ∧ ¬ IsDict h r
    | .err .keyNotFound => ∃ p k q d id' m, keys = p ++ k :: q ∧ (p = [] ∧ d = a ∨ Leads h a p (some d)) ∧ h[d]? = some (.dict id' m) ∧ ∀ x, (k, x) ∉ m
    | .err _ => False
  | [], _, _, _, hn, _ => absurd rfl hn
  | [k], a, id, kvs, _, ha => by
    have hs := ht _ _ _ ha
    simp only [getLoopH]
    cases hg : smGet kvs k with
    | none => exact ⟨[], k, [], a, id, kvs, rfl, Or.inl ⟨rfl, rfl⟩, ha, (smGet_none_iff hs).1 hg⟩
    | some r =>
      cases r with
      | none => exact .last ha ((smGet_mem_iff hs).1 hg)
      | some b => exact ⟨by simp, .last ha ((smGet_mem_iff hs).1 hg)⟩
  | k :: k2 :: ks, a, id, kvs, _, ha => by
    have hs := ht _ _ _ ha
    rw [getLoopH]
    cases hg : smGet kvs k with
    | none => exact ⟨[], k, k2 :: ks, a, id, kvs, rfl, Or.inl ⟨rfl, rfl⟩, ha, (smGet_none_iff hs).1 hg⟩
    | some r =>
      have hm := (smGet_mem_iff hs).1 hg
      cases r with
      | none => exact ⟨[k], k2 :: ks, none, rfl, by simp, .last ha hm, fun ⟨_, _, _, h1, _⟩ => by cases h1⟩
      | some b =>
        simp only
        cases hb : h[b]? with
        | none => exact ⟨[k], k2 :: ks, some b, rfl, by simp, .last ha hm, fun ⟨c, _, _, h1, h2⟩ => by cases h1; rw [hb] at h2; cases h2⟩
        | some o =>
          cases o with
          | dict id' m =>
            have ih := getLoop_spec ht (k2 :: ks) b id' m (by simp) hb
            simp only
            cases hr : getLoopH h m (k2 :: ks) with
            | ok r => rw [hr] at ih; exact ⟨ih.1, .step ha hm ih.2⟩
            | panic => rw [hr] at ih; exact .step ha hm ih
            | err e =>
              rw [hr] at ih
              cases e with
              | invalidDict =>
                obtain ⟨p, q, r, h1, h2, h3, h4⟩ := ih
                refine ⟨k :: p, q, r, by rw [h1]; rfl, h2, ?_, h4⟩
                cases p with
                | nil => cases h3
                | cons p0 p => exact .step ha hm h3
              | keyNotFound =>
                obtain ⟨p, k', q, d, id2, m2, h1, h2, h3, h4⟩ := ih
                refine ⟨k :: p, k', q, d, id2, m2, by rw [h1]; rfl, Or.inr ?_, h3, h4⟩
                rcases h2 with ⟨rfl, rfl⟩ | h2
                · exact .last ha hm
                · cases p with
                  | nil => cases h2
                  | cons p0 p => exact .step ha hm h2
              | _ => exact ih
          | _ => exact ⟨[k], k2 :: ks, some b, rfl, by simp, .last ha hm, fun ⟨c, _, _, h1, h2⟩ => by cases h1; rw [hb] at h2; cases h2⟩

/-! ### `DeepCopy` and nil -/

theorem HasNilEntry.mono {h h' : Heap} (hp : h <+: h') {r : Ref} (c : HasNilEntry h r) : HasNilEntry h' r := by
  induction c with
  | here h1 h2 => exact .here (prefix_get hp h1) h2
  | inside h1 h2 _ ih => exact .inside (prefix_get hp h1) h2 ih

theorem Knotless.mono {h h' : Heap} (hp : h <+: h') {r : Ref} (c : Knotless h r) : Knotless h' r := by
  induction c with
  | nil => exact .nil
  | node h1 _ ih => exact .node (prefix_get hp h1) ih

theorem prefix_get' {h h' : Heap} (hp : h <+: h') {a : Addr} (ha : a < h.length) : h'[a]? = h[a]? := by
  obtain ⟨t, rfl⟩ := hp; exact List.getElem?_append_left ha

theorem HasNilEntry.anti {h h' : Heap} (hp : h <+: h') (hin : ∀ o ∈ h, RefsIn h o.refs) {r : Ref} (c : HasNilEntry h' r) : RefsIn h [r] → HasNilEntry h r := by
  induction c with
  | @here a id kvs k h1 h2 =>
    intro hr
    rw [prefix_get' hp (hr a (by simp))] at h1
    exact .here h1 h2
  | @inside a o r h1 h2 _ ih =>
    intro hr
    rw [prefix_get' hp (hr a (by simp))] at h1
    exact .inside h1 h2 (ih fun b hb => hin o (List.mem_of_getElem? h1) b (by simp only [List.mem_singleton] at hb; rw [hb]; exact h2))

theorem nilEntry_iff {kvs : SMap Ref} : nilEntry kvs = true ↔ ∃ k, (k, none) ∈ kvs := by
  simp only [nilEntry, List.any_eq_true]
  constructor
  · rintro ⟨⟨k, r⟩, h1, h2⟩; cases r <;> simp at h2; exact ⟨k, h1⟩
  · rintro ⟨k, h⟩; exact ⟨_, h, rfl⟩


theorem copy_nil {ord : SMap Ref → SMap Ref} (hord : ∀ l, (ord l).Perm l) : ∀ f : Nat,
    (∀ h r, HeapFine h → RefsIn h [r] → (deepCopyH ord f h r = .panic → HasNilEntry h r) ∧ (∀ p, deepCopyH ord f h r = .ok p → ¬ HasNilEntry h r)) ∧
    (∀ h rs, HeapFine h → RefsIn h rs → (deepCopysH ord f h rs = .panic → ∃ r ∈ rs, HasNilEntry h r) ∧
      (∀ p, deepCopysH ord f h rs = .ok p → ∀ r ∈ rs, ¬ HasNilEntry h r)) ∧
    (∀ h kvs m, HeapFine h → RefsIn h (kvs.map (·.2)) → (deepCopyfH ord f h kvs m = .panic → ∃ r ∈ kvs.map (·.2), HasNilEntry h r) ∧
      (∀ p, deepCopyfH ord f h kvs m = .ok p → ∀ r ∈ kvs.map (·.2), ¬ HasNilEntry h r)) := by
  have noneOk : ∀ h : Heap, ¬ HasNilEntry h none := fun h hn => by cases hn
  intro f
  induction f with
  | zero =>
    refine ⟨fun h r _ _ => ?_, fun h rs _ _ => ?_, fun h kvs m _ _ => ?_⟩
    · cases r <;> simp [deepCopyH, noneOk]
    · cases rs <;> simp [deepCopysH]
    · cases kvs <;> simp [deepCopyfH]
  | succ f ih =>
    obtain ⟨ih1, ih2, ih3⟩ := ih
    refine ⟨fun h r hf hr => ?_, fun h rs hf hr => ?_, fun h kvs m hf hr => ?_⟩
    · cases r with
      | none => simp [deepCopyH, noneOk]
      | some a =>
        have leaf : ∀ o, h[a]? = some o → o.refs = [] → (∀ id kvs, o ≠ .dict id kvs) → ¬ HasNilEntry h (some a) := by
          intro o ho h1 h2 hn
          cases hn with
          | here g _ => rw [ho] at g; cases g; exact h2 _ _ rfl
          | inside g hm _ => rw [ho] at g; cases g; rw [h1] at hm; cases hm
        rw [deepCopyH.eq_def]
        simp only
        cases ho : h[a]? with
        | none => exact absurd (hr a (by simp)) (Nat.not_lt.2 (List.getElem?_eq_none_iff.1 ho))
        | some o =>
          have hin : RefsIn h o.refs := hf.inside o (List.mem_of_getElem? ho)
          cases o with
          | arr xs =>
            obtain ⟨g1, g2⟩ := ih2 h xs hf hin
            simp only
            cases hc : deepCopysH ord f h xs with
            | ok p =>
              refine ⟨fun h => by simp at h, fun _ _ hn => ?_⟩
              cases hn with
              | here g _ => rw [ho] at g; cases g
              | inside g hm hn => rw [ho] at g; cases g; exact g2 p hc _ hm hn
            | panic =>
              refine ⟨fun _ => ?_, fun p h => by simp at h⟩
              obtain ⟨r, hm, hn⟩ := g1 hc
              exact .inside ho hm hn
            | fuel => simp
          | dict id kvs =>
            obtain ⟨g1, g2⟩ := ih3 h (ord kvs) [] hf (fun b hb => hin b (((hord kvs).map (·.2)).mem_iff.1 hb))
            simp only
            cases hne : nilEntry kvs with
            | true =>
              obtain ⟨k, hk⟩ := nilEntry_iff.1 hne
              exact ⟨fun _ => .here ho hk, fun p h => by simp at h⟩
            | false =>
              simp only [Bool.false_eq_true, if_false]
              cases hc : deepCopyfH ord f h (ord kvs) [] with
              | ok p =>
                refine ⟨fun h => by simp at h, fun _ _ hn => ?_⟩
                cases hn with
                | here g hk => rw [ho] at g; cases g; rw [nilEntry_iff.2 ⟨_, hk⟩] at hne; cases hne
                | inside g hm hn => rw [ho] at g; cases g; exact g2 p hc _ (((hord kvs).map (·.2)).mem_iff.2 hm) hn
              | panic =>
                refine ⟨fun _ => ?_, fun p h => by simp at h⟩
                obtain ⟨r, hm, hn⟩ := g1 hc
                exact .inside ho (((hord kvs).map (·.2)).mem_iff.1 hm) hn
              | fuel => simp
          | _ => exact ⟨fun h => by simp at h, fun _ _ => leaf _ ho rfl (by simp)⟩
    · cases rs with
      | nil => simp [deepCopysH]
      | cons r rs =>
        obtain ⟨g1, g2⟩ := ih1 h r hf (fun b hb => hr b (by simp at hb; simp [hb]))
        simp only [deepCopysH]
        cases hc : deepCopyH ord f h r with
        | panic => exact ⟨fun _ => ⟨r, by simp, g1 hc⟩, fun p h => by simp at h⟩
        | fuel => simp
        | ok p =>
          obtain ⟨y, h1⟩ := p
          obtain ⟨k1, k2, _, _⟩ := (copied_all hord f).1 h r y h1 hf (fun b hb => hr b (by simp at hb; simp [hb])) hc
          have hr' : RefsIn h rs := fun b hb => hr b (by simp [hb])
          obtain ⟨j1, j2⟩ := ih2 h1 rs k2 (hr'.mono k1)
          have one : ∀ z ∈ rs, RefsIn h [z] := fun z hz b hb => hr' b (by simp at hb; rw [hb]; exact hz)
          simp only
          cases hc2 : deepCopysH ord f h1 rs with
          | panic =>
            refine ⟨fun _ => ?_, fun p h => by simp at h⟩
            obtain ⟨z, hz, hn⟩ := j1 hc2
            exact ⟨z, by simp [hz], hn.anti k1 hf.inside (one z hz)⟩
          | fuel => simp
          | ok q =>
            refine ⟨fun h => by simp at h, fun _ _ z hz hn => ?_⟩
            rcases List.mem_cons.1 hz with rfl | hz
            · exact g2 _ hc hn
            · exact j2 q hc2 z hz (hn.mono k1)
    · cases kvs with
      | nil => simp [deepCopyfH]
      | cons e kvs =>
        obtain ⟨k, r⟩ := e
        obtain ⟨g1, g2⟩ := ih1 h r hf (fun b hb => hr b (by simp at hb; simp [hb]))
        simp only [deepCopyfH]
        cases hc : deepCopyH ord f h r with
        | panic => exact ⟨fun _ => ⟨r, by simp, g1 hc⟩, fun p h => by simp at h⟩
        | fuel => simp
        | ok p =>
          obtain ⟨y, h1⟩ := p
          obtain ⟨k1, k2, _, _⟩ := (copied_all hord f).1 h r y h1 hf (fun b hb => hr b (by simp at hb; simp [hb])) hc
          have hr' : RefsIn h (kvs.map (·.2)) := fun b hb => hr b (by rw [List.map_cons]; exact List.mem_cons_of_mem _ hb)
          obtain ⟨j1, j2⟩ := ih3 h1 kvs (smAdd m k y) k2 (hr'.mono k1)
          have one : ∀ z ∈ kvs.map (·.2), RefsIn h [z] := fun z hz b hb => hr' b (by simp only [List.mem_singleton] at hb; rw [hb]; exact hz)
          simp only
          refine ⟨fun he => ?_, fun q he z hz hn => ?_⟩
          · obtain ⟨z, hz, hn⟩ := j1 he
            exact ⟨z, by rw [List.map_cons]; exact List.mem_cons_of_mem _ hz, hn.anti k1 hf.inside (one z hz)⟩
          · rw [List.map_cons] at hz
            rcases List.mem_cons.1 hz with rfl | hz
            · exact g2 _ hc hn
            · exact j2 q he z hz (hn.mono k1)

/-- On a graph without cycles `DeepCopy` ends. -/
theorem copy_ends {ord : SMap Ref → SMap Ref} (hord : ∀ l, (ord l).Perm l) {h : Heap} {r : Ref} (hf : Knotless h r) :
    ∃ f0, ∀ f, f0 ≤ f → ∀ h', h <+: h' → HeapFine h' → RefsIn h' [r] → deepCopyH ord f h' r ≠ .fuel := by
  have elems : ∀ (f0 : Nat) (rs : List Ref),
      (∀ f, f0 ≤ f → ∀ r ∈ rs, ∀ h', h <+: h' → HeapFine h' → RefsIn h' [r] → deepCopyH ord f h' r ≠ .fuel) →
      ∀ f, f0 + rs.length ≤ f → ∀ h', h <+: h' → HeapFine h' → RefsIn h' rs → deepCopysH ord f h' rs ≠ .fuel := by
    intro f0 rs
    induction rs with
    | nil => intro _ f _ h' _ _ _; cases f <;> simp [deepCopysH]
    | cons r rs ih =>
      intro hx f hle h' hp hfi hr
      simp only [List.length_cons] at hle
      obtain ⟨f, rfl⟩ : ∃ g, f = g + 1 := ⟨f - 1, by omega⟩
      have hr1 : RefsIn h' [r] := fun b hb => hr b (by simp at hb; simp [hb])
      have h1 := hx f (by omega) r (by simp) h' hp hfi hr1
      simp only [deepCopysH]
      cases hc : deepCopyH ord f h' r with
      | fuel => exact absurd hc h1
      | panic => simp
      | ok p =>
        obtain ⟨y, h2⟩ := p
        obtain ⟨k1, k2, _, _⟩ := (copied_all hord f).1 h' r y h2 hfi hr1 hc
        have hr2 : RefsIn h' rs := fun b hb => hr b (by simp [hb])
        have := ih (fun f hf r hm => hx f hf r (by simp [hm])) f (by omega) h2 (hp.trans k1) k2 (hr2.mono k1)
        simp only
        cases hc2 : deepCopysH ord f h2 rs with
        | fuel => exact absurd hc2 this
        | panic => simp
        | ok q => simp
  have entries : ∀ (f0 : Nat) (kvs : SMap Ref),
      (∀ f, f0 ≤ f → ∀ r ∈ kvs.map (·.2), ∀ h', h <+: h' → HeapFine h' → RefsIn h' [r] → deepCopyH ord f h' r ≠ .fuel) →
      ∀ f, f0 + kvs.length ≤ f → ∀ h' m, h <+: h' → HeapFine h' → RefsIn h' (kvs.map (·.2)) → deepCopyfH ord f h' kvs m ≠ .fuel := by
    intro f0 kvs
    induction kvs with
    | nil => intro _ f _ h' m _ _ _; cases f <;> simp [deepCopyfH]
    | cons e kvs ih =>
      obtain ⟨k, r⟩ := e
      intro hx f hle h' m hp hfi hr
      simp only [List.length_cons] at hle
      obtain ⟨f, rfl⟩ : ∃ g, f = g + 1 := ⟨f - 1, by omega⟩
      have hr1 : RefsIn h' [r] := fun b hb => hr b (by simp at hb; simp [hb])
      have h1 := hx f (by omega) r (by simp) h' hp hfi hr1
      simp only [deepCopyfH]
      cases hc : deepCopyH ord f h' r with
      | fuel => exact absurd hc h1
      | panic => simp
      | ok p =>
        obtain ⟨y, h2⟩ := p
        obtain ⟨k1, k2, _, _⟩ := (copied_all hord f).1 h' r y h2 hfi hr1 hc
        have hr2 : RefsIn h' (kvs.map (·.2)) := fun b hb => hr b (by rw [List.map_cons]; exact List.mem_cons_of_mem _ hb)
        exact ih (fun f hf r hm => hx f hf r (by rw [List.map_cons]; exact List.mem_cons_of_mem _ hm)) f (by omega) h2 _ (hp.trans k1) k2 (hr2.mono k1)
  induction hf with
  | nil => exact ⟨0, fun f _ h' _ _ _ => by cases f <;> simp [deepCopyH]⟩
  | @node a o ho _ ih =>
    obtain ⟨f0, h0⟩ := common_bound (p := fun r f => ∀ h', h <+: h' → HeapFine h' → RefsIn h' [r] → deepCopyH ord f h' r ≠ .fuel) ih
    refine ⟨f0 + o.refs.length + 1, fun f hle h' hp hfi hr => ?_⟩
    obtain ⟨f, rfl⟩ : ∃ g, f = g + 1 := ⟨f - 1, by omega⟩
    have ho' := prefix_get hp ho
    have hin : RefsIn h' o.refs := hfi.inside o (List.mem_of_getElem? ho')
    rw [deepCopyH.eq_def]
    simp only [ho']
    cases o with
    | arr xs =>
      simp only [Obj.refs] at hle
      have := elems f0 xs (fun f hf r hm => h0 f hf r hm) f (by omega) h' hp hfi hin
      simp only
      cases hc : deepCopysH ord f h' xs with
      | fuel => exact absurd hc this
      | panic => simp
      | ok q => simp
    | dict id kvs =>
      simp only [Obj.refs, List.length_map] at hle
      have hperm := (hord kvs).map (·.2)
      have := entries f0 (ord kvs) (fun f hf r hm => h0 f hf r (hperm.mem_iff.1 hm)) f (by rw [(hord kvs).length_eq]; omega) h' [] hp hfi
        (fun b hb => hin b (hperm.mem_iff.1 hb))
      simp only
      cases nilEntry kvs with
      | true => simp
      | false =>
        simp only [Bool.false_eq_true, if_false]
        cases hc : deepCopyfH ord f h' (ord kvs) [] with
        | fuel => exact absurd hc this
        | panic => simp
        | ok q => simp
    | _ => simp

/-- Copies have no cycles. -/
theorem Copied.acyclic {h : Heap} {r y : Ref} (c : Copied h r y) : Knotless h y := by
  induction c with
  | nil => exact .nil
  | ref _ => exact .nil
  | @leaf a b o h1 h2 h3 =>
    refine .node h3 fun r hr => ?_
    exfalso
    cases o <;> first | exact h2.elim | simp [Obj.refs] at hr
  | @arr a b xs ys h1 h2 h3 _ ih =>
    refine .node h2 fun r hr => ?_
    obtain ⟨i, hi⟩ := List.getElem?_of_mem hr
    have hl : i < xs.length := by rw [h3]; exact (List.getElem?_eq_some_iff.1 hi).1
    exact ih i _ r (List.getElem?_eq_getElem hl) hi
  | @dict a b id xs ys h1 h2 h3 h4 _ ih =>
    refine .node h2 fun r hr => ?_
    simp only [Obj.refs, List.mem_map] at hr
    obtain ⟨⟨k, y⟩, hm, rfl⟩ := hr
    have hy := (smGet_mem_iff h3).2 hm
    have := h4 k
    rw [hy] at this
    obtain ⟨x, hx⟩ := Option.isSome_iff_exists.1 (by simpa using this)
    exact ih k x y hx hy

/-! ### `Equals` -/

theorem ats_length {h : Heap} {P : Addr → Prop} {xs : List J} {rs : List Ref} (hr : J.Ats h P xs rs) : rs.length = xs.length :=
  (Ats_forall₂.1 hr).length_eq.symm

theorem Atf_smGet {h : Heap} {P : Addr → Prop} {k : Bytes} : ∀ (xs : List (Bytes × J)) (rs : SMap Ref), J.Atf h P xs rs →
    match smGet xs k with
    | none => smGet rs k = none
    | some x => ∃ b, smGet rs k = some (some b) ∧ x.At h P b
  | [], rs, hr => by simp only [J.Atf] at hr; subst hr; simp [smGet]
  | (k', x) :: xs, rs, hr => by
    simp only [J.Atf] at hr
    obtain ⟨b, rs', rfl, h1, h2⟩ := hr
    simp only [smGet]
    by_cases hk : k' = k
    · simp only [hk, if_true]; exact ⟨b, rfl, h1⟩
    · simp only [hk, if_false]; exact Atf_smGet xs rs' h2

theorem Atf_isNone {h : Heap} {P : Addr → Prop} {xs : List (Bytes × J)} {rs : SMap Ref} (hr : J.Atf h P xs rs) (k : Bytes) :
    (smGet rs k).isNone = (smGet xs k).isNone := by
  have := Atf_smGet (k := k) xs rs hr
  cases hx : smGet xs k with
  | none => rw [hx] at this; rw [this]; rfl
  | some x => rw [hx] at this; obtain ⟨b, hb, _⟩ := this; rw [hb]; rfl

theorem filter_keys_length {α} (p : Bytes → Bool) (l : List (Bytes × α)) : (l.filter fun e => p e.1).length = ((l.map (·.1)).filter p).length := by
  rw [List.filter_map, List.length_map]; rfl

theorem split_lengths {h : Heap} {P : Addr → Prop} {xs ys : List (Bytes × J)} {rs ss : SMap Ref} (hr : J.Atf h P xs rs) (hs : J.Atf h P ys ss) :
    (smSplit rs ss).1.length = (smSplit xs ys).1.length ∧ (smSplit rs ss).2.2.2.length = (smSplit xs ys).2.2.2.length := by
  simp only [smSplit]
  constructor
  · rw [filter_keys_length (fun k => (smGet ss k).isNone), filter_keys_length (fun k => (smGet ys k).isNone), Atf_keys _ _ hr]
    simp only [Atf_isNone hs]
  · rw [filter_keys_length (fun k => (smGet rs k).isNone), filter_keys_length (fun k => (smGet xs k).isNone), Atf_keys _ _ hs]
    simp only [Atf_isNone hr]

theorem equals_val {h : Heap} (v : J) : ∃ f0, ∀ f, f0 ≤ f → ∀ (w : J) (a b : Addr), J.Seen h v a → J.Seen h w b →
    equalsH f h (some a) (some b) = .ok (v.equals w) := by
  have elems : ∀ (g : Ref → Ref → CRes Bool) (xs : List J), (∀ x ∈ xs, ∀ w a b, J.Seen h x a → J.Seen h w b → g (some a) (some b) = .ok (x.equals w)) →
      ∀ (ys : List J) (rs ss : List Ref), J.Ats h (fun _ => True) xs rs → J.Ats h (fun _ => True) ys ss → xs.length = ys.length →
      equalElemsH g rs ss = .ok (J.equalss xs ys) := by
    intro g xs
    induction xs with
    | nil => intro _ ys rs ss hr _ _; simp only [J.Ats] at hr; subst hr; simp [equalElemsH, J.equalss]
    | cons x xs ih =>
      intro hx ys rs ss hr hs hl
      cases ys with
      | nil => simp at hl
      | cons y ys =>
        simp only [J.Ats] at hr hs
        obtain ⟨a, rs', rfl, h1, h2⟩ := hr
        obtain ⟨b, ss', rfl, h3, h4⟩ := hs
        simp only [equalElemsH, hx x (by simp) y a b h1 h3, J.equalss]
        cases x.equals y with
        | true => simp only [Bool.true_and]; exact ih (fun z hz => hx z (by simp [hz])) ys rs' ss' h2 h4 (by simpa using hl)
        | false => rfl
  have entries : ∀ (g : Ref → Ref → CRes Bool) (ys : List (Bytes × J)) (ss : SMap Ref), J.Atf h (fun _ => True) ys ss → ∀ (xs : List (Bytes × J)),
      (∀ k x, (k, x) ∈ xs → ∀ w a b, J.Seen h x a → J.Seen h w b → g (some a) (some b) = .ok (x.equals w)) →
      ∀ (rs : SMap Ref), J.Atf h (fun _ => True) xs rs → equalEntriesH g ss rs = .ok (J.equalsf xs ys) := by
    intro g ys ss hs xs
    induction xs with
    | nil => intro _ rs hr; simp only [J.Atf] at hr; subst hr; simp [equalEntriesH, J.equalsf]
    | cons e xs ih =>
      obtain ⟨k, x⟩ := e
      intro hx rs hr
      simp only [J.Atf] at hr
      obtain ⟨a, rs', rfl, h1, h2⟩ := hr
      have e1 := ih (fun k z hz => hx k z (by simp [hz])) rs' h2
      have e2 := Atf_smGet (k := k) ys ss hs
      simp only [equalEntriesH, J.equalsf]
      cases hy : smGet ys k with
      | none => rw [hy] at e2; simp only [e2, e1, Bool.true_and]
      | some y =>
        rw [hy] at e2
        obtain ⟨b, hb, h3⟩ := e2
        simp only [hb, Option.isNone_some, Bool.or_self, Bool.false_eq_true, if_false, hx k x (by simp) y a b h1 h3]
        cases x.equals y with
        | true => simp only [Bool.true_and]; exact e1
        | false => rfl
  induction v using J.ind with
  | arr xs ih =>
    obtain ⟨f0, h0⟩ := common_bound (xs := xs) (p := fun x f => ∀ (w : J) (a b : Addr), J.Seen h x a → J.Seen h w b →
      equalsH f h (some a) (some b) = .ok (x.equals w)) (fun x hx => by obtain ⟨i, hi⟩ := List.getElem?_of_mem hx; exact ih i x hi)
    refine ⟨f0 + 1, fun f hf w a b ha hb => ?_⟩
    obtain ⟨f, rfl⟩ : ∃ g, f = g + 1 := ⟨f - 1, by omega⟩
    simp only [J.Seen, J.At] at ha
    obtain ⟨_, rs, h2, h3⟩ := ha
    cases w with
    | arr ys =>
      simp only [J.Seen, J.At] at hb
      obtain ⟨_, ss, h4, h5⟩ := hb
      simp only [equalsH, h2, h4, Option.bind_some, J.equals, ats_length h3, ats_length h5]
      by_cases hl : xs.length = ys.length
      · simp only [hl, ne_eq, not_true_eq_false, if_false, BEq.rfl, Bool.true_and]
        exact elems _ xs (fun x hx => h0 f (by omega) x hx) ys rs ss h3 h5 hl
      · simp [hl]
    | dict i ys => simp only [J.Seen, J.At] at hb; obtain ⟨_, ss, h4, h5⟩ := hb; simp [equalsH, h2, h4, J.equals]
    | _ => simp only [J.Seen, J.At] at hb; simp [equalsH, h2, hb.2, J.equals]
  | dict id xs ih =>
    obtain ⟨f0, h0⟩ := common_bound (xs := xs) (p := fun (x : Bytes × J) f => ∀ (w : J) (a b : Addr), J.Seen h x.2 a → J.Seen h w b →
      equalsH f h (some a) (some b) = .ok (x.2.equals w)) (fun x hx => ih x.1 x.2 hx)
    refine ⟨f0 + 1, fun f hf w a b ha hb => ?_⟩
    obtain ⟨f, rfl⟩ : ∃ g, f = g + 1 := ⟨f - 1, by omega⟩
    simp only [J.Seen, J.At] at ha
    obtain ⟨_, rs, h2, h3⟩ := ha
    cases w with
    | arr ys => simp only [J.Seen, J.At] at hb; obtain ⟨_, ss, h4, h5⟩ := hb; simp [equalsH, h2, h4, J.equals]
    | dict i ys =>
      simp only [J.Seen, J.At] at hb
      obtain ⟨_, ss, h4, h5⟩ := hb
      have l1 : rs.length = xs.length := (Atf_forall₂.1 h3).length_eq.symm
      have l2 : ss.length = ys.length := (Atf_forall₂.1 h5).length_eq.symm
      obtain ⟨l3, l4⟩ := split_lengths h3 h5
      simp only [equalsH, h2, h4, Option.bind_some, J.equals, l1, l2, l3, l4]
      by_cases hl : xs.length = ys.length
      · by_cases h6 : (smSplit xs ys).1.length = 0
        · by_cases h7 : (smSplit xs ys).2.2.2.length = 0
          · simp only [hl, h6, h7, ne_eq, not_true_eq_false, if_false, BEq.rfl, Bool.true_and, Nat.lt_irrefl, or_self]
            exact entries _ ys ss h5 xs (fun k x hx => h0 f (by omega) (k, x) hx) rs h3
          · simp [hl, h6, h7, Nat.pos_of_ne_zero]
        · simp [hl, h6, Nat.pos_of_ne_zero]
      · simp [hl]
    | _ => simp only [J.Seen, J.At] at hb; simp [equalsH, h2, hb.2, J.equals]
  | _ =>
    refine ⟨1, fun f hf w a b ha hb => ?_⟩
    obtain ⟨f, rfl⟩ : ∃ g, f = g + 1 := ⟨f - 1, by omega⟩
    simp only [J.Seen, J.At] at ha
    cases w with
    | arr ys => simp only [J.Seen, J.At] at hb; obtain ⟨_, ss, h4, h5⟩ := hb; simp [equalsH, ha.2, h4, J.equals]
    | dict i ys => simp only [J.Seen, J.At] at hb; obtain ⟨_, ss, h4, h5⟩ := hb; simp [equalsH, ha.2, h4, J.equals]
    | _ => simp only [J.Seen, J.At] at hb; simp [equalsH, ha.2, hb.2, J.equals]

/-- Why `Equals` panics. -/
theorem equals_panic {h : Heap} (hin : ∀ o ∈ h, RefsIn h o.refs) : ∀ f r s, RefsIn h [r] → equalsH f h r s = .panic → HasNil h r ∨ HasNilEntry h s := by
  intro f
  induction f with
  | zero => intro r s _ he; cases r <;> first | exact Or.inl .here | simp [equalsH] at he
  | succ f ih =>
    have one : ∀ (o : Obj), o ∈ h → ∀ x ∈ o.refs, RefsIn h [x] := fun o ho x hx b hb => hin o ho b (by simp only [List.mem_singleton] at hb; rw [hb]; exact hx)
    have elems : ∀ (xs ys : List Ref), (∀ x ∈ xs, RefsIn h [x]) → xs.length = ys.length → equalElemsH (equalsH f h) xs ys = .panic →
        (∃ x ∈ xs, HasNil h x) ∨ ∃ y ∈ ys, HasNilEntry h y := by
      intro xs
      induction xs with
      | nil => intro ys _ _ he; simp [equalElemsH] at he
      | cons x xs ihx =>
        intro ys hx hl he
        cases ys with
        | nil => simp at hl
        | cons y ys =>
          simp only [equalElemsH] at he
          split at he
          · rcases ihx ys (fun z hz => hx z (by simp [hz])) (by simpa using hl) he with ⟨z, hz, hn⟩ | ⟨z, hz, hn⟩
            · exact Or.inl ⟨z, by simp [hz], hn⟩
            · exact Or.inr ⟨z, by simp [hz], hn⟩
          · rcases ih x y (hx x (by simp)) he with hn | hn
            · exact Or.inl ⟨x, by simp, hn⟩
            · exact Or.inr ⟨y, by simp, hn⟩
    have entries : ∀ (m xs : SMap Ref), (∀ x ∈ xs.map (·.2), RefsIn h [x]) → equalEntriesH (equalsH f h) m xs = .panic →
        (∃ x ∈ xs.map (·.2), HasNil h x) ∨ ∃ k, ∃ y, smGet m k = some y ∧ (y = none ∨ HasNilEntry h y) := by
      intro m xs
      induction xs with
      | nil => intro _ he; simp [equalEntriesH] at he
      | cons e xs ihx =>
        obtain ⟨k, x⟩ := e
        intro hx he
        have hrest : ∀ z ∈ xs.map (·.2), RefsIn h [z] := fun z hz => hx z (by rw [List.map_cons]; exact List.mem_cons_of_mem _ hz)
        have up : (∃ x ∈ xs.map (·.2), HasNil h x) → ∃ z ∈ ((k, x) :: xs).map (·.2), HasNil h z :=
          fun ⟨z, hz, hn⟩ => ⟨z, by rw [List.map_cons]; exact List.mem_cons_of_mem _ hz, hn⟩
        simp only [equalEntriesH] at he
        cases hg : smGet m k with
        | none => rw [hg] at he; exact (ihx hrest he).imp up id
        | some y =>
          rw [hg] at he
          simp only at he
          cases x with
          | none => exact Or.inl ⟨none, by simp, .here⟩
          | some a =>
            cases y with
            | none => exact Or.inr ⟨k, none, hg, Or.inl rfl⟩
            | some b =>
              simp only [Option.isNone_some, Bool.or_self, Bool.false_eq_true, if_false] at he
              split at he
              · exact (ihx hrest he).imp up id
              · rcases ih (some a) (some b) (hx _ (by simp)) he with hn | hn
                · exact Or.inl ⟨some a, by simp, hn⟩
                · exact Or.inr ⟨k, some b, hg, Or.inr hn⟩
    intro r s hr he
    cases r with
    | none => exact Or.inl .here
    | some a =>
      rw [equalsH] at he
      cases ho : h[a]? with
      | none => exact absurd (hr a (by simp)) (Nat.not_lt.2 (List.getElem?_eq_none_iff.1 ho))
      | some o =>
        have hoh := List.mem_of_getElem? ho
        simp only [ho] at he
        cases s with
        | none => cases o <;> simp at he
        | some b =>
          simp only [Option.bind_some] at he
          cases ho2 : h[b]? with
          | none => rw [ho2] at he; cases o <;> simp at he
          | some o2 =>
            rw [ho2] at he
            cases o with
            | arr xs =>
              cases o2 with
              | arr ys =>
                simp only at he
                split at he
                · cases he
                · rename_i hl
                  rcases elems xs ys (one _ hoh) (by simpa using hl) he with ⟨z, hz, hn⟩ | ⟨z, hz, hn⟩
                  · exact Or.inl (.inside ho hz hn)
                  · exact Or.inr (.inside ho2 hz hn)
              | _ => simp at he
            | dict id xs =>
              cases o2 with
              | dict id2 ys =>
                simp only at he
                split at he
                · cases he
                · split at he
                  · cases he
                  · rcases entries ys xs (one _ hoh) he with ⟨z, hz, hn⟩ | ⟨k, y, hy, hn⟩
                    · exact Or.inl (.inside ho hz hn)
                    · have hm := smGet_mem hy
                      rcases hn with rfl | hn
                      · exact Or.inr (.here ho2 hm)
                      · exact Or.inr (.inside ho2 (by simp only [Obj.refs, List.mem_map]; exact ⟨_, hm, rfl⟩) hn)
              | _ => simp at he
            | _ => simp at he

/-- On a receiver without cycles `Equals` ends. -/
theorem equals_ends {h : Heap} {r : Ref} (hf : Knotless h r) : ∃ f0, ∀ f, f0 ≤ f → ∀ s, equalsH f h r s ≠ .fuel := by
  have elems : ∀ (f : Nat) (xs ys : List Ref), (∀ x ∈ xs, ∀ s, equalsH f h x s ≠ .fuel) → equalElemsH (equalsH f h) xs ys ≠ .fuel := by
    intro f xs
    induction xs with
    | nil => intro ys _; simp [equalElemsH]
    | cons x xs ih =>
      intro ys hx
      cases ys with
      | nil => simp [equalElemsH]
      | cons y ys =>
        simp only [equalElemsH]
        split
        · exact ih ys fun z hz => hx z (by simp [hz])
        · exact hx x (by simp) y
  have entries : ∀ (f : Nat) (m xs : SMap Ref), (∀ x ∈ xs.map (·.2), ∀ s, equalsH f h x s ≠ .fuel) → equalEntriesH (equalsH f h) m xs ≠ .fuel := by
    intro f m xs
    induction xs with
    | nil => intro _; simp [equalEntriesH]
    | cons e xs ih =>
      obtain ⟨k, x⟩ := e
      intro hx
      have hrest := ih fun z hz => hx z (by rw [List.map_cons]; exact List.mem_cons_of_mem _ hz)
      simp only [equalEntriesH]
      split
      · exact hrest
      · split
        · simp
        · split
          · exact hrest
          · exact hx x (by simp) _
  induction hf with
  | nil => exact ⟨0, fun f _ s => by cases f <;> simp [equalsH]⟩
  | @node a o ho _ ih =>
    obtain ⟨f0, h0⟩ := common_bound (p := fun r f => ∀ s, equalsH f h r s ≠ .fuel) ih
    refine ⟨f0 + 1, fun f hle s => ?_⟩
    obtain ⟨f, rfl⟩ : ∃ g, f = g + 1 := ⟨f - 1, by omega⟩
    rw [equalsH]
    simp only [ho]
    cases o with
    | arr xs =>
      simp only
      split
      · split
        · simp
        · exact elems f xs _ (fun x hx => h0 f (by omega) x hx)
      · simp
    | dict id xs =>
      simp only
      split
      · split
        · simp
        · split
          · simp
          · exact entries f _ xs (fun x hx => h0 f (by omega) x hx)
      · simp
    | _ => simp

/-! ### Readers -/

theorem acyclic_seen {h : Heap} {r : Ref} (hf : Knotless h r) : ¬ HasNil h r → ∃ a v, r = some a ∧ J.Seen h v a := by
  induction hf with
  | nil => intro hn; exact absurd .here hn
  | @node a o ho _ ih =>
    intro hn
    obtain ⟨v, hv⟩ := seen_of_refs ho fun r hr => by
      obtain ⟨b, v, h1, h2⟩ := ih r hr fun hn' => hn (.inside ho hr hn')
      exact ⟨b, v, h1, h2⟩
    exact ⟨a, v, rfl, hv⟩

theorem reads_of {α} {h : Heap} (hok : h.Ok) {a : Addr} (ha : a < h.length) {call : Nat → CRes α} {F : J → α}
    (hs : ∀ f, (call f).shape = visitH f h (some a)) (hv : ∀ v f out, J.Seen h v a → call f = .ok out → out = F v) : Reads call F h a := by
  have hr : RefsIn h [some a] := fun b hb => by simp at hb; subst hb; exact ha
  have hdoc : ∀ f out, call f = .ok out → ∃ v, J.Seen h v a ∧ out = F v := by
    intro f out he
    have h1 := hs f
    rw [he] at h1
    obtain ⟨b, v, hb, hseen⟩ := visit_ok (f := f) (h := h) (r := some a) h1.symm
    cases hb
    exact ⟨v, hseen, hv v f out hseen he⟩
  have hpan : ∀ f, call f = .panic → HasNil h (some a) := by
    intro f he
    have h1 := hs f
    rw [he] at h1
    exact visit_panic hr hok.inside h1.symm
  have hend : Knotless h (some a) → ∃ f0, ∀ f, f0 ≤ f → call f ≠ .fuel := by
    intro hc
    obtain ⟨f0, h0⟩ := visit_finite hc
    refine ⟨f0, fun f hf he => h0 f hf ?_⟩
    rw [← hs f, he]; rfl
  refine ⟨fun v hseen => ?_, hdoc, fun hc hn => ?_, fun hc hn f => ?_⟩
  · obtain ⟨f0, h0⟩ := hend (seen_finite v a hseen)
    refine ⟨f0, fun f hf => ?_⟩
    cases he : call f with
    | ok out => rw [hv v f out hseen he]
    | panic => exact absurd (hpan f he) (seen_noNil v a hseen)
    | fuel => exact absurd he (h0 f hf)
  · obtain ⟨f0, h0⟩ := hend hc
    refine ⟨f0, fun f hf => ?_⟩
    cases he : call f with
    | ok out => obtain ⟨v, hseen, _⟩ := hdoc f out he; exact absurd hn (seen_noNil v a hseen)
    | panic => rfl
    | fuel => exact absurd he (h0 f hf)
  · cases he : call f with
    | ok out => obtain ⟨v, hseen, _⟩ := hdoc f out he; exact absurd (seen_finite v a hseen) hc
    | panic => exact absurd (hpan f he) hn
    | fuel => rfl

/-! ### Accessors on documents -/

theorem getLoop_seen {h : Heap} : ∀ (keys : List Bytes) (kvs : SMap J) (rs : SMap Ref), keys ≠ [] → J.Atf h (fun _ => True) kvs rs →
    match getLoop smGet kvs keys with
    | .ok w => ∃ b, getLoopH h rs keys = .ok (some b) ∧ J.Seen h w b
    | .err e => getLoopH h rs keys = .err e
    | .diverge => False
  | [], _, _, hn, _ => absurd rfl hn
  | [k], kvs, rs, _, hr => by
    have hg := Atf_smGet (k := k) kvs rs hr
    simp only [getLoop, getLoopH]
    cases hx : smGet kvs k with
    | none => rw [hx] at hg; simp only [hg]
    | some x => rw [hx] at hg; obtain ⟨b, hb, hxb⟩ := hg; simp only [hb]; exact ⟨b, rfl, hxb⟩
  | k :: k2 :: ks, kvs, rs, _, hr => by
    have hg := Atf_smGet (k := k) kvs rs hr
    rw [getLoop, getLoopH]
    cases hx : smGet kvs k with
    | none => rw [hx] at hg; simp only [hg]
    | some x =>
      rw [hx] at hg
      obtain ⟨b, hb, hxb⟩ := hg
      simp only [hb]
      cases x with
      | dict id kvs' =>
        simp only [J.At] at hxb
        obtain ⟨_, rs', h1, h2⟩ := hxb
        simp only [h1]
        exact getLoop_seen (k2 :: ks) kvs' rs' (by simp) h2
      | arr xs => simp only [J.At] at hxb; obtain ⟨_, rs', h1, h2⟩ := hxb; simp only [h1]
      | _ => simp only [J.At] at hxb; simp only [hxb.2]

theorem get_seen {h : Heap} {v : J} {a : Addr} (hv : J.Seen h v a) (keys : List Bytes) :
    match v.get keys with
    | .ok w => ∃ b, getH h (some a) keys = .ok (some b) ∧ J.Seen h w b
    | .err e => getH h (some a) keys = .err e
    | .diverge => False := by
  cases v with
  | dict id kvs =>
    have hv' := hv
    simp only [J.Seen, J.At] at hv
    obtain ⟨_, rs, h1, h2⟩ := hv
    simp only [J.get, dictGet, getH, h1]
    cases keys with
    | nil => exact ⟨a, rfl, hv'⟩
    | cons k ks => exact getLoop_seen (k :: ks) kvs rs (by simp) h2
  | arr xs => simp only [J.Seen, J.At] at hv; obtain ⟨_, rs', h1, h2⟩ := hv; simp only [J.get, getH, h1]
  | _ => simp only [J.Seen, J.At] at hv; simp only [J.get, getH, hv.2]

theorem Ats_get {h : Heap} {P : Addr → Prop} : ∀ {xs : List J} {rs : List Ref}, J.Ats h P xs rs → ∀ (i : Nat),
    match xs[i]? with
    | none => rs[i]? = none
    | some x => ∃ b, rs[i]? = some (some b) ∧ x.At h P b
  | [], rs, hr, i => by simp only [J.Ats] at hr; subst hr; simp
  | x :: xs, rs, hr, i => by
    simp only [J.Ats] at hr
    obtain ⟨b, rs', rfl, h1, h2⟩ := hr
    cases i with
    | zero => simp only [List.getElem?_cons_zero]; exact ⟨b, rfl, h1⟩
    | succ i => simp only [List.getElem?_cons_succ]; exact Ats_get h2 i

theorem arrGetAt_seen {h : Heap} {xs : List J} {rs : List Ref} (hr : J.Ats h (fun _ => True) xs rs) (i : Int) :
    match arrGetAt xs i with
    | .ok w => ∃ b, arrGetAtH rs i = .ok (some b) ∧ J.Seen h w b
    | .err e => arrGetAtH rs i = .err e
    | .diverge => False := by
  simp only [arrGetAt, arrGetAtH, ats_length hr]
  by_cases hi : 0 ≤ (if i < 0 then (xs.length : Int) + i else i) ∧ (if i < 0 then (xs.length : Int) + i else i) < xs.length
  · simp only [if_pos hi]
    have hg := Ats_get hr (if i < 0 then (xs.length : Int) + i else i).toNat
    cases hx : xs[(if i < 0 then (xs.length : Int) + i else i).toNat]? with
    | none => rw [List.getElem?_eq_none_iff] at hx; omega
    | some x => rw [hx] at hg; obtain ⟨b, hb, hxb⟩ := hg; simp only [hb]; exact ⟨b, rfl, hxb⟩
  · simp only [if_neg hi]

theorem getAt_seen {h : Heap} {v : J} {a : Addr} (hv : J.Seen h v a) (i : Int) (keys : List Bytes) :
    match v.getAt i keys with
    | .ok w => ∃ b, getAtH h (some a) i keys = .ok (some b) ∧ J.Seen h w b
    | .err e => getAtH h (some a) i keys = .err e
    | .diverge => False := by
  have hg := get_seen hv keys
  cases v with
  | dict id kvs =>
    simp only [J.Seen, J.At] at hv
    obtain ⟨_, rs, h1, h2⟩ := hv
    simp only [J.get] at hg
    simp only [J.getAt, getAtH, h1]
    cases hd : dictGet smGet id kvs keys with
    | ok w =>
      rw [hd] at hg
      obtain ⟨b, hb, hw⟩ := hg
      simp only [hb]
      cases w with
      | arr xs => simp only [J.Seen, J.At] at hw; obtain ⟨_, rs', h3, h4⟩ := hw; simp only [h3]; exact arrGetAt_seen h4 i
      | dict j m => simp only [J.Seen, J.At] at hw; obtain ⟨_, rs', h3, h4⟩ := hw; simp only [h3]
      | _ => simp only [J.Seen, J.At] at hw; simp only [hw.2]
    | err e => rw [hd] at hg; simp only [hg]
    | diverge => rw [hd] at hg; exact hg.elim
  | arr xs =>
    simp only [J.Seen, J.At] at hv; obtain ⟨_, rs', h1, h2⟩ := hv
    simp only [J.getAt, getAtH, h1]
    cases keys with
    | nil => exact arrGetAt_seen h2 i
    | cons k ks => rfl
  | _ => simp only [J.Seen, J.At] at hv; simp only [J.getAt, getAtH, hv.2]

theorem getMap_seen {h : Heap} {v : J} {a : Addr} (hv : J.Seen h v a) (keys : List Bytes) :
    match v.getMap keys with
    | .ok m => ∃ rs, getMapH h (some a) keys = .ok rs ∧ J.Atf h (fun _ => True) m rs
    | .err e => getMapH h (some a) keys = .err e
    | .diverge => False := by
  have hg := get_seen hv keys
  cases v with
  | dict id kvs =>
    simp only [J.get] at hg
    simp only [J.getMap, getMapH]
    cases hd : dictGet smGet id kvs keys with
    | ok w =>
      rw [hd] at hg
      obtain ⟨b, hb, hw⟩ := hg
      simp only [hb]
      cases w with
      | arr xs => simp only [J.Seen, J.At] at hw; obtain ⟨_, rs', h3, h4⟩ := hw; simp only [h3]
      | dict j m =>
        simp only [J.Seen, J.At] at hw; obtain ⟨_, rs', h3, h4⟩ := hw
        have hne : nilEntry rs' = false := by
          simp only [nilEntry, List.any_eq_false]
          intro e he
          obtain ⟨b, hb⟩ := Atf_some h4 he
          simp [hb]
        simp only [h3, hne, Bool.false_eq_true, if_false]
        exact ⟨rs', rfl, h4⟩
      | _ => simp only [J.Seen, J.At] at hw; simp only [hw.2]
    | err e => rw [hd] at hg; simp only [hg]
    | diverge => rw [hd] at hg; exact hg.elim
  | arr xs => simp only [J.get] at hg; simp only [J.getMap, getMapH, hg]
  | _ => simp only [J.get] at hg; simp only [J.getMap, getMapH, hg]

end Jsonutils
