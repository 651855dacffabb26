import Verif.Proofs.MarshalEnds

/-! # References in marshalled pointer graphs -/

namespace Jsonutils

variable {ord : SMap Bytes → List (Bytes × Bytes)} {oe : Bool}

mutual
/-- The references in an unfinished document. -/
def MJ.refs : MJ → List Nat
  | .json _ => []
  | .ref id => [id]
  | .arr xs => MJ.refss xs
  | .dict _ kvs => MJ.refsf kvs
def MJ.refss : List MJ → List Nat
  | [] => []
  | x :: xs => x.refs ++ MJ.refss xs
def MJ.refsf : List (Bytes × MJ) → List Nat
  | [] => []
  | (_, x) :: xs => x.refs ++ MJ.refsf xs
end

mutual
/-- The marks of all dictionaries. -/
def MJ.marks : MJ → List Nat
  | .json _ => []
  | .ref _ => []
  | .arr xs => MJ.markss xs
  | .dict ms kvs => MJ.marksf kvs ++ ms
def MJ.markss : List MJ → List Nat
  | [] => []
  | x :: xs => x.marks ++ MJ.markss xs
def MJ.marksf : List (Bytes × MJ) → List Nat
  | [] => []
  | (_, x) :: xs => x.marks ++ MJ.marksf xs
end

mutual
/-- No dictionary has two marks, and the user's documents bring no ids. -/
def MJ.Single : MJ → Prop
  | .json j => j.nodeIds = [] ∧ j.ptrIds = []
  | .ref _ => True
  | .arr xs => MJ.Singles xs
  | .dict ms kvs => ms.length ≤ 1 ∧ MJ.Singlef kvs
def MJ.Singles : List MJ → Prop
  | [] => True
  | x :: xs => x.Single ∧ MJ.Singles xs
def MJ.Singlef : List (Bytes × MJ) → Prop
  | [] => True
  | (_, x) :: xs => x.Single ∧ MJ.Singlef xs
end

theorem refsf_flat (kvs : List (Bytes × MJ)) : MJ.refsf kvs = kvs.flatMap fun p => p.2.refs := by
  induction kvs with
  | nil => rfl
  | cons p kvs ih => simp only [MJ.refsf, List.flatMap_cons, ih]

theorem marksf_flat (kvs : List (Bytes × MJ)) : MJ.marksf kvs = kvs.flatMap fun p => p.2.marks := by
  induction kvs with
  | nil => rfl
  | cons p kvs ih => simp only [MJ.marksf, List.flatMap_cons, ih]

theorem singlef_all (kvs : List (Bytes × MJ)) : MJ.Singlef kvs ↔ ∀ p ∈ kvs, p.2.Single := by
  induction kvs with
  | nil => simp [MJ.Singlef]
  | cons p kvs ih => simp only [MJ.Singlef, List.forall_mem_cons, ih]

theorem smAdd_perm {α : Type} {m : SMap α} {k : Bytes} (hk : k ∉ m.map (·.1)) (v : α) : (smAdd m k v).Perm ((k, v) :: m) := by
  induction m with
  | nil => exact List.Perm.refl _
  | cons e m ih =>
    obtain ⟨k', v'⟩ := e
    simp only [List.map_cons, List.mem_cons, not_or] at hk
    simp only [smAdd]
    split
    · exact ((ih hk.2).cons _).trans (List.Perm.swap _ _ _)
    · split
      · rename_i h; exact absurd h (by simpa [eq_comm] using hk.1)
      · exact List.Perm.refl _

theorem pairsDict_perm {α : Type} (ps : List (Bytes × α)) (hn : (ps.map (·.1)).Nodup) : (pairsDict ps).Perm ps := by
  unfold pairsDict
  suffices H : ∀ (ps : List (Bytes × α)) (m : SMap α), ((ps ++ m).map (·.1)).Nodup → (ps.foldl (fun m p => smAdd m p.1 p.2) m).Perm (ps ++ m) by
    have := H ps [] (by simpa using hn)
    simpa using this
  intro ps
  induction ps with
  | nil => intro m _; exact List.Perm.refl _
  | cons p ps ih =>
    intro m hn
    obtain ⟨k, v⟩ := p
    rw [List.foldl_cons]
    simp only [List.cons_append, List.map_cons, List.nodup_cons, List.map_append, List.mem_append, not_or] at hn
    have hp := smAdd_perm hn.1.2 v
    refine (ih (smAdd m k v) ?_).trans ?_
    · rw [List.map_append, List.Perm.nodup_iff ((List.Perm.refl _).append (hp.map _))]
      rw [List.map_cons, List.perm_middle.nodup_iff, List.nodup_cons]
      simpa [List.mem_append] using hn
    · exact ((List.Perm.refl ps).append hp).trans List.perm_middle

/-! ### The invariant -/

/-- Same entries, perhaps with higher reference counts. -/
inductive Bumped : List TEntry → List TEntry → Prop
  | nil : Bumped [] []
  | cons {e e' t t'} : e'.id = e.id → e.refcnt ≤ e'.refcnt → Bumped t t' → Bumped (e :: t) (e' :: t')

theorem Bumped.refl : ∀ t, Bumped t t
  | [] => .nil
  | _ :: t => .cons rfl (Nat.le_refl _) (Bumped.refl t)

theorem Bumped.trans {a b c : List TEntry} (h1 : Bumped a b) (h2 : Bumped b c) : Bumped a c := by
  induction h1 generalizing c with
  | nil => exact h2
  | cons x y _ ih => cases h2 with | cons x' y' h => exact .cons (x'.trans x) (Nat.le_trans y y') (ih h)

theorem Bumped.append {a b a' b' : List TEntry} (h1 : Bumped a b) (h2 : Bumped a' b') : Bumped (a ++ a') (b ++ b') := by
  induction h1 with
  | nil => exact h2
  | cons x y _ ih => exact .cons x y ih

theorem Bumped.split : ∀ {a a' b : List TEntry}, Bumped (a ++ a') b → ∃ b1 b2, b = b1 ++ b2 ∧ Bumped a b1 ∧ Bumped a' b2
  | [], _, b, h => ⟨[], b, rfl, .nil, h⟩
  | e :: a, a', b, h => by
    cases h with
    | cons x y h =>
      obtain ⟨b1, b2, rfl, h1, h2⟩ := Bumped.split h
      exact ⟨_ :: b1, b2, rfl, .cons x y h1, h2⟩

theorem Bumped.mem {a b : List TEntry} (h : Bumped a b) : (∀ e ∈ a, ∃ e' ∈ b, e'.id = e.id ∧ e.refcnt ≤ e'.refcnt) ∧
    (∀ e' ∈ b, ∃ e ∈ a, e'.id = e.id ∧ e.refcnt ≤ e'.refcnt) := by
  induction h with
  | nil => simp
  | cons x y _ ih =>
    refine ⟨fun e he => ?_, fun e he => ?_⟩
    · rcases List.mem_cons.1 he with rfl | he
      · exact ⟨_, List.mem_cons_self .., x, y⟩
      · obtain ⟨e', h1, h2⟩ := ih.1 e he; exact ⟨e', List.mem_cons_of_mem _ h1, h2⟩
    · rcases List.mem_cons.1 he with rfl | he
      · exact ⟨_, List.mem_cons_self .., x, y⟩
      · obtain ⟨e', h1, h2⟩ := ih.2 e he; exact ⟨e', List.mem_cons_of_mem _ h1, h2⟩

theorem Bumped.last {a b : List TEntry} (h : Bumped a b) : ∀ e', b.getLast? = some e' → ∃ e, a.getLast? = some e ∧ e.refcnt ≤ e'.refcnt := by
  induction h with
  | nil => intro e' h; cases h
  | @cons e e1 t t' x y hb ih =>
    intro e' h
    cases hb with
    | nil => simp only [List.getLast?_singleton, Option.some.injEq] at h ⊢; subst h; exact ⟨_, rfl, y⟩
    | cons x' y' hb' =>
      rw [List.getLast?_cons_cons] at h ⊢
      exact ih _ h

/-- Every entry has been pushed: refcnt ≥ 1. -/
def MSess.Good (s : MSess) : Prop := ∀ e ∈ s.trace, 1 ≤ e.refcnt

/-- The trace is in the order of ids, and no address is on it twice. -/
structure MSess.Ord (s : MSess) : Prop where
  ids : (s.trace.map (·.id)).Pairwise (· < ·)
  le : ∀ id ∈ s.trace.map (·.id), id ≤ s.nodeIndex
  infs : (s.trace.map (·.inf)).Nodup

/-- A count above 1 is caused by a reference to the entry or to an earlier one. -/
def MExt (s s' : MSess) (refs : List Nat) : Prop := s.Ord → s'.Ord ∧
  ∀ e' ∈ s'.trace, 2 ≤ e'.refcnt → (∃ e ∈ s.trace, e.id = e'.id ∧ 2 ≤ e.refcnt) ∨ ∃ i ∈ refs, i ≤ e'.id

structure MInv (s s' : MSess) (rs marks : List Nat) : Prop where
  idx : s.nodeIndex ≤ s'.nodeIndex
  tr : ∃ old new, s'.trace = old ++ new ∧ Bumped s.trace old ∧ (∀ e ∈ new, 1 ≤ e.refcnt ∧ e.id ∈ marks) ∧ (∀ e, new.getLast? = some e → 2 ≤ e.refcnt)
  refs : ∀ id ∈ rs, ∃ e ∈ s'.trace, e.id = id ∧ 2 ≤ e.refcnt
  nodup : marks.Nodup
  range : ∀ id ∈ marks, s.nodeIndex < id ∧ id ≤ s'.nodeIndex
  ext : MExt s s' rs

theorem MInv.good {s s' : MSess} {r m : List Nat} (h : MInv s s' r m) (hg : s.Good) : s'.Good := by
  obtain ⟨old, new, h1, h2, h3, _⟩ := h.tr
  intro e he
  rw [h1, List.mem_append] at he
  rcases he with he | he
  · obtain ⟨e', a, _, b⟩ := h2.mem.2 e he
    exact Nat.le_trans (hg e' a) b
  · exact (h3 e he).1

theorem MInv.same {s : MSess} (k : Nat) (hk : s.nodeIndex ≤ k) : MInv s ⟨k, s.trace⟩ [] [] :=
  ⟨hk, ⟨s.trace, [], by simp, Bumped.refl _, by simp, by simp⟩, by simp, by simp, by simp,
    fun ho => ⟨⟨ho.ids, fun id hid => Nat.le_trans (ho.le id hid) hk, ho.infs⟩, fun e he h2 => .inl ⟨e, he, rfl, h2⟩⟩⟩

theorem MInv.trans {a b c : MSess} {r1 m1 r2 m2 : List Nat} (h1 : MInv a b r1 m1) (h2 : MInv b c r2 m2) : MInv a c (r1 ++ r2) (m1 ++ m2) := by
  obtain ⟨i1, ⟨o1, n1, e1, b1, x1, l1⟩, f1, d1, g1, t1⟩ := h1
  obtain ⟨i2, ⟨o2, n2, e2, b2, x2, l2⟩, f2, d2, g2, t2⟩ := h2
  rw [e1] at b2
  obtain ⟨q1, q2, rfl, c1, c2⟩ := b2.split
  refine ⟨Nat.le_trans i1 i2, ⟨q1, q2 ++ n2, by rw [e2, List.append_assoc], b1.trans c1, ?_, ?_⟩, ?_, ?_, ?_, ?_⟩
  · intro e he
    rcases List.mem_append.1 he with he | he
    · obtain ⟨e', p1, p2, p3⟩ := c2.mem.2 e he
      have := x1 e' p1
      exact ⟨Nat.le_trans this.1 p3, by rw [p2]; exact List.mem_append_left _ this.2⟩
    · have := x2 e he
      exact ⟨this.1, List.mem_append_right _ this.2⟩
  · intro e he
    cases n2 with
    | nil =>
      rw [List.append_nil] at he
      obtain ⟨e', p1, p2⟩ := c2.last e he
      exact Nat.le_trans (l1 e' p1) p2
    | cons z zs =>
      rw [List.getLast?_append] at he
      have hz : (z :: zs).getLast? ≠ none := by simp
      cases hl : (z :: zs).getLast? with
      | none => exact absurd hl hz
      | some w => rw [hl] at he; simp only [Option.some_or, Option.some.injEq] at he; subst he; exact l2 w hl
  · intro id hid
    rcases List.mem_append.1 hid with hid | hid
    · obtain ⟨e, p1, p2, p3⟩ := f1 id hid
      rw [e1] at p1
      have bb : Bumped (o1 ++ n1) (q1 ++ q2) := c1.append c2
      obtain ⟨e', q1', q2', q3'⟩ := bb.mem.1 e p1
      refine ⟨e', ?_, q2'.trans p2, Nat.le_trans p3 q3'⟩
      rw [e2]; exact List.mem_append_left _ q1'
    · exact f2 id hid
  · rw [List.nodup_append]
    refine ⟨d1, d2, ?_⟩
    intro x hx y hy hxy
    subst hxy
    have := g1 x hx; have := g2 x hy; omega
  · intro id hid
    rcases List.mem_append.1 hid with hid | hid
    · have := g1 id hid; omega
    · have := g2 id hid; omega
  · intro ho
    obtain ⟨ho1, k1⟩ := t1 ho
    obtain ⟨ho2, k2⟩ := t2 ho1
    refine ⟨ho2, fun e he h2 => ?_⟩
    rcases k2 e he h2 with ⟨e', p1, p2, p3⟩ | ⟨i, p1, p2⟩
    · rcases k1 e' p1 p3 with ⟨e'', q1, q2, q3⟩ | ⟨i, q1, q2⟩
      · exact .inl ⟨e'', q1, q2.trans p2, q3⟩
      · exact .inr ⟨i, List.mem_append_left _ q1, by omega⟩
    · exact .inr ⟨i, List.mem_append_right _ p1, p2⟩

theorem MInv.perm {a b : MSess} {r m r' m' : List Nat} (h : MInv a b r m) (hr : r.Perm r') (hm : m.Perm m') : MInv a b r' m' := by
  obtain ⟨i1, ⟨o1, n1, e1, b1, x1, l1⟩, f1, d1, g1, t1⟩ := h
  refine ⟨i1, ⟨o1, n1, e1, b1, fun e he => ⟨(x1 e he).1, hm.subset (x1 e he).2⟩, l1⟩, fun id hid => f1 id (hr.symm.subset hid), (hm.nodup_iff).1 d1,
    fun id hid => g1 id (hm.symm.subset hid), fun ho => ⟨(t1 ho).1, fun e he h2 => ?_⟩⟩
  rcases (t1 ho).2 e he h2 with h | ⟨i, p1, p2⟩
  · exact .inl h
  · exact .inr ⟨i, hr.subset p1, p2⟩

theorem traceFind_bump (a : Nat) : ∀ (ret : Option Nat) (tr : List TEntry), Bumped tr (traceFind a ret tr).2
  | _, [] => .nil
  | ret, e :: tr => by
    simp only [traceFind]
    refine .cons ?_ ?_ (traceFind_bump a _ tr)
    · split <;> split <;> rfl
    · split <;> split <;> simp

/-- What is found is counted. -/
theorem traceFind_found (a : Nat) : ∀ (ret : Option Nat) (tr : List TEntry) (id : Nat), (∀ e ∈ tr, 1 ≤ e.refcnt) → (traceFind a ret tr).1 = some id →
    ret = some id ∨ ∃ e ∈ (traceFind a ret tr).2, e.id = id ∧ 2 ≤ e.refcnt
  | ret, [], id, _, h => by simp only [traceFind] at h; exact .inl h
  | ret, e :: tr, id, hg, h => by
    simp only [traceFind] at h ⊢
    rcases traceFind_found a _ tr id (fun e' he => hg e' (by simp [he])) h with h1 | ⟨e', h1, h2⟩
    · split at h1
      · rename_i he
        right
        refine ⟨_, List.mem_cons_self .., ?_⟩
        simp only [if_pos he, Option.isSome_some, if_true]
        cases h1
        exact ⟨rfl, by have := hg e (by simp); omega⟩
      · exact .inl h1
    · exact .inr ⟨e', List.mem_cons_of_mem _ h1, h2⟩

theorem traceFind_ids (a : Nat) : ∀ (ret : Option Nat) (tr : List TEntry),
    (traceFind a ret tr).2.map (·.id) = tr.map (·.id) ∧ (traceFind a ret tr).2.map (·.inf) = tr.map (·.inf)
  | _, [] => ⟨rfl, rfl⟩
  | ret, e :: tr => by
    simp only [traceFind, List.map_cons, traceFind_ids a _ tr]
    constructor <;> (congr 1; split <;> split <;> rfl)

/-- Behind what is found, everything is counted; what is found has the least id. -/
theorem traceFind_later (a i : Nat) : ∀ (tr : List TEntry), (tr.map (·.id)).Pairwise (· < ·) → (∀ id ∈ tr.map (·.id), i < id) → a ∉ tr.map (·.inf) →
    (traceFind a (some i) tr).1 = some i ∧ ∀ e' ∈ (traceFind a (some i) tr).2, i ≤ e'.id
  | [], _, _, _ => ⟨rfl, by simp [traceFind]⟩
  | e :: tr, hp, hi, ha => by
    simp only [List.map_cons, List.mem_cons, not_or, List.pairwise_cons] at hp hi ha
    have ih := traceFind_later a i tr hp.2 (fun id hid => hi id (.inr hid)) ha.2
    have hne : ¬ e.inf = a := fun h => ha.1 h.symm
    simp only [traceFind, if_neg hne, Option.isSome_some, if_true]
    refine ⟨ih.1, fun e' he => ?_⟩
    rcases List.mem_cons.1 he with rfl | he
    · exact Nat.le_of_lt (hi e.id (.inl rfl))
    · exact ih.2 e' he

theorem traceFind_cause (a : Nat) : ∀ (tr : List TEntry) (id : Nat), (tr.map (·.id)).Pairwise (· < ·) → (tr.map (·.inf)).Nodup → (traceFind a none tr).1 = some id →
    ∀ e' ∈ (traceFind a none tr).2, e' ∈ tr ∨ id ≤ e'.id
  | [], id, _, _, h => by simp [traceFind]
  | e :: tr, id, hp, hn, h => by
    simp only [List.map_cons, List.pairwise_cons, List.nodup_cons] at hp hn
    simp only [traceFind] at h ⊢
    by_cases he : e.inf = a
    · simp only [if_pos he, Option.isSome_some, if_true] at h ⊢
      have hl := traceFind_later a e.id tr hp.2 hp.1 (by rw [← he]; exact hn.1)
      rw [hl.1] at h
      cases h
      intro e' he'
      rcases List.mem_cons.1 he' with rfl | he'
      · exact .inr (Nat.le_refl _)
      · exact .inr (hl.2 e' he')
    · simp only [if_neg he, Option.isSome_none, Bool.false_eq_true, if_false] at h ⊢
      intro e' he'
      rcases List.mem_cons.1 he' with rfl | he'
      · exact .inl (List.mem_cons_self ..)
      · rcases traceFind_cause a tr id hp.2 hn.2 h e' he' with h' | h'
        · exact .inl (List.mem_cons_of_mem _ h')
        · exact .inr h'

theorem tracePop_sub (t : List TEntry) : (tracePop t).Sublist t := by
  unfold tracePop
  split
  · split
    · exact List.dropLast_sublist _
    · exact List.Sublist.refl _
  · exact List.Sublist.refl _

/-- A pointer that is not on the trace: push, body, pop. -/
theorem MExt.push {s s2 : MSess} {a : Nat} {refs : List Nat} (hm : a ∉ s.trace.map (·.inf)) (h : MExt ⟨s.nodeIndex + 1, s.trace ++ [⟨s.nodeIndex + 1, a, 1⟩]⟩ s2 refs) :
    MExt s ⟨s2.nodeIndex, tracePop s2.trace⟩ refs := by
  intro ho
  have hsub := tracePop_sub s2.trace
  obtain ⟨h1, h2⟩ := h ⟨by
    simp only [List.map_append, List.map_cons, List.map_nil, List.pairwise_append]
    exact ⟨ho.ids, by simp, fun x hx y hy => by have := ho.le x hx; simp only [List.mem_singleton] at hy; omega⟩, by
    intro id hid
    simp only [List.map_append, List.map_cons, List.map_nil, List.mem_append, List.mem_singleton] at hid
    rcases hid with hid | rfl
    · exact Nat.le_succ_of_le (ho.le id hid)
    · exact Nat.le_refl _, by
    simp only [List.map_append, List.map_cons, List.map_nil, List.nodup_append]
    refine ⟨ho.infs, by simp, fun x hx y hy hxy => ?_⟩
    simp only [List.mem_singleton] at hy
    exact hm (by rw [← hy, ← hxy]; exact hx)⟩
  refine ⟨⟨h1.ids.sublist (hsub.map _), fun id hid => h1.le id ((hsub.map _).subset hid), h1.infs.sublist (hsub.map _)⟩, fun e' he hc => ?_⟩
  rcases h2 e' (hsub.subset he) hc with ⟨e, p1, p2, p3⟩ | h
  · simp only [List.mem_append, List.mem_singleton] at p1
    rcases p1 with p1 | rfl
    · exact .inl ⟨e, p1, p2, p3⟩
    · simp at p3
  · exact .inr h

/-- Result of one step. -/
def refsO : Option MJ → List Nat
  | none => []
  | some m => m.refs
def marksO : Option MJ → List Nat
  | none => []
  | some m => m.marks
def SingleO : Option MJ → Prop
  | none => True
  | some m => m.Single

structure MRes (s s' : MSess) (o : Option MJ) : Prop where
  inv : MInv s s' (refsO o) (marksO o)
  none : o = none → s'.trace = s.trace
  single : SingleO o

/-- A pointer target: nothing stays behind, or the result is a dictionary that can be marked. -/
def Markable (s s' : MSess) (o : Option MJ) : Prop :=
  o = none ∨ (s'.trace = s.trace ∧ ∃ j, o = some (.json j)) ∨ ∃ kvs, o = some (.dict [] kvs)

def DRes (h : List GV) (d : MSess → Option FInfo → Nat → Option (MSess × Option MJ)) : Prop :=
  ∀ s info a s' o, s.Good → optForce info = false → d s info a = some (s', o) → MRes s s' o ∧ ∀ g, h[a]? = some g → g.DictLike → Markable s s' o

theorem leaf_single {l : Leaf} (hl : l.NoIds) {info : Option FInfo} {j : J} (h : l.marshal info oe = some j) : j.nodeIds = [] ∧ j.ptrIds = [] := by
  have str : ∀ s, (J.str s).nodeIds = [] ∧ (J.str s).ptrIds = [] := fun s => by simp [J.nodeIds, J.ptrIds]
  cases l with
  | nil => simp only [Leaf.marshal] at h; split at h <;> cases h; simp [J.nodeIds, J.ptrIds]
  | bool b => simp only [Leaf.marshal, marshalBoolean] at h; split at h <;> (try split at h) <;> cases h <;> simp [J.nodeIds, J.ptrIds]
  | int n => simp only [Leaf.marshal, marshalInt64] at h; split at h <;> (try split at h) <;> cases h <;> simp [J.nodeIds, J.ptrIds, newInt]
  | float32 b => simp only [Leaf.marshal, marshalFloat32] at h; split at h <;> (try split at h) <;> cases h <;> simp [J.nodeIds, J.ptrIds, newFloat32]
  | float64 b => simp only [Leaf.marshal, marshalFloat64] at h; split at h <;> (try split at h) <;> cases h <;> simp [J.nodeIds, J.ptrIds, newFloat64]
  | str s => simp only [Leaf.marshal, marshalString] at h; split at h <;> cases h; simp [J.nodeIds, J.ptrIds]
  | tri t => cases t <;> simp only [Leaf.marshal, marshalTristate] at h <;> (try split at h) <;> cases h <;> simp [J.nodeIds, J.ptrIds]
  | time t => cases t <;> simp only [Leaf.marshal, marshalTime] at h <;> (try split at h) <;> cases h <;> simp [J.nodeIds, J.ptrIds]
  | jsonVal j => simp only [Leaf.marshal] at h; split at h <;> cases h; exact hl
  | jsonIface j => simp only [Leaf.marshal] at h; cases h; exact hl
  | std j => simp only [Leaf.marshal] at h; cases h; exact hl
  | other => simp only [Leaf.marshal] at h; cases h; simp [J.nodeIds, J.ptrIds]

theorem marshalPtr_res {h : List GV} {a : Nat} {s s' : MSess} {o : Option MJ} (hg : s.Good) {info : Option FInfo} (hf : optForce info = false)
    {d : MSess → Option FInfo → Nat → Option (MSess × Option MJ)} (hd : DRes h d) (hclean : ∀ g, h[a]? = some g → g.DictLike)
    (hdang : ∀ s info r, d s info a = some r → ∃ g, h[a]? = some g)
    (hr : marshalPtr a s (fun s1 => d s1 info a) = some (s', o)) : MRes s s' o := by
  unfold marshalPtr at hr
  cases ht : traceFind a none s.trace with
  | mk found t =>
    have hb := traceFind_bump a none s.trace
    have hfd := fun id => traceFind_found a none s.trace id hg
    rw [ht] at hr hb hfd
    simp only at hb hfd
    cases found with
    | some id =>
      simp only at hr
      cases hr
      refine ⟨⟨Nat.le_refl _, ⟨t, [], by simp, hb, by simp, by simp⟩, ?_, by simp [marksO, MJ.marks], by simp [marksO, MJ.marks], ?_⟩, by simp, trivial⟩
      rotate_left
      · intro ho
        have hids := traceFind_ids a none s.trace
        have hca := traceFind_cause a s.trace id ho.ids ho.infs
        rw [ht] at hids hca
        refine ⟨⟨by rw [hids.1]; exact ho.ids, by rw [hids.1]; exact ho.le, by rw [hids.2]; exact ho.infs⟩, fun e' he hc => ?_⟩
        rcases hca rfl e' he with h | h
        · exact .inl ⟨e', h, rfl, hc⟩
        · exact .inr ⟨id, by simp [refsO, MJ.refs], h⟩
      intro id' hid
      simp only [refsO, MJ.refs, List.mem_singleton] at hid
      subst hid
      rcases hfd id' rfl with h | h
      · cases h
      · exact h
    | none =>
      have hmiss := traceFind_none a s.trace (by rw [ht])
      have htt : t = s.trace := by
        have := traceFind_miss (a := a) s.trace (fun e he hea => traceFind_none a s.trace (by rw [ht]) (List.mem_map.2 ⟨e, he, hea⟩))
        rw [ht] at this; cases this; rfl
      subst htt
      simp only at hr
      cases hb2 : d ⟨s.nodeIndex + 1, s.trace ++ [⟨s.nodeIndex + 1, a, 1⟩]⟩ info a with
      | none => rw [hb2] at hr; cases hr
      | some r =>
        obtain ⟨s2, o2⟩ := r
        rw [hb2] at hr
        simp only at hr
        cases hr
        obtain ⟨⟨hinv, hnone, hsing⟩, hmk⟩ := hd _ _ _ _ _ (by
          intro e he
          simp only [List.mem_append, List.mem_singleton] at he
          rcases he with he | rfl
          · exact hg e he
          · exact Nat.le_refl _) hf hb2
        obtain ⟨g, hga⟩ := hdang _ _ _ hb2
        have hmk := hmk g hga (hclean g hga)
        have same : s2.trace = s.trace ++ [⟨s.nodeIndex + 1, a, 1⟩] → refsO (o2.map (MJ.mark (s.nodeIndex + 1))) = [] → marksO (o2.map (MJ.mark (s.nodeIndex + 1))) = [] →
            SingleO (o2.map (MJ.mark (s.nodeIndex + 1))) → MRes s ⟨s2.nodeIndex, tracePop s2.trace⟩ (o2.map (MJ.mark (s.nodeIndex + 1))) := by
          intro h1 h2 h3 h4
          rw [h1, tracePop_push]
          refine ⟨?_, fun _ => rfl, h4⟩
          rw [h2, h3]
          exact MInv.same _ (by have := hinv.idx; simp only at this; omega)
        rcases hmk with rfl | ⟨hsame, j, rfl⟩ | ⟨kvs, rfl⟩
        · exact same (hnone rfl) rfl rfl trivial
        · exact same hsame rfl rfl hsing
        · clear same
          simp only [Option.map_some, MJ.mark, List.nil_append]
          obtain ⟨i1, ⟨old, new, e1, b1, x1, l1⟩, f1, d1, g1, t1⟩ := hinv
          have t2 := MExt.push hmiss t1
          simp only [refsO, MJ.refs, marksO, MJ.marks, List.append_nil] at i1 b1 g1 x1 f1 d1
          have hnd : (MJ.marksf kvs ++ [s.nodeIndex + 1]).Nodup := by
            rw [List.nodup_append]
            refine ⟨d1, by simp, ?_⟩
            intro x hx y hy hxy
            simp only [List.mem_singleton] at hy
            subst hxy; subst hy
            have := g1 _ hx; omega
          have hrange : ∀ id ∈ MJ.marksf kvs ++ [s.nodeIndex + 1], s.nodeIndex < id ∧ id ≤ s2.nodeIndex := by
            intro id hid
            rw [List.mem_append] at hid
            rcases hid with hid | hid
            · have := g1 id hid; omega
            · simp only [List.mem_singleton] at hid; omega
          have hsg : SingleO (some (.dict [s.nodeIndex + 1] kvs)) := by
            simp only [SingleO, MJ.Single] at hsing ⊢
            exact ⟨by simp, hsing.2⟩
          obtain ⟨old1, q2, rfl, c1, c2⟩ := b1.split
          cases c2 with
          | cons eid erc cnil =>
            cases cnil
            rename_i e'
            simp only at eid erc
            by_cases hnew : new = [] ∧ e'.refcnt = 1
            · obtain ⟨hn, hrc⟩ := hnew
              subst hn
              have hpop : tracePop s2.trace = old1 := by
                rw [e1, List.append_nil]
                simp [tracePop, hrc]
              refine ⟨⟨by simp only; omega, ⟨old1, [], by simp [hpop], c1, by simp, by simp⟩, ?_, hnd, hrange, t2⟩, by simp, hsg⟩
              intro id hid
              obtain ⟨e, p1, p2, p3⟩ := f1 id hid
              rw [e1] at p1
              simp only [List.append_nil, List.mem_append, List.mem_singleton] at p1
              simp only [hpop]
              rcases p1 with p1 | rfl
              · exact ⟨e, p1, p2, p3⟩
              · omega
            · have hlast : ∀ e, (e' :: new).getLast? = some e → 2 ≤ e.refcnt := by
                intro e he
                cases new with
                | nil =>
                  simp only [List.getLast?_singleton, Option.some.injEq] at he
                  subst he
                  have : e'.refcnt ≠ 1 := fun h => hnew ⟨rfl, h⟩
                  omega
                | cons z zs => rw [List.getLast?_cons_cons] at he; exact l1 e he
              have hpop : tracePop s2.trace = old1 ++ e' :: new := by
                have e2 : s2.trace = old1 ++ e' :: new := by rw [e1]; simp
                rw [e2]
                unfold tracePop
                split
                · rename_i e he
                  have hl : (old1 ++ e' :: new).getLast? = (e' :: new).getLast? := by
                    rw [List.getLast?_append]
                    cases hz : (e' :: new).getLast? with
                    | none => simp at hz
                    | some w => rfl
                  rw [hl] at he
                  have := hlast e he
                  rw [if_neg (by omega)]
                · rfl
              refine ⟨⟨by simp only; omega, ⟨old1, e' :: new, hpop, c1, ?_, hlast⟩, ?_, hnd, hrange, t2⟩, by simp, hsg⟩
              · intro e he
                rcases List.mem_cons.1 he with rfl | he
                · exact ⟨by omega, by simp [marksO, MJ.marks, eid]⟩
                · exact ⟨(x1 e he).1, by simp only [marksO, MJ.marks]; exact List.mem_append_left _ (x1 e he).2⟩
              · intro id hid
                obtain ⟨e, p1, p2, p3⟩ := f1 id hid
                refine ⟨e, ?_, p2, p3⟩
                rw [hpop, ← List.append_cons] at *
                rw [e1] at p1
                simpa using p1

theorem depMap_clean {h : List GV} : ∀ {fs : List (FInfo × GV)}, GV.Cleanf h fs → depMap fs = []
  | [], _ => rfl
  | (i, x) :: fs, hc => by
    simp only [GV.Cleanf] at hc
    have ih := depMap_clean hc.2
    simp only [depMap]
    rcases hc.1 with h1 | h1
    · rw [h1]; exact ih
    · rw [h1.2.1, ih]; cases i.ignore <;> rfl

theorem perm_nil_of {ord : SMap Bytes → List (Bytes × Bytes)} (hord : ∀ dep, (ord dep).Perm dep) : ord [] = [] := List.Perm.eq_nil (hord [])

theorem structDict_clean (hord : ∀ dep, (ord dep).Perm dep) {info : Option FInfo} (hf : optForce info = false) {ps : List (Bytes × MJ)} :
    structDict ord oe info ps [] = some (if ps.isEmpty ∧ optEmpty info ∧ oe then none else some (.dict [] (pairsDict ps))) := by
  unfold structDict
  rw [perm_nil_of hord]
  simp only [depPairs, List.append_nil]
  split
  · rfl
  · simp [forceStr, hf]

/-- The result of the loops. -/
structure MResL (s s' : MSess) (ps : List (Bytes × MJ)) : Prop where
  inv : MInv s s' (MJ.refsf ps) (MJ.marksf ps)
  nil : ps = [] → s'.trace = s.trace
  single : MJ.Singlef ps

theorem MResL.dict {s s' : MSess} {ps : List (Bytes × MJ)} (h : MResL s s' ps) (hn : (ps.map (·.1)).Nodup) : MRes s s' (some (.dict [] (pairsDict ps))) := by
  have hp := pairsDict_perm ps hn
  refine ⟨?_, by simp, ?_⟩
  · simp only [refsO, marksO, MJ.refs, MJ.marks, List.append_nil]
    refine h.inv.perm ?_ ?_
    · rw [refsf_flat, refsf_flat]; exact (hp.symm.flatMap_right _)
    · rw [marksf_flat, marksf_flat]; exact (hp.symm.flatMap_right _)
  · simp only [SingleO, MJ.Single]
    refine ⟨by simp, ?_⟩
    rw [singlef_all]
    intro p hm
    exact (singlef_all ps).1 h.single p (hp.subset hm)

section refs
variable {h : List GV} {d : MSess → Option FInfo → Nat → Option (MSess × Option MJ)}

theorem marf_keys_gv : ∀ (fs : List (FInfo × GV)) (s s' : MSess) (ps : List (Bytes × MJ)) (dep : SMap Bytes), GV.marf ord oe d fs s = some (s', ps, dep) →
    (ps.map (·.1)).Sublist ((fs.filter fun f => !f.1.ignore).map (·.1.name))
  | [], s, s', ps, dep, h => by simp only [GV.marf] at h; cases h; simp
  | (i, x) :: fs, s, s', ps, dep, h => by
    simp only [GV.marf] at h
    rw [List.filter_cons]
    split at h
    · rename_i hi
      rw [if_neg (by simp [hi])]; exact marf_keys_gv fs _ _ ps dep h
    · rename_i hi
      rw [if_pos (by simpa using hi), List.map_cons]
      split at h
      · split at h
        · cases h
        · rename_i hr
          cases h
          exact (marf_keys_gv fs _ _ _ _ hr).cons _
      · split at h
        · cases h
        · rename_i o hx
          split at h
          · cases h
          · rename_i hr
            cases h
            cases o with
            | none => exact (marf_keys_gv fs _ _ _ _ hr).cons _
            | some y => exact (marf_keys_gv fs _ _ _ _ hr).cons_cons _

theorem marm_keys_gv : ∀ (kvs : List (Bytes × GV)) (s s' : MSess) (ps : List (Bytes × MJ)), GV.marm ord oe d kvs s = some (s', ps) →
    (ps.map (·.1)).Sublist (kvs.map (·.1))
  | [], s, s', ps, h => by simp only [GV.marm] at h; cases h; simp
  | (k, x) :: fs, s, s', ps, h => by
    simp only [GV.marm] at h
    rw [List.map_cons]
    split at h
    · cases h
    · rename_i o hx
      split at h
      · cases h
      · rename_i hr
        cases h
        cases o with
        | none => exact (marm_keys_gv fs _ _ _ hr).cons _
        | some y => exact (marm_keys_gv fs _ _ _ hr).cons_cons _

/-- One more element. -/
theorem MResL.cons {s s1 s2 : MSess} {o : Option MJ} {ps : List (Bytes × MJ)} (k : Bytes) (h1 : MRes s s1 o) (h2 : MResL s1 s2 ps) :
    MResL s s2 (match (generalizing := false) o with | some y => (k, y) :: ps | none => ps) := by
  cases o with
  | none =>
    have e : s1.trace = s.trace := h1.none rfl
    refine ⟨?_, fun h => by rw [h2.nil h, e], h2.single⟩
    have := h1.inv.trans h2.inv
    simpa [refsO, marksO] using this
  | some y =>
    refine ⟨?_, by simp, ?_⟩
    · have := h1.inv.trans h2.inv
      simpa [refsO, marksO, MJ.refsf, MJ.marksf] using this
    · simp only [MJ.Singlef]; exact ⟨h1.single, h2.single⟩

mutual
theorem mar_refs (hord : ∀ dep, (ord dep).Perm dep) (hd : DRes h d) (hdang : ∀ s info a r, d s info a = some r → ∃ g, h[a]? = some g) :
    ∀ (g : GV) (s : MSess) (info : Option FInfo) (s' : MSess) (o : Option MJ), g.Clean h → s.Good → optForce info = false →
      GV.mar ord oe d g s info = some (s', o) → MRes s s' o
  | .leaf l, s, info, s', o, hc, hg, hf, hr => by
    simp only [GV.mar] at hr
    simp only [GV.Clean] at hc
    cases hr
    cases hl : l.marshal info oe with
    | none => exact ⟨MInv.same _ (Nat.le_refl _), fun _ => rfl, trivial⟩
    | some j => exact ⟨MInv.same _ (Nat.le_refl _), fun _ => rfl, leaf_single hc hl⟩
  | .jsonPtr j, s, info, s', o, hc, hg, hf, hr => by
    simp only [GV.mar] at hr
    simp only [GV.Clean] at hc
    cases hr
    exact ⟨MInv.same _ (Nat.le_succ _), fun _ => rfl, hc⟩
  | .seq xs, s, info, s', o, hc, hg, hf, hr => by
    simp only [GV.mar] at hr
    simp only [GV.Clean] at hc
    split at hr
    · cases hr; exact ⟨MInv.same _ (Nat.le_refl _), fun _ => rfl, trivial⟩
    · split at hr
      · cases hr
      · rename_i hx
        cases hr
        have := mars_refs hord hd hdang xs _ _ _ hc hg hx
        simp only [forceStr, hf, Bool.false_eq_true, if_false]
        exact ⟨by simpa only [refsO, marksO, MJ.refs, MJ.marks] using this.1, by simp, by simpa only [SingleO, MJ.Single] using this.2⟩
  | .map xs, s, info, s', o, hc, hg, hf, hr => by
    simp only [GV.mar] at hr
    simp only [GV.Clean] at hc
    split at hr
    · cases hr; exact ⟨MInv.same _ (Nat.le_refl _), fun _ => rfl, trivial⟩
    · split at hr
      · cases hr
      · rename_i hx
        cases hr
        have := marm_refs hord hd hdang xs _ _ _ hc.2 hg hx
        simp only [forceStr, hf, Bool.false_eq_true, if_false]
        exact this.dict ((marm_keys_gv xs _ _ _ hx).nodup hc.1)
  | .struct fs, s, info, s', o, hc, hg, hf, hr => by
    simp only [GV.mar] at hr
    simp only [GV.Clean] at hc
    cases hx : GV.marf ord oe d fs s with
    | none => rw [hx] at hr; cases hr
    | some r =>
      obtain ⟨s1, ps, dep⟩ := r
      rw [hx] at hr
      simp only at hr
      have hdep := marf_dep_gv fs _ _ _ _ hx
      rw [depMap_clean hc.2] at hdep
      subst hdep
      rw [structDict_clean hord hf] at hr
      simp only at hr
      have := marf_refs hord hd hdang fs _ _ _ _ hc.2 hg hx
      split at hr
      · rename_i hcond
        cases hr
        have hps : ps = [] := by simpa using hcond.1
        subst hps
        exact ⟨by simpa [refsO, marksO, MJ.refsf, MJ.marksf] using this.inv, fun _ => this.nil rfl, trivial⟩
      · cases hr
        exact this.dict ((marf_keys_gv fs _ _ _ _ hx).nodup hc.1)
  | .iface x, s, info, s', o, hc, hg, hf, hr => by
    simp only [GV.mar] at hr
    simp only [GV.Clean] at hc
    exact mar_refs hord hd hdang x s info s' o hc hg hf hr
  | .ptr a, s, info, s', o, hc, hg, hf, hr => by
    simp only [GV.mar] at hr
    simp only [GV.Clean] at hc
    exact marshalPtr_res hg hf hd hc (fun s info r => hdang s info a r) hr
  | .shared a, s, info, s', o, hc, hg, hf, hr => by
    simp only [GV.mar] at hr
    exact (hd _ _ _ _ _ hg hf hr).1
theorem mars_refs (hord : ∀ dep, (ord dep).Perm dep) (hd : DRes h d) (hdang : ∀ s info a r, d s info a = some r → ∃ g, h[a]? = some g) :
    ∀ (xs : List GV) (s s' : MSess) (ys : List MJ), GV.Cleans h xs → s.Good → GV.mars ord oe d xs s = some (s', ys) →
      MInv s s' (MJ.refss ys) (MJ.markss ys) ∧ MJ.Singles ys
  | [], s, s', ys, _, hg, hr => by
    simp only [GV.mars] at hr; cases hr
    exact ⟨MInv.same _ (Nat.le_refl _), trivial⟩
  | x :: xs, s, s', ys, hc, hg, hr => by
    simp only [GV.mars] at hr
    simp only [GV.Cleans] at hc
    split at hr
    · cases hr
    · rename_i s1 o hx
      split at hr
      · cases hr
      · rename_i s2 ys' hr2
        have a1 := mar_refs hord hd hdang x s none s1 o hc.1 hg rfl hx
        have a2 := mars_refs hord hd hdang xs s1 s2 ys' hc.2 (a1.inv.good hg) hr2
        have a3 := a1.inv.trans a2.1
        cases o with
        | none => cases hr; exact ⟨by simpa [refsO, marksO] using a3, a2.2⟩
        | some y => cases hr; exact ⟨by simpa [refsO, marksO, MJ.refss, MJ.markss] using a3, by simp only [MJ.Singles]; exact ⟨a1.single, a2.2⟩⟩
theorem marm_refs (hord : ∀ dep, (ord dep).Perm dep) (hd : DRes h d) (hdang : ∀ s info a r, d s info a = some r → ∃ g, h[a]? = some g) :
    ∀ (xs : List (Bytes × GV)) (s s' : MSess) (ps : List (Bytes × MJ)), GV.Cleanm h xs → s.Good → GV.marm ord oe d xs s = some (s', ps) → MResL s s' ps
  | [], s, s', ys, _, hg, hr => by
    simp only [GV.marm] at hr; cases hr
    exact ⟨MInv.same _ (Nat.le_refl _), fun _ => rfl, trivial⟩
  | (k, x) :: xs, s, s', ys, hc, hg, hr => by
    simp only [GV.marm] at hr
    simp only [GV.Cleanm] at hc
    split at hr
    · cases hr
    · rename_i s1 o hx
      split at hr
      · cases hr
      · rename_i s2 ys' hr2
        have a1 := mar_refs hord hd hdang x s none s1 o hc.1 hg rfl hx
        have a2 := marm_refs hord hd hdang xs s1 s2 ys' hc.2 (a1.inv.good hg) hr2
        cases hr
        exact a2.cons k a1
theorem marf_refs (hord : ∀ dep, (ord dep).Perm dep) (hd : DRes h d) (hdang : ∀ s info a r, d s info a = some r → ∃ g, h[a]? = some g) :
    ∀ (xs : List (FInfo × GV)) (s s' : MSess) (ps : List (Bytes × MJ)) (dep : SMap Bytes), GV.Cleanf h xs → s.Good → GV.marf ord oe d xs s = some (s', ps, dep) → MResL s s' ps
  | [], s, s', ys, dep, _, hg, hr => by
    simp only [GV.marf] at hr; cases hr
    exact ⟨MInv.same _ (Nat.le_refl _), fun _ => rfl, trivial⟩
  | (i, x) :: xs, s, s', ys, dep, hc, hg, hr => by
    simp only [GV.marf] at hr
    simp only [GV.Cleanf] at hc
    split at hr
    · exact marf_refs hord hd hdang xs s s' ys dep hc.2 hg hr
    · rename_i hi
      rcases hc.1 with hc1 | hc1
      · exact absurd hc1 hi
      · rw [hc1.2.1] at hr
        simp only at hr
        split at hr
        · cases hr
        · rename_i s1 o hx
          split at hr
          · cases hr
          · rename_i s2 ys' dep' hr2
            have a1 := mar_refs hord hd hdang x s (some i) s1 o hc1.2.2 hg (by simp [optForce, hc1.1]) hx
            have a2 := marf_refs hord hd hdang xs s1 s2 ys' dep' hc.2 (a1.inv.good hg) hr2
            cases hr
            exact a2.cons i.name a1
end

theorem mar_markable (hord : ∀ dep, (ord dep).Perm dep) {g : GV} (hl : g.DictLike) (hc : g.Clean h) {s s' : MSess} {info : Option FInfo} {o : Option MJ} (hf : optForce info = false)
    (hr : GV.mar ord oe d g s info = some (s', o)) : Markable s s' o := by
  cases g with
  | leaf l =>
    simp only [GV.mar] at hr
    cases hr
    cases l.marshal info oe with
    | none => exact .inl rfl
    | some j => exact .inr (.inl ⟨rfl, j, rfl⟩)
  | map kvs =>
    simp only [GV.mar] at hr
    split at hr
    · cases hr; exact .inl rfl
    · split at hr
      · cases hr
      · cases hr
        simp only [forceStr, hf, Bool.false_eq_true, if_false]
        exact .inr (.inr ⟨_, rfl⟩)
  | struct fs =>
    simp only [GV.mar] at hr
    simp only [GV.Clean] at hc
    cases hx : GV.marf ord oe d fs s with
    | none => rw [hx] at hr; cases hr
    | some r =>
      obtain ⟨s1, ps, dep⟩ := r
      rw [hx] at hr
      simp only at hr
      have hdep := marf_dep_gv fs _ _ _ _ hx
      rw [depMap_clean hc.2] at hdep
      subst hdep
      rw [structDict_clean hord hf] at hr
      simp only at hr
      split at hr
      · cases hr; exact .inl rfl
      · cases hr; exact .inr (.inr ⟨_, rfl⟩)
  | _ => exact absurd hl (by simp [GV.DictLike])
end refs

theorem gd_dang {h : List GV} (n : Nat) : ∀ s info a r, gd ord oe h n s info a = some r → ∃ g, h[a]? = some g := by
  intro s info a r hr
  cases n with
  | zero => cases hr
  | succ n =>
    simp only [gd] at hr
    split at hr
    · cases hr
    · rename_i g hg; exact ⟨g, hg⟩

theorem gd_refs (hord : ∀ dep, (ord dep).Perm dep) {h : List GV} (hh : ∀ x ∈ h, x.Clean h) : ∀ n, DRes h (gd ord oe h n) := by
  intro n
  induction n with
  | zero => intro s info a s' o _ _ hr; cases hr
  | succ n ih =>
    intro s info a s' o hg hf hr
    obtain ⟨g, hga⟩ := gd_dang _ _ _ _ _ hr
    rw [gd_succ hga] at hr
    have hc := hh g (List.mem_of_getElem? hga)
    refine ⟨mar_refs hord ih (gd_dang n) g s info s' o hc hg hf hr, fun g' hg' hl => ?_⟩
    rw [hga] at hg'; cases hg'
    exact mar_markable hord hl hc hf hr

/-! ### Finishing -/

mutual
theorem finish_ids (live : Nat → Bool) (pick : List Nat → Nat) (hpick : ∀ l, l ≠ [] → pick l ∈ l) : ∀ (m : MJ), m.Single → (∀ id ∈ m.marks, 0 < id) →
    (m.finish live pick).nodeIds = (m.marks.filter live).map (fun (n : Nat) => (n : Int)) ∧ (m.finish live pick).ptrIds = m.refs.map (fun (n : Nat) => (n : Int))
  | .json j, hs, _ => by simp only [MJ.Single] at hs; simp [MJ.finish, MJ.marks, MJ.refs, hs]
  | .ref id, hs, _ => by simp [MJ.finish, MJ.marks, MJ.refs, J.nodeIds, J.ptrIds]
  | .arr xs, hs, hp => by
    simp only [MJ.Single] at hs
    simp only [MJ.marks] at hp
    have := finishs_ids live pick hpick xs hs hp
    simpa [MJ.finish, MJ.marks, MJ.refs, J.nodeIds, J.ptrIds] using this
  | .dict ms kvs, hs, hp => by
    simp only [MJ.Single] at hs
    simp only [MJ.marks] at hp
    have := finishf_ids live pick hpick kvs hs.2 (fun id hid => hp id (List.mem_append_left _ hid))
    simp only [MJ.finish, MJ.marks, MJ.refs, J.nodeIds, J.ptrIds, List.filter_append, List.map_append, this]
    refine ⟨?_, trivial⟩
    congr 1
    match ms, hs.1, hp with
    | [], _, _ => simp
    | [id], _, hp =>
      have h0 := hp id (by simp)
      cases hl : live id with
      | false => simp [hl]
      | true =>
        have := hpick [id] (by simp)
        simp only [List.mem_singleton] at this
        simp only [List.filter_cons, hl, if_true, List.filter_nil, List.isEmpty_cons, Bool.false_eq_true, if_false, this, List.map_cons, List.map_nil]
        rw [if_pos (by omega)]
    | _ :: _ :: _, h1, _ => simp at h1
theorem finishs_ids (live : Nat → Bool) (pick : List Nat → Nat) (hpick : ∀ l, l ≠ [] → pick l ∈ l) : ∀ (m : List MJ), MJ.Singles m → (∀ id ∈ MJ.markss m, 0 < id) →
    J.nodeIdss (MJ.finishs live pick m) = ((MJ.markss m).filter live).map (fun (n : Nat) => (n : Int)) ∧ J.ptrIdss (MJ.finishs live pick m) = (MJ.refss m).map (fun (n : Nat) => (n : Int))
  | [], _, _ => by simp [MJ.finishs, MJ.markss, MJ.refss, J.nodeIdss, J.ptrIdss]
  | x :: xs, hs, hp => by
    simp only [MJ.Singles] at hs
    simp only [MJ.markss] at hp
    have a1 := finish_ids live pick hpick x hs.1 (fun id hid => hp id (List.mem_append_left _ hid))
    have a2 := finishs_ids live pick hpick xs hs.2 (fun id hid => hp id (List.mem_append_right _ hid))
    simp [MJ.finishs, MJ.markss, MJ.refss, J.nodeIdss, J.ptrIdss, a1, a2]
theorem finishf_ids (live : Nat → Bool) (pick : List Nat → Nat) (hpick : ∀ l, l ≠ [] → pick l ∈ l) : ∀ (m : List (Bytes × MJ)), MJ.Singlef m → (∀ id ∈ MJ.marksf m, 0 < id) →
    J.nodeIdsf (MJ.finishf live pick m) = ((MJ.marksf m).filter live).map (fun (n : Nat) => (n : Int)) ∧ J.ptrIdsf (MJ.finishf live pick m) = (MJ.refsf m).map (fun (n : Nat) => (n : Int))
  | [], _, _ => by simp [MJ.finishf, MJ.marksf, MJ.refsf, J.nodeIdsf, J.ptrIdsf]
  | (k, x) :: xs, hs, hp => by
    simp only [MJ.Singlef] at hs
    simp only [MJ.marksf] at hp
    have a1 := finish_ids live pick hpick x hs.1 (fun id hid => hp id (List.mem_append_left _ hid))
    have a2 := finishf_ids live pick hpick xs hs.2 (fun id hid => hp id (List.mem_append_right _ hid))
    simp [MJ.finishf, MJ.marksf, MJ.refsf, J.nodeIdsf, J.ptrIdsf, a1, a2]
end

theorem marshal_refs (hord : ∀ dep, (ord dep).Perm dep) {pick : List Nat → Nat} (hpick : ∀ l, l ≠ [] → pick l ∈ l) {h : List GV} {g : GV} (hg : GraphClean h g)
    {n : Nat} {j : J} (hm : marshal ord pick oe h n g = some j) : (∀ id ∈ j.ptrIds, id ∈ j.nodeIds) ∧ j.nodeIds.Nodup := by
  unfold marshal at hm
  rw [gmar_gd] at hm
  cases hr : GV.mar ord oe (gd ord oe h n) g .init none with
  | none => rw [hr] at hm; cases hm
  | some r =>
    obtain ⟨s, o⟩ := r
    rw [hr] at hm
    have res := mar_refs hord (gd_refs hord hg.2 n) (gd_dang n) g .init none s o hg.1 (by intro e he; cases he) rfl hr
    cases o with
    | none => cases hm; simp [J.ptrIds, J.nodeIds]
    | some m =>
      simp only [Option.some.injEq] at hm
      subst hm
      have hpos : ∀ id ∈ m.marks, 0 < id := fun id hid => (res.inv.range id hid).1
      obtain ⟨h1, h2⟩ := finish_ids s.live pick hpick m res.single hpos
      rw [h1, h2]
      constructor
      · intro id hid
        obtain ⟨k, hk, rfl⟩ := List.mem_map.1 hid
        refine List.mem_map.2 ⟨k, List.mem_filter.2 ⟨?_, ?_⟩, rfl⟩
        · obtain ⟨e, he, hek, _⟩ := res.inv.refs k hk
          obtain ⟨old, new, h3, h4, h5, _⟩ := res.inv.tr
          have : old = [] := by
            have h4' : Bumped [] old := h4
            cases h4'; rfl
          subst this
          rw [h3, List.nil_append] at he
          rw [← hek]; exact (h5 e he).2
        · obtain ⟨e, he, hek, hrc⟩ := res.inv.refs k hk
          unfold MSess.live
          rw [List.any_eq_true]
          exact ⟨e, he, by simp [hek]; omega⟩
      · rw [List.nodup_iff_pairwise_ne, List.pairwise_map]
        have := (res.inv.nodup).filter s.live
        exact List.Pairwise.imp (fun h => by omega) this

/-- Every id is caused by a reference to it or to an earlier one. -/
theorem marshal_ids (hord : ∀ dep, (ord dep).Perm dep) {pick : List Nat → Nat} (hpick : ∀ l, l ≠ [] → pick l ∈ l) {h : List GV} {g : GV} (hg : GraphClean h g)
    {n : Nat} {j : J} (hm : marshal ord pick oe h n g = some j) : ∀ id ∈ j.nodeIds, ∃ r ∈ j.ptrIds, 0 < r ∧ r ≤ id := by
  unfold marshal at hm
  rw [gmar_gd] at hm
  cases hr : GV.mar ord oe (gd ord oe h n) g .init none with
  | none => rw [hr] at hm; cases hm
  | some r =>
    obtain ⟨s, o⟩ := r
    rw [hr] at hm
    have res := mar_refs hord (gd_refs hord hg.2 n) (gd_dang n) g .init none s o hg.1 (by intro e he; cases he) rfl hr
    cases o with
    | none => cases hm; simp [J.nodeIds]
    | some m =>
      simp only [Option.some.injEq] at hm
      subst hm
      have hpos : ∀ id ∈ m.marks, 0 < id := fun id hid => (res.inv.range id hid).1
      obtain ⟨h1, h2⟩ := finish_ids s.live pick hpick m res.single hpos
      rw [h1, h2]
      intro id hid
      obtain ⟨k, hk, rfl⟩ := List.mem_map.1 hid
      obtain ⟨_, hlive⟩ := List.mem_filter.1 hk
      unfold MSess.live at hlive
      rw [List.any_eq_true] at hlive
      obtain ⟨e, he, hek⟩ := hlive
      simp only [Bool.and_eq_true, beq_iff_eq, decide_eq_true_eq] at hek
      rcases (res.inv.ext ⟨by simp [MSess.init], by simp [MSess.init], by simp [MSess.init]⟩).2 e he hek.2 with ⟨e', h3, _⟩ | ⟨i, h3, h4⟩
      · cases h3
      · refine ⟨i, List.mem_map.2 ⟨i, h3, rfl⟩, ?_, by omega⟩
        have h3' : i ∈ m.refs := h3
        obtain ⟨e', p1, p2, _⟩ := res.inv.refs i h3'
        obtain ⟨old, new, h5, h6, h7, _⟩ := res.inv.tr
        have : old = [] := by
          have h6' : Bumped [] old := h6
          cases h6'; rfl
        subst this
        rw [h5, List.nil_append] at p1
        have := hpos _ (h7 e' p1).2
        omega

end Jsonutils
