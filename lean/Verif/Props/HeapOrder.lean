import Verif.Proofs.HeapOrder
import Verif.Props.HeapRead

/-!
# C80: every history of calls keeps memory in order
-/

namespace Jsonutils.Props
open Jsonutils

/-- **C80, any client.** Whatever calls a program makes, as long as what it passes exists: no variable dangles, the shared null, true and
false are still what they were, and the keys of every dictionary are sorted and distinct.  This holds with nil variables and reference
pointers put into documents (`N`) and without. -/
theorem C80_order (N : Prop) (cs : List Call) (hl : Along (Call.Legal N) Heap.base cs) :
    InOrder N (runCalls Heap.base cs) ∧ (runCalls Heap.base cs).Ok ∧ (runCalls Heap.base cs).Tidy := by
  have hi : InOrder N (runCalls Heap.base cs) := (Kept.runs (U := False) cs _ kept_base hl (fun u => u.elim)).1
  refine ⟨hi, ⟨hi.base, fun o ho b hb => hi.refs o ho _ hb⟩, fun a id kvs ha => (hi.get ha).1⟩

/-- **C80, a client that passes no nil and ties no knot.** After every such history each object in memory spells a document that is as the
other properties assume documents to be: no cycles, no nil, no references, keys sorted, integers and floats in range.  `String` of it
returns, and returns the text of that document. -/
theorem C80_documents (cs : List Call) (hl : Along (Call.Legal False) Heap.base cs) (hu : Along Call.Untied Heap.base cs) (a : Addr)
    (ha : a < (runCalls Heap.base cs).length) :
    ∃ v : J, v.Seen (runCalls Heap.base cs) a ∧ v.WF ∧ v.NoPtr ∧ Eventually (fun f => textH f (runCalls Heap.base cs) (some a)) (.ok v.toBytes) := by
  obtain ⟨v, h1, h2, h3⟩ := kept_seen (Kept.runs (U := True) cs _ kept_base hl fun _ => hu) ha
  exact ⟨v, h1, h2, h3, (C77_text _ (C80_order False cs hl).2.1 a ha).1 v h1⟩

/-- **C80, exactly which `Set` ties a knot.** After such a history, setting a key of a dictionary leaves a document exactly if the value does
not contain the dictionary; if it does, `String` of the dictionary never returns. -/
theorem C80_set (cs : List Call) (hl : Along (Call.Legal False) Heap.base cs) (hu : Along Call.Untied Heap.base cs) (d b : Addr) (k : Bytes)
    (hd : DictAt (runCalls Heap.base cs) d) (hb : b < (runCalls Heap.base cs).length) :
    ∃ h', setH (runCalls Heap.base cs) d k (some b) = some h' ∧ ((∃ v : J, v.Seen h' d) ↔ ¬ Reach (runCalls Heap.base cs) b d) ∧
      (Reach (runCalls Heap.base cs) b d → Never fun f => textH f h' (some d)) := by
  have hk := Kept.runs (U := True) cs _ kept_base hl fun _ => hu
  obtain ⟨id, kvs, ho⟩ := hd
  generalize hh : runCalls Heap.base cs = h at *
  have hlt : d < h.length := (List.getElem?_eq_some_iff.1 ho).1
  refine ⟨h.set d (.dict id (smAdd kvs k (some b))), by simp [setH, ho], ?_, ?_⟩
  · constructor
    · rintro ⟨v, hv⟩ hr
      have hin : some b ∈ (Obj.dict id (smAdd kvs k (some b))).refs := by
        simp only [Obj.refs]
        exact List.mem_map.2 ⟨(k, some b), (smGet_mem_iff (sorted_smAdd (hk.1.get ho).1 _ _)).1 (by rw [smGet_smAdd _ (hk.1.get ho).1]; simp), rfl⟩
      exact no_cycle hv (set_get ho) hin (reach_keep (fun y hy => set_get_ne _ hy) hr rfl)
    · intro hn
      have := Kept.run hk (c := .set d k (some b)) hb (fun _ b' hb' => by cases hb'; exact hn)
      simp only [Call.run, setH, ho, Option.getD_some] at this
      obtain ⟨v, hv, _⟩ := kept_seen this (a := d) (by simpa using hlt)
      exact ⟨v, hv⟩
  · intro hr
    have hi := (Kept.run (N := False) (U := False) ⟨hk.1, fun u => u.elim⟩ (c := .set d k (some b)) hb (fun u => u.elim)).1
    simp only [Call.run, setH, ho, Option.getD_some] at hi
    have hl' : d < (h.set d (.dict id (smAdd kvs k (some b)))).length := by simpa using hlt
    refine (C77_text _ ⟨hi.base, fun o ho b hb => hi.refs o ho _ hb⟩ d hl').2.2.2 (fun hkn => ?_) (inOrder_noNil hi hl')
    have hin : some b ∈ (Obj.dict id (smAdd kvs k (some b))).refs := by
      simp only [Obj.refs]
      exact List.mem_map.2 ⟨(k, some b), (smGet_mem_iff (sorted_smAdd (hk.1.get ho).1 _ _)).1 (by rw [smGet_smAdd _ (hk.1.get ho).1]; simp), rfl⟩
    exact knotless_cycle hkn d _ b rfl (set_get ho) hin (reach_keep (fun y hy => set_get_ne _ hy) hr rfl)

/-- A history: a dictionary, an array with it, the dictionary set to hold `true`, `Add` under two new keys, a deep copy, a removal. -/
def orderHistory : List Call :=
  [.new (.dict 0 []), .new (.arr [some 3, some 0]), .set 3 b!"k" (some 1), .add 3 (some 2) [b!"a", b!"b"], .deepCopy id 20 (some 4), .append 4 [some 5],
    .remove 3 b!"k"]

/-- It meets the hypotheses of `C80_order` and `C80_documents`, and what memory looks like then. -/
example : Along (Call.Legal False) Heap.base orderHistory ∧ Along Call.Untied Heap.base orderHistory ∧
    (runCalls Heap.base orderHistory)[3]? = some (.dict 0 [(b!"a", some 5)]) ∧ (runCalls Heap.base orderHistory)[4]? = some (.arr [some 3, some 0, some 5]) := by
  have leaf : ∀ (h : Heap) (b t : Addr) (o : Obj), h[b]? = some o → o.refs = [] → b ≠ t → ¬ Reach h b t := by
    intro h b t o ho hr hne hreach
    cases hreach with
    | refl => exact hne rfl
    | step g1 g2 _ => rw [ho] at g1; cases g1; rw [hr] at g2; cases g2
  refine ⟨?_, ?_, by decide, by decide⟩
  · refine ⟨⟨List.Pairwise.nil, by simp [Obj.refs]⟩, ⟨trivial, ?_⟩, ?_, ?_, ⟨fun _ => List.Perm.refl _, ?_⟩, ?_, trivial, trivial⟩
    · intro r hr
      simp only [Obj.refs, List.mem_cons, List.not_mem_nil, or_false] at hr
      rcases hr with rfl | rfl <;> exact Nat.lt_of_sub_pos (by decide)
    · exact Nat.lt_of_sub_pos (by decide)
    · exact Nat.lt_of_sub_pos (by decide)
    · exact Nat.lt_of_sub_pos (by decide)
    · intro r hr
      simp only [List.mem_singleton] at hr
      subst hr; exact Nat.lt_of_sub_pos (by decide)
  · refine ⟨trivial, trivial, ?_, ?_, trivial, ?_, trivial, trivial⟩
    · intro b hb; cases hb
      exact leaf _ 1 3 (.bool true) rfl rfl (by decide)
    · intro b p t hb _ hw
      cases hb
      have h3 : t = 3 ∨ t = 1 := by
        cases hpm : p.map Move.key with
        | nil => rw [hpm] at hw; cases hw; exact Or.inl rfl
        | cons m ms =>
          rw [hpm] at hw
          cases hw with
          | key f1 f2 f3 =>
            have e : (Call.run (Call.run (Call.run Heap.base (.new (.dict 0 []))) (.new (.arr [some 3, some 0]))) (.set 3 b!"k" (some 1)))[3]? =
              some (.dict 0 [(b!"k", some 1)]) := by decide
            rw [e] at f1; cases f1
            simp only [List.mem_singleton, Prod.mk.injEq, Option.some.injEq] at f2
            obtain ⟨_, rfl⟩ := f2
            cases f3 with
            | here => exact Or.inr rfl
            | key j1 => cases j1
            | elem j1 => cases j1
          | elem f1 => cases f1
      exact leaf _ 2 t (.bool false) rfl rfl (by rcases h3 with rfl | rfl <;> decide)
    · intro b hb
      simp only [List.mem_singleton, Option.some.injEq] at hb
      subst hb
      intro hreach
      cases hreach with
      | step g1 g2 g3 =>
        cases g1
        have g2 : some _ ∈ [some (2 : Addr)] := g2
        simp only [List.mem_singleton, Option.some.injEq] at g2
        subst g2
        cases g3 with
        | step j1 j2 _ => cases j1; simp [Obj.refs] at j2

end Jsonutils.Props
