import Verif.Proofs.SharedText

/-!
# C74: `String()` on shared documents, by any number of goroutines

`v.Seen h a`: the objects reachable from address `a` of memory `h` spell the document `v`.  `Readers.init h roots`: one goroutine per
root, each about to call `String()` on the document at its root; roots may be equal, and documents may share objects.
`s.run sched`: what is reached by the schedule `sched`, a list of goroutine numbers.  A goroutine has returned when its `todo` is empty;
`out` is then its result.
-/

namespace Jsonutils.Props
open Jsonutils

variable {h : Heap} {roots : List Addr} {docs : List J}

/-- **C74.** Whatever the schedule: a goroutine that has returned returned the text of its document. -/
theorem C74_concurrent_documents (hl : docs.length = roots.length)
    (hd : ∀ (i : Nat) v a, docs[i]? = some v → roots[i]? = some a → v.Seen h a) (sched : List Nat) (i : Nat) (v : J)
    (hv : docs[i]? = some v) (w : Writer) (hw : ((Readers.init h roots).run sched).ws[i]? = some w) (hdone : w.todo = []) :
    w.out = v.toBytes := by
  obtain ⟨t, n, h1, h2, _⟩ := (run_inv sched (init_inv hl hd)).2 i w hw
  rw [hdone] at h1
  rw [does_done h1] at h2
  simp only [hv, List.append_nil] at h2
  exact h2

/-- **C74, progress.** There is a number of steps, depending on the document alone, after which a goroutine has returned, whatever the
others do. -/
theorem C74_wait_free (v : J) : ∃ N, ∀ (h : Heap) (roots : List Addr) (docs : List J), docs.length = roots.length →
    (∀ (i : Nat) v a, docs[i]? = some v → roots[i]? = some a → v.Seen h a) → ∀ (sched : List Nat) (i : Nat), docs[i]? = some v →
    N ≤ sched.count i → ((Readers.init h roots).run sched).ws[i]? = some ⟨v.toBytes, []⟩ := by
  refine ⟨v.textSteps, fun h roots docs hl hd sched i hv hc => ?_⟩
  have len : ∀ (sched : List Nat) (s : Readers), (s.run sched).ws.length = s.ws.length := by
    intro sched
    induction sched with
    | nil => intro s; rfl
    | cons j r ih =>
      intro s
      have e : s.run (j :: r) = (s.run1 j).run r := rfl
      rw [e, ih]
      unfold Readers.run1
      split <;> simp
  have hi : i < ((Readers.init h roots).run sched).ws.length := by
    rw [len]
    simp only [Readers.init, List.length_map]
    rw [← hl]; exact (List.getElem?_eq_some_iff.1 hv).1
  have hw := List.getElem?_eq_getElem hi
  obtain ⟨t, n, h1, _, h3⟩ := (run_inv sched (init_inv hl hd)).2 i _ hw
  simp only [hv] at h3
  have hz := does_zero h1 (by omega)
  have ho := C74_concurrent_documents hl hd sched i v hv _ hw hz
  rw [hw]
  have eta : ∀ w : Writer, w.todo = [] → w.out = v.toBytes → w = ⟨v.toBytes, []⟩ := by
    rintro ⟨o, t⟩ rfl rfl; rfl
  rw [eta _ hz ho]

/-- **C74, memory.** At every moment, memory is what it was except that the widths of some floats have been settled (neither 32
nor 64 bits: 64); so every document in memory, printed or not, still has the text it had. -/
theorem C74_memory (hl : docs.length = roots.length) (hd : ∀ (i : Nat) v a, docs[i]? = some v → roots[i]? = some a → v.Seen h a)
    (sched : List Nat) :
    (∀ a : Nat, ((Readers.init h roots).run sched).mem[a]? = h[a]? ∨
      ∃ x bit, h[a]? = some (.float x bit) ∧ bit ≠ 32 ∧ bit ≠ 64 ∧ ((Readers.init h roots).run sched).mem[a]? = some (.float x 64)) ∧
    ∀ (v : J) (a : Addr), v.Seen h a → ∃ v' : J, v'.Seen ((Readers.init h roots).run sched).mem a ∧ v'.toBytes = v.toBytes := by
  have hs := (run_inv sched (init_inv hl hd)).1
  refine ⟨fun a => ?_, fun v a hv => seen_settled hs v a hv⟩
  rcases hs.2 a with e | ⟨x, bit, e, e2⟩
  · exact Or.inl e
  · by_cases hb : bit = 32 ∨ bit = 64
    · left
      rw [e, e2]
      rcases hb with rfl | rfl <;> rfl
    · refine Or.inr ⟨x, bit, e, fun h => hb (Or.inl h), fun h => hb (Or.inr h), ?_⟩
      rw [e2]
      have : floatBits bit = 64 := by
        unfold floatBits
        rw [if_pos ⟨fun h => hb (Or.inl h), fun h => hb (Or.inr h)⟩]
      rw [this]

/-- Two goroutines print an array and a dictionary that share a float (with unset width) with each other, and the array twice with
itself; both find the width unset and both write it. -/
def sharedMem : Heap := Heap.base ++ [.float (.fin false 0 0) 0, .arr [some 3, some 3], .dict 0 [(b!"a", some 4), (b!"b", some 3)]]

def sharedDocs : List J :=
  [.arr [.float (.fin false 0 0) 0, .float (.fin false 0 0) 0],
   .dict 0 [(b!"a", .arr [.float (.fin false 0 0) 0, .float (.fin false 0 0) 0]), (b!"b", .float (.fin false 0 0) 0)]]

theorem shared_arr : (J.arr [.float (.fin false 0 0) 0, .float (.fin false 0 0) 0]).Seen sharedMem 4 :=
  ⟨trivial, _, rfl, 3, _, rfl, ⟨trivial, rfl⟩, 3, _, rfl, ⟨trivial, rfl⟩, rfl⟩

theorem shared_seen : ∀ (i : Nat) v a, sharedDocs[i]? = some v → ([4, 5] : List Addr)[i]? = some a → v.Seen sharedMem a := by
  intro i v a hv ha
  match i with
  | 0 =>
    cases hv; cases ha
    exact shared_arr
  | 1 =>
    cases hv; cases ha
    exact ⟨trivial, _, rfl, 4, _, rfl, shared_arr, 3, _, rfl, ⟨trivial, rfl⟩, rfl⟩
  | n + 2 => cases hv

example (sched : List Nat) (w : Writer) (hw : ((Readers.init sharedMem [4, 5]).run sched).ws[1]? = some w) (hd : w.todo = []) :
    w.out = b!"{\"a\":[0,0],\"b\":0}" :=
  C74_concurrent_documents (docs := sharedDocs) rfl shared_seen sched 1 _ rfl w hw hd

/-- The race really occurs: goroutine 0 has read the width and is about to write it, while goroutine 1 has done the same. -/
example : ((Readers.init sharedMem [4, 5]).run [0, 0, 0, 0, 0, 1, 1, 1, 1, 1, 1, 1, 1]).ws.map (·.todo.head?) = [some (.store 3), some (.store 3)] := by
  decide

end Jsonutils.Props
