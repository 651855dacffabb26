import Verif.Proofs.Deprecated
import Verif.Proofs.UnmarshalSession
import Verif.Proofs.FloatRace
import Verif.Model.Locales

/-!
# Deprecated fields, references while unmarshalling, concurrent String(), message catalogue: C41, C42, C44, C45, C47
-/

namespace Jsonutils.Props

/-! ## C41 -/

/-- **C41, termination.** Resolving the deprecated keys ends exactly if from every deprecated key the chain of
replacements ends at a key that is not deprecated, or comes back to the key itself. `todo` is the order in which the Go
map yields its entries. -/
theorem C41_terminates_iff {α : Type} (dep : SMap Bytes) (hd : SMap.Sorted dep) (pairs : List (Bytes × α))
    (todo : List (Bytes × Bytes)) (hp : todo.Perm dep) :
    (∃ fuel ps, depPairs dep fuel pairs todo = some ps) ↔
    ∀ k k', smGet dep k = some k' → (∃ e, DepEnd dep k' e) ∨ DepReach dep k k' := by
  rw [depPairs_terminates dep pairs todo (fun p hm => smGet_of_mem hd (hp.subset hm))]
  constructor
  · intro h k k' hk
    exact h (k, k') (hp.symm.subset (smGet_mem hk))
  · intro h p hm
    exact h p.1 p.2 (smGet_of_mem hd (hp.subset hm))

/-- **C41, result.** When it ends, each deprecated key whose chain ends at a key with a value gets that value, and
nothing else is added; the marshalled dictionary does not depend on the order in which the Go map yields its entries. -/
theorem C41_result {α : Type} (dep : SMap Bytes) (hd : SMap.Sorted dep) (pairs : List (Bytes × α))
    (todo : List (Bytes × Bytes)) (hp : todo.Perm dep) (fuel : Nat) (ps : List (Bytes × α)) (h : depPairs dep fuel pairs todo = some ps) :
    (∀ k v, (k, v) ∈ ps ↔ ∃ k' e, smGet dep k = some k' ∧ DepEnd dep k' e ∧ findValueByKey pairs e = some v) ∧
    (∀ todo' fuel' ps', todo'.Perm dep → depPairs dep fuel' pairs todo' = some ps' →
      (pairs ++ ps').foldl (fun m p => smAdd m p.1 p.2) [] = (pairs ++ ps).foldl (fun m p => smAdd m p.1 p.2) []) := by
  have char : ∀ todo fuel ps, todo.Perm dep → depPairs dep fuel pairs todo = some ps →
      ∀ k v, (k, v) ∈ ps ↔ ∃ k' e, smGet dep k = some k' ∧ DepEnd dep k' e ∧ findValueByKey pairs e = some v := by
    intro todo fuel ps hp h k v
    rw [depPairs_mem h k v]
    constructor
    · rintro ⟨t, e, h1, h2, h3⟩
      exact ⟨t, e, smGet_of_mem hd (hp.subset h1), (chaseDep_sound dep k fuel t).2 e h2, h3⟩
    · rintro ⟨t, e, h1, h2, h3⟩
      have hm : (k, t) ∈ todo := hp.symm.subset (smGet_mem h1)
      refine ⟨t, e, hm, ?_, h3⟩
      obtain ⟨f, hf⟩ := chaseDep_end h2 (depEnd_no_loop h2 k h1)
      -- the run ended, so this chase ended with some result, the same one
      have hr : ∃ r, chaseDep dep k fuel t = some r := by
        clear hp hf h1 h2 h3
        revert ps
        induction todo with
        | nil => cases hm
        | cons p rest ih =>
          obtain ⟨d, t'⟩ := p
          intro ps h
          simp only [depPairs] at h
          cases hc : chaseDep dep d fuel t' with
          | none => rw [hc] at h; cases h
          | some r =>
            rcases List.mem_cons.1 hm with hm | hm
            · cases hm; exact ⟨r, hc⟩
            · rw [hc] at h
              simp only at h
              cases hr : depPairs dep fuel pairs rest with
              | none => rw [hr] at h; cases h
              | some ps' => exact ih hm _ hr
      obtain ⟨r, hr⟩ := hr
      have e1 := chaseDep_mono dep k fuel (max fuel f) t r (Nat.le_max_left ..) hr
      have e2 := chaseDep_mono dep k f (max fuel f) t _ (Nat.le_max_right ..) hf
      rw [e1] at e2; cases e2; exact hr
  refine ⟨char todo fuel ps hp h, ?_⟩
  intro todo' fuel' ps' hp' h'
  have hc := char todo fuel ps hp h
  have hc' := char todo' fuel' ps' hp' h'
  have nd : ∀ todo fuel ps, todo.Perm dep → depPairs dep fuel pairs todo = some ps → (ps.map (·.1)).Nodup := by
    intro todo fuel ps hp h
    refine (depPairs_keys h).nodup ?_
    rw [(hp.map _).nodup_iff]
    rw [List.nodup_iff_pairwise_ne, List.pairwise_map]
    exact hd.imp fun h => blt_ne h
  have n1 := nd todo fuel ps hp h
  have n2 := nd todo' fuel' ps' hp' h'
  have perm : ps'.Perm ps := by
    refine (List.perm_ext_iff_of_nodup ?_ ?_).2 ?_
    · exact List.Pairwise.of_map (·.1) (fun _ _ h e => h (by rw [e])) n2
    · exact List.Pairwise.of_map (·.1) (fun _ _ h e => h (by rw [e])) n1
    · rintro ⟨k, v⟩; rw [hc, hc']
  rw [List.foldl_append, List.foldl_append]
  have hs : SMap.Sorted (pairs.foldl (fun m p => smAdd m p.1 p.2) ([] : SMap α)) :=
    sorted_foldl_smAdd _ _ sorted_nil
  exact foldl_smAdd_perm perm n2 hs

/-- **C41, FALSE in general.** A field deprecated by a field on a cycle (x by a, a by b, b by a): resolving it never
ends, so `Marshal` does not return on such a struct, whatever its values. -/
theorem C41_rho_diverges {α : Type} (fuel : Nat) (pairs : List (Bytes × α)) (todo : List (Bytes × Bytes))
    (hp : todo.Perm [(b!"a", b!"b"), (b!"b", b!"a"), (b!"x", b!"a")]) :
    depPairs [(b!"a", b!"b"), (b!"b", b!"a"), (b!"x", b!"a")] fuel pairs todo = none := by
  have hd : SMap.Sorted ([(b!"a", b!"b"), (b!"b", b!"a"), (b!"x", b!"a")] : SMap Bytes) := by unfold SMap.Sorted; decide
  cases h : depPairs [(b!"a", b!"b"), (b!"b", b!"a"), (b!"x", b!"a")] fuel pairs todo with
  | none => rfl
  | some ps =>
    exfalso
    have := (C41_terminates_iff _ hd pairs todo hp).1 ⟨fuel, ps, h⟩ b!"x" b!"a" rfl
    rcases this with ⟨e, he⟩ | hr
    · have : ∀ k e, DepEnd [(b!"a", b!"b"), (b!"b", b!"a"), (b!"x", b!"a")] k e → k = b!"a" ∨ k = b!"b" → False := by
        intro k e h
        induction h with
        | here hk => rintro (rfl | rfl) <;> exact absurd hk (by decide)
        | next hk _ ih =>
          rintro (rfl | rfl)
          · have : some b!"b" = some _ := hk
            cases this; exact ih (Or.inr rfl)
          · have : some b!"a" = some _ := hk
            cases this; exact ih (Or.inl rfl)
      exact this _ _ he (Or.inl rfl)
    · have : ∀ k, DepReach [(b!"a", b!"b"), (b!"b", b!"a"), (b!"x", b!"a")] b!"x" k → k = b!"a" ∨ k = b!"b" → False := by
        intro k h
        induction h with
        | one hk => rintro (rfl | rfl) <;> exact absurd hk (by decide)
        | next hk _ ih =>
          rintro (rfl | rfl)
          · have : some b!"b" = some _ := hk
            cases this; exact ih (Or.inr rfl)
          · have : some b!"a" = some _ := hk
            cases this; exact ih (Or.inl rfl)
      exact this _ hr (Or.inl rfl)

example : depPairs [(b!"old", b!"mid"), (b!"mid", b!"new")] 3 [(b!"new", 7)] [(b!"mid", b!"new"), (b!"old", b!"mid")] =
    some [(b!"mid", 7), (b!"old", 7)] := by decide
example : depPairs [(b!"a", b!"b"), (b!"b", b!"a")] 3 [(b!"new", 7)] [(b!"a", b!"b"), (b!"b", b!"a")] = some [] := by decide

/-! ## C42 -/

/-- **C42.** Assigning a key ends for every graph of deprecated-by tags (`tags` lists the tags that occur); every field
written is one the key stands for; and if no assignment fails, these are all written. -/
theorem C42_assign {ε : Type} (idx : Bytes → List Nat) (tag : Nat → Option Bytes) (assign : Nat → Option ε) (tags : List Bytes)
    (ht : ∀ i k, tag i = some k → k ∈ tags) (key : Bytes) :
    ∃ written visited err, (∀ fuel, tags.length + 2 ≤ fuel → setStructFieldAt idx tag assign fuel key [] = some (written, visited, err)) ∧
      (∀ i ∈ written, StandsFor idx tag key i) ∧
      (err = none → ∀ i, i ∈ written ↔ StandsFor idx tag key i) ∧
      ((∀ i, assign i = none) → err = none) := by
  have hK : ∀ i k, tag i = some k → k ∈ key :: tags := fun i k h => List.mem_cons_of_mem _ (ht i k h)
  have hu : unvisited (key :: tags) [] < tags.length + 2 := by
    have := List.length_filter_le (fun k => !([] : List Bytes).contains k) (key :: tags)
    unfold unvisited; simp only [List.length_cons] at this; omega
  obtain ⟨r, hr, hok⟩ := setStructFieldAt_ok (idx := idx) (assign := assign) hK (tags.length + 2) key [] (List.mem_cons_self ..) hu
  refine ⟨r.1, r.2.1, r.2.2, ?_, hok.2.2.1, fun he => setOk_complete hok he, fun ha => setStructFieldAt_noerr ha _ _ _ hr⟩
  intro fuel hf
  exact setStructFieldAt_mono hf hr

/-- If moreover no field matches two keys, no field is written twice. -/
theorem C42_once {ε : Type} (idx : Bytes → List Nat) (tag : Nat → Option Bytes) (assign : Nat → Option ε) (key : Bytes) (fuel : Nat)
    (written : List Nat) (visited : List Bytes) (err : Option ε) (hn : ∀ k, (idx k).Nodup) (hd : ∀ k k' i, i ∈ idx k → i ∈ idx k' → k = k')
    (h : setStructFieldAt idx tag assign fuel key [] = some (written, visited, err)) : written.Nodup :=
  (setStructFieldAt_once hn hd _ _ _ _ h).1

/-- A cyclic graph: the fields 0 and 1, named a and b, are deprecated by each other. -/
example : setStructFieldAt (ε := Nat) (fun k => if k = b!"a" then [0] else if k = b!"b" then [1] else [])
    (fun i => if i = 0 then some b!"b" else if i = 1 then some b!"a" else none) (fun _ => none) 4 b!"a" [] =
    some ([0, 1], [b!"b", b!"a"], none) := by decide

/-! ## C44 -/

/-- **C44.** For every sequence of node definitions and references that does not panic: a variable referred to once ends
up with the address saved last before the reference, or, if there was none, with the first one saved after it. -/
theorem C44_reference (asg : Nat → Nat → Bool) (pre post : List UEv) (id : Int) (v : GoVar) (s : USess)
    (h : USess.init.run asg (pre ++ .refer id v :: post) = some s) (h1 : NoRef v pre) (h2 : NoRef v post) :
    s.mem v = ((savesOf id pre).getLast?).or ((savesOf id post).head?) := run_reference h h1 h2

/-- Hence, if a node is always saved with the same address `p`, all its references hold `p`, in whatever order
definitions and references come. -/
theorem C44_any_order (asg : Nat → Nat → Bool) (es : List UEv) (id : Int) (v : GoVar) (p : PVal) (s : USess)
    (h : USess.init.run asg es = some s) (hr : .refer id v ∈ es) (honly : (es.filter fun e => match e with
      | .refer _ w => w = v
      | _ => false) = [.refer id v])
    (hs : .save id p ∈ es) (hp : ∀ q, .save id q ∈ es → q = p) : s.mem v = some p := by
  obtain ⟨pre, post, rfl⟩ := List.append_of_mem hr
  simp only [List.filter_append, List.filter_cons, decide_true, if_true] at honly
  have hl := congrArg List.length honly
  simp only [List.length_append, List.length_cons, List.length_nil] at hl
  have n1 : NoRef v pre := by
    intro i hm
    have : UEv.refer i v ∈ pre.filter fun e => match e with
      | .refer _ w => w = v
      | _ => false := List.mem_filter.2 ⟨hm, by simp⟩
    have := List.length_pos_of_mem this
    omega
  have n2 : NoRef v post := by
    intro i hm
    have : UEv.refer i v ∈ post.filter fun e => match e with
      | .refer _ w => w = v
      | _ => false := List.mem_filter.2 ⟨hm, by simp⟩
    have := List.length_pos_of_mem this
    omega
  rw [C44_reference asg pre post id v s h n1 n2]
  have mem_saves : ∀ q (es : List UEv), q ∈ savesOf id es ↔ .save id q ∈ es := by
    intro q es
    simp only [savesOf, List.mem_filterMap]
    constructor
    · rintro ⟨e, he, hq⟩
      cases e with
      | save i q' =>
        by_cases hi : i = id
        · subst hi; simp at hq; subst hq; exact he
        · simp [hi] at hq
      | refer => cases hq
    · intro h; exact ⟨_, h, by simp⟩
  cases hl : (savesOf id pre).getLast? with
  | some q =>
    have : q ∈ savesOf id pre := List.mem_of_getLast? hl
    rw [hp q (List.mem_append_left _ ((mem_saves q pre).1 this))]; rfl
  | none =>
    have hnil := List.getLast?_eq_none_iff.1 hl
    cases hh : (savesOf id post).head? with
    | some q =>
      have : q ∈ savesOf id post := List.mem_of_mem_head? hh
      rw [hp q (List.mem_append_right _ (List.mem_cons_of_mem _ ((mem_saves q post).1 this)))]; rfl
    | none =>
      exfalso
      have hnil2 := List.head?_eq_none_iff.1 hh
      rcases List.mem_append.1 hs with hm | hm
      · have := (mem_saves p pre).2 hm; rw [hnil] at this; cases this
      · rcases List.mem_cons.1 hm with hm | hm
        · cases hm
        · have := (mem_saves p post).2 hm; rw [hnil2] at this; cases this

/-- **C44, panics.** The run panics exactly if some reference is to be set from an address of a type that is not assignable:
the last one saved before the reference, or a first one saved while the reference waits. -/
theorem C44_panic_iff (asg : Nat → Nat → Bool) (es : List UEv) :
    USess.init.run asg es = none ↔
    (∃ pre id v post p, es = pre ++ .refer id v :: post ∧ (savesOf id pre).getLast? = some p ∧ asg p.ty v.ty = false) ∨
    (∃ pre id p post v, es = pre ++ .save id p :: post ∧ savesOf id pre = [] ∧ v ∈ refersOf id pre ∧ asg p.ty v.ty = false) := by
  have key := run_isSome asg es tracks_init
  simp only [List.nil_append] at key
  constructor
  · intro hn
    rw [hn] at key
    simp only [Option.isSome_none, Bool.false_eq_true, false_iff] at key
    apply Classical.byContradiction
    intro hno
    apply key
    intro pre e post heq
    cases e with
    | save i p =>
      intro h1 v hv
      cases ha : asg p.ty v.ty with
      | true => rfl
      | false => exact absurd (Or.inr ⟨pre, i, p, post, v, heq, h1, hv, ha⟩) hno
    | refer i v =>
      intro p h1
      cases ha : asg p.ty v.ty with
      | true => rfl
      | false => exact absurd (Or.inl ⟨pre, i, v, post, p, heq, h1, ha⟩) hno
  · intro h
    cases hr : USess.init.run asg es with
    | none => rfl
    | some s =>
      exfalso
      rw [hr] at key
      have key := key.1 rfl
      rcases h with ⟨pre, id, v, post, p, h1, h2, h3⟩ | ⟨pre, id, p, post, v, h1, h2, h3, h4⟩
      · have := key pre _ post h1 p h2
        rw [this] at h3; cases h3
      · have := key pre _ post h1 h2 v h3
        rw [this] at h4; cases h4

/-- **C44, FALSE for pointer variables.** A reference that comes before the dictionary it refers to, where the dictionary
is unmarshalled into a pointer variable: the address of the pointer variable itself is saved first, and assigning it to
the waiting reference panics. Such documents are what `Marshal` yields for `struct{B, A *N}` with `B == A` pointing to a
node that points to itself (keys are sorted, so `a` comes before `b`). -/
theorem C44_pointer_definition_panics (asg : Nat → Nat → Bool) (id : Int) (a b : GoVar) (pp : Nat) (p : PVal)
    (h : asg pp a.ty = false) : USess.init.run asg (.refer id a :: dictIntoPointer id b pp p) = none := by
  rw [C44_panic_iff]
  exact Or.inr ⟨[.refer id a], id, ⟨b.addr, pp⟩, [.save id p], a, rfl, by simp [savesOf], by simp [refersOf], h⟩

/-- The other order works: after the two saves the reference gets the pointee. -/
theorem C44_pointer_definition_first (asg : Nat → Nat → Bool) (id : Int) (a b : GoVar) (pp : Nat) (p : PVal) (h : asg p.ty a.ty = true) :
    ∃ s, USess.init.run asg (dictIntoPointer id b pp p ++ [.refer id a]) = some s ∧ s.mem a = some p := by
  cases hr : USess.init.run asg (dictIntoPointer id b pp p ++ [.refer id a]) with
  | none =>
    exfalso
    simp [dictIntoPointer, USess.run, USess.step, USess.saveNodeValue, USess.setPointerValue, USess.init, omGet, omSet, setTargets, reflectSet, h] at hr
  | some s =>
    refine ⟨s, rfl, ?_⟩
    have := C44_reference asg (dictIntoPointer id b pp p) [] id a s hr (by intro i; simp [dictIntoPointer]) (by intro i; simp)
    simpa [dictIntoPointer, savesOf] using this

example : ∃ s, USess.init.run (fun a b => a == b) [.refer 1 ⟨100, 7⟩, .save 2 ⟨9, 7⟩, .save 1 ⟨8, 7⟩, .refer 1 ⟨101, 7⟩] = some s ∧
    s.mem ⟨100, 7⟩ = some ⟨8, 7⟩ ∧ s.mem ⟨101, 7⟩ = some ⟨8, 7⟩ := ⟨_, rfl, rfl, rfl⟩

/-! ## C45 -/

/-- **C45.** Any number of goroutines call `String()` on the same float, in any interleaving of their reads and writes of
the width field: whoever has finished got the text a sequential call returns. -/
theorem C45_concurrent_string (x : GoFloat) (bit n : Nat) (sched : List Nat) (t : Bytes)
    (h : .done t ∈ ((strInit bit n).run x sched).pcs) : t = (J.float x bit).toBytes := by
  have := (strRun_inv (x := x) (bit0 := bit) sched (strInit_inv x bit n)).2 _ h
  exact this.1

/-- Every goroutine that gets four steps has finished. -/
theorem C45_wait_free (x : GoFloat) (bit n : Nat) (sched : List Nat) (i : Nat) (hi : i < n) (h : 4 ≤ sched.count i) :
    ∃ t, ((strInit bit n).run x sched).pcs[i]? = some (.done t) := by
  obtain ⟨pc, h1, h2⟩ := run_left x sched (strInit bit n) i .first (by simp [strInit, hi])
  have : pc.left = 0 := by
    have : StrPC.first.left = 4 := rfl
    omega
  cases pc <;> simp [StrPC.left] at this
  exact ⟨_, h1⟩

/-- And the width field, which later calls use, is settled: once somebody has finished it is the width of the text, and
a further call changes nothing. -/
theorem C45_settled (x : GoFloat) (bit n : Nat) (sched : List Nat) (t : Bytes) (h : .done t ∈ ((strInit bit n).run x sched).pcs) :
    ((strInit bit n).run x sched).bit = floatBits bit := by
  have := (strRun_inv (x := x) (bit0 := bit) sched (strInit_inv x bit n)).2 _ h
  exact this.2

/-- Two goroutines, both of which find the width unset and write it. -/
example : ((strInit 0 2).run (.fin false 0 0) [0, 0, 1, 1, 0, 1, 1, 0]).pcs = [.done b!"0", .done b!"0"] := by decide

/-! ## C47 -/

/-- **C47.** Every error message of the package has an English catalogue entry, which is the message itself (after the
marker byte 2 of the catalogue format). -/
theorem C47_english_complete : ∀ m ∈ errorMessages, enUS.lookup m = .found (2 :: m) := by decide +kernel

/-- No lookup panics, for any key; keys without a message are reported missing. -/
theorem C47_no_panic (key : Bytes) : enUS.lookup key ≠ .panic ∧ zhCN.lookup key ≠ .panic := by
  have all : ∀ e ∈ messageKeyToIndex, enUS.lookup e.1 ≠ .panic ∧ zhCN.lookup e.1 ≠ .panic := by decide +kernel
  have mem : ∀ (m : List (Bytes × Nat)) i, keyIndex m key = some i → ∃ j, (key, j) ∈ m := by
    intro m
    induction m with
    | nil => intro i h; cases h
    | cons e r ih =>
      obtain ⟨k, j⟩ := e
      intro i h
      simp only [keyIndex] at h
      split at h
      · rename_i hk; subst hk; exact ⟨j, List.mem_cons_self ..⟩
      · obtain ⟨j', hj⟩ := ih i h; exact ⟨j', List.mem_cons_of_mem _ hj⟩
  cases hk : keyIndex messageKeyToIndex key with
  | none => simp [Catalogue.lookup, hk]
  | some i =>
    obtain ⟨j, hj⟩ := mem _ _ hk
    exact all _ hj

/-- The Chinese catalogue has an entry for every message but one, for which the lookup reports it missing. -/
theorem C47_chinese : ∀ m ∈ errorMessages, zhCN.lookup m = .missing ↔
    m = b!"do not known how to deserialize json into this interface type" := by decide +kernel

/-- The keys of the table are exactly the messages, without repetitions, and their positions are those of the tables. -/
theorem C47_table : (∀ e ∈ messageKeyToIndex, e.1 ∈ errorMessages ∧ e.2 + 1 < enUS.index.length ∧ e.2 + 1 < zhCN.index.length) ∧
    (messageKeyToIndex.map (·.1)).Nodup ∧ (messageKeyToIndex.map (·.2)).Nodup ∧ messageKeyToIndex.length = errorMessages.length ∧
    enUS.index.getLast? = some enUS.data.length ∧ zhCN.index.getLast? = some zhCN.data.length := by decide +kernel

end Jsonutils.Props
