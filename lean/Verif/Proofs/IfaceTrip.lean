import Verif.Spec.GoValue
import Verif.Spec.Dict
import Verif.Proofs.MarshalMap
import Verif.Proofs.GraphMar

namespace Jsonutils

variable {ord : SMap Bytes → List (Bytes × Bytes)} {sort : List (MapKey × GV) → List (MapKey × GV)}

/-- An element of interface type. -/
def Iface.boxed : Iface → GU
  | .nil => .leaf .nil
  | x => .iface x.go

theorem goElems_cons (x : Iface) (xs : List Iface) : Iface.goElems (x :: xs) = x.boxed :: Iface.goElems xs := by
  cases x <;> simp [Iface.goElems, Iface.boxed]

theorem goEntries_cons (k : Bytes) (x : Iface) (xs : List (Bytes × Iface)) :
    Iface.goEntries ((k, x) :: xs) = (.text k none, x.boxed) :: Iface.goEntries xs := by
  cases x <;> simp [Iface.goEntries, Iface.boxed]

/-- What the call makes of a document's Go value. -/
def J.kept (oe : Bool) (v : J) : J := if oe then v.renewed.noNulls else v.renewed
def J.keepts (oe : Bool) (xs : List J) : List J := if oe then J.noNullss (J.reneweds xs) else J.reneweds xs
def J.keeptf (oe : Bool) (xs : List (Bytes × J)) : List (Bytes × J) := if oe then J.noNullsf (J.renewedf xs) else J.renewedf xs

theorem renewedf_keys : ∀ kvs : List (Bytes × J), (J.renewedf kvs).map (·.1) = kvs.map (·.1)
  | [] => rfl
  | (k, x) :: r => by simp [J.renewedf, renewedf_keys r]

theorem noNullsf_keys : ∀ kvs : List (Bytes × J), ((J.noNullsf kvs).map (·.1)).Sublist (kvs.map (·.1))
  | [] => by simp [J.noNullsf]
  | (k, x) :: r => by
    rw [J.noNullsf]
    split
    · exact (noNullsf_keys r).cons _
    · exact (noNullsf_keys r).cons_cons _

theorem keeptf_sorted (oe : Bool) {kvs : List (Bytes × J)} (h : SMap.Sorted kvs) : SMap.Sorted (J.keeptf oe kvs) := by
  have h0 : SMap.Sorted (J.renewedf kvs) := sorted_by_keys (renewedf_keys kvs) h
  unfold J.keeptf
  split
  · have h1 : ((J.renewedf kvs).map (·.1)).Pairwise (fun a b => blt a b = true) := List.pairwise_map.2 h0
    exact List.pairwise_map.1 (h1.sublist (noNullsf_keys _))
  · exact h0

theorem entries_walk (sort : List (MapKey × GV) → List (MapKey × GV)) : ∀ kvs : List (Bytes × J),
    GU.walkm sort (Iface.goEntries (J.interfacef kvs)) = kvs.map fun e => (.text e.1 none, (e.2.interface.boxed).walk sort)
  | [] => rfl
  | (k, x) :: r => by
    simp [J.interfacef, goEntries_cons, GU.walkm, entries_walk sort r]

theorem entries_sorted (hs : GoSort sort) {kvs : List (Bytes × J)} (h : SMap.Sorted kvs) (f : J → GV) :
    sort (kvs.map fun e => (MapKey.text e.1 none, f e.2)) = kvs.map fun e => (.text e.1 none, f e.2) := by
  refine goSorted_eq _ _ (hs _).1 ?_ (hs _).2 ?_
  · refine (((hs _).1.map (·.1.sortText)).nodup_iff).2 ?_
    rw [List.map_map]
    exact (List.pairwise_map.2 (h.imp fun {a b} hab heq => by
      simp only [Function.comp, MapKey.sortText] at heq
      rw [heq, blt_irrefl] at hab; cases hab) : (kvs.map ((fun x : MapKey × GV => x.1.sortText) ∘ fun e => (MapKey.text e.1 none, f e.2))).Pairwise (· ≠ ·))
  · refine List.pairwise_map.2 (h.imp fun {a b} hab => ?_)
    show blt b.1 a.1 = false
    cases h2 : blt b.1 a.1 with
    | false => rfl
    | true => have := blt_trans hab h2; rw [blt_irrefl] at this; cases this

section
variable {oe : Bool} {deref : MSess → Option FInfo → Nat → Option (MSess × Option MJ)}

/-- The document of a marshalled element, if it is kept. -/
def Goes (oe : Bool) (v : J) (o : Option MJ) : Prop :=
  (v.interface = .nil ∧ o = if oe then none else some (.json .null)) ∨
    (v.interface ≠ .nil ∧ ∃ m, o = some m ∧ ∀ live pick, m.finish live pick = v.kept oe)

theorem nil_renewed {v : J} (h : v.interface = .nil) : v.renewed = .null := by
  cases v <;> simp [J.interface] at h <;> rfl

theorem not_nil_renewed {v : J} (h : v.interface ≠ .nil) : v.renewed.isNullLit = false := by
  cases v <;> simp [J.interface] at h <;> rfl

mutual
theorem mar_go (hs : GoSort sort) : ∀ (v : J), v.WF → ∀ s, ∃ o, GV.mar ord oe deref (v.interface.go.walk sort) s none = some (s, o) ∧ Goes oe v o
  | .null, _, s => ⟨_, rfl, .inl ⟨rfl, by cases oe <;> rfl⟩⟩
  | .ptr _, _, s => ⟨_, rfl, .inl ⟨rfl, by cases oe <;> rfl⟩⟩
  | .bool b, _, s => ⟨some (.json (.bool b)), by simp [J.interface, Iface.go, GU.walk, GV.mar, Leaf.marshal, marshalBoolean, optFalse, optForce],
      by
        refine .inr ⟨(by simp [J.interface]), _, rfl, fun _ _ => ?_⟩
        cases oe <;> simp [J.kept, MJ.finish, J.renewed, J.noNulls]⟩
  | .int n, _, s => ⟨some (.json (.int n)), by simp [J.interface, Iface.go, GU.walk, GV.mar, Leaf.marshal, marshalInt64, optZero, optForce, newInt],
      by
        refine .inr ⟨(by simp [J.interface]), _, rfl, fun _ _ => ?_⟩
        cases oe <;> simp [J.kept, MJ.finish, J.renewed, J.noNulls]⟩
  | .float x b, _, s => ⟨some (.json (.float x 64)), by simp [J.interface, Iface.go, GU.walk, GV.mar, Leaf.marshal, marshalFloat64, optZero, optForce, newFloat64],
      by
        refine .inr ⟨(by simp [J.interface]), _, rfl, fun _ _ => ?_⟩
        cases oe <;> simp [J.kept, MJ.finish, J.renewed, J.noNulls]⟩
  | .str t, _, s => ⟨some (.json (.str t)), by simp [J.interface, Iface.go, GU.walk, GV.mar, Leaf.marshal, marshalString, optEmpty],
      by
        refine .inr ⟨(by simp [J.interface]), _, rfl, fun _ _ => ?_⟩
        cases oe <;> simp [J.kept, MJ.finish, J.renewed, J.noNulls]⟩
  | .arr xs, hv, s => by
    obtain ⟨ms, h1, h2⟩ := mars_go hs xs hv s
    refine ⟨some (.arr ms), ?_, ?_⟩
    · simp [J.interface, Iface.go, GU.walk, GV.mar, h1, optEmpty, forceStr, optForce]
    · have : (J.arr xs).interface ≠ .nil := by simp [J.interface]
      refine .inr ⟨this, _, rfl, fun live pick => ?_⟩
      rw [MJ.finish, h2]
      cases oe <;> simp [J.kept, J.keepts, J.renewed, J.noNulls]
  | .dict id kvs, hv, s => by
    obtain ⟨ms, h1, h2⟩ := marm_go hs kvs hv.2 s
    have hk : SMap.Sorted ms := by
      refine sorted_by_keys (b := J.keeptf oe kvs) ?_ (keeptf_sorted oe hv.1)
      rw [← h2 (fun _ => false) (fun _ => 0), finishf_map, List.map_map]
      rfl
    refine ⟨some (.dict [] ms), ?_, ?_⟩
    · simp only [J.interface, Iface.go, GU.walk, entries_walk, entries_sorted hs hv.1 fun x => x.interface.boxed.walk sort, List.map_map, GV.mar,
        optEmpty, Bool.false_eq_true, false_and, and_false, if_false]
      have : (kvs.map ((fun e : MapKey × GV => (e.1.shown, e.2)) ∘ fun e => (MapKey.text e.1 none, e.2.interface.boxed.walk sort))) =
          kvs.map fun e => (e.1, e.2.interface.boxed.walk sort) := rfl
      rw [this, h1]
      simp [forceStr, optForce, pairsDict_id hk]
    · have : (J.dict id kvs).interface ≠ .nil := by simp [J.interface]
      refine .inr ⟨this, _, rfl, fun live pick => ?_⟩
      rw [MJ.finish, h2]
      cases oe <;> simp [J.kept, J.keeptf, J.renewed, J.noNulls]
theorem mars_go (hs : GoSort sort) : ∀ (xs : List J), J.WFs xs → ∀ s, ∃ ms, GV.mars ord oe deref (GU.walks sort (Iface.goElems (J.interfaces xs))) s = some (s, ms) ∧
    ∀ live pick, MJ.finishs live pick ms = J.keepts oe xs
  | [], _, s => ⟨[], rfl, fun _ _ => by cases oe <;> rfl⟩
  | x :: xs, hv, s => by
    obtain ⟨ms, h1, h2⟩ := mars_go hs xs hv.2 s
    obtain ⟨o, h3, h4⟩ := mar_go hs x hv.1 s
    have h5 : GV.mar ord oe deref (x.interface.boxed.walk sort) s none = some (s, o) := by
      rw [← h3]; cases x <;> simp [J.interface, Iface.boxed, GU.walk, GV.mar, Iface.go]
    simp only [J.interfaces, goElems_cons, GU.walks, GV.mars, h5, h1]
    rcases h4 with ⟨hn, h4⟩ | ⟨hn, m, h4, hm⟩
    · subst h4
      cases oe with
      | true => exact ⟨ms, rfl, fun live pick => by rw [h2]; simp [J.keepts, J.reneweds, J.noNullss, nil_renewed hn, J.isNullLit]⟩
      | false => exact ⟨_ :: ms, rfl, fun live pick => by simp [MJ.finishs, h2, J.keepts, J.reneweds, nil_renewed hn, MJ.finish]⟩
    · subst h4
      refine ⟨m :: ms, rfl, fun live pick => ?_⟩
      rw [MJ.finishs, h2, hm]
      cases oe <;> simp [J.keepts, J.reneweds, J.noNullss, J.kept, not_nil_renewed hn]
theorem marm_go (hs : GoSort sort) : ∀ (kvs : List (Bytes × J)), J.WFf kvs → ∀ s, ∃ ms, GV.marm ord oe deref (kvs.map fun e => (e.1, e.2.interface.boxed.walk sort)) s = some (s, ms) ∧
    ∀ live pick, MJ.finishf live pick ms = J.keeptf oe kvs
  | [], _, s => ⟨[], rfl, fun _ _ => by cases oe <;> rfl⟩
  | (k, x) :: xs, hv, s => by
    obtain ⟨ms, h1, h2⟩ := marm_go hs xs hv.2 s
    obtain ⟨o, h3, h4⟩ := mar_go hs x hv.1 s
    have h5 : GV.mar ord oe deref (x.interface.boxed.walk sort) s none = some (s, o) := by
      rw [← h3]; cases x <;> simp [J.interface, Iface.boxed, GU.walk, GV.mar, Iface.go]
    simp only [List.map_cons, GV.marm, h5, h1]
    rcases h4 with ⟨hn, h4⟩ | ⟨hn, m, h4, hm⟩
    · subst h4
      cases oe with
      | true => exact ⟨ms, rfl, fun live pick => by rw [h2]; simp [J.keeptf, J.renewedf, J.noNullsf, nil_renewed hn, J.isNullLit]⟩
      | false => exact ⟨_ :: ms, rfl, fun live pick => by simp [MJ.finishf, h2, J.keeptf, J.renewedf, nil_renewed hn, MJ.finish]⟩
    · subst h4
      refine ⟨(k, m) :: ms, rfl, fun live pick => ?_⟩
      rw [MJ.finishf, h2, hm]
      cases oe <;> simp [J.keeptf, J.renewedf, J.noNullsf, J.kept, not_nil_renewed hn]
end

end

/-! ### The Go value has text keys, all different -/

mutual
theorem go_keys : ∀ v : J, v.WF → v.interface.go.TextKeys
  | .arr xs, hv => by simp only [J.interface, Iface.go, GU.TextKeys]; exact goElems_keys xs hv
  | .dict _ kvs, hv => by
    simp only [J.interface, Iface.go, GU.TextKeys]
    obtain ⟨h1, h2⟩ := goEntries_keys kvs hv.2
    refine ⟨fun e he => ?_, ?_, h2⟩
    · obtain ⟨k, hk⟩ := List.mem_map.1 ((h1 ▸ List.mem_map.2 ⟨e, he, rfl⟩ : e.1 ∈ kvs.map fun e => MapKey.text e.1 none))
      rw [← hk.2]; trivial
    · have : (Iface.goEntries (J.interfacef kvs)).map (·.1.raw) = kvs.map (·.1) := by
        have := congrArg (List.map MapKey.raw) h1
        simpa [List.map_map, Function.comp_def, MapKey.raw] using this
      rw [this]
      exact (List.pairwise_map.2 (hv.1.imp fun {a b} hab heq => by rw [heq, blt_irrefl] at hab; cases hab) : (kvs.map (·.1)).Pairwise (· ≠ ·))
  | .null, _ => trivial
  | .bool _, _ => trivial
  | .int _, _ => trivial
  | .float _ _, _ => trivial
  | .str _, _ => trivial
  | .ptr _, _ => trivial
theorem goElems_keys : ∀ xs : List J, J.WFs xs → GU.TextKeyss (Iface.goElems (J.interfaces xs))
  | [], _ => trivial
  | x :: xs, hv => by
    rw [J.interfaces, goElems_cons, GU.TextKeyss]
    refine ⟨?_, goElems_keys xs hv.2⟩
    have := go_keys x hv.1
    cases x <;> simp_all [J.interface, Iface.boxed, GU.TextKeys]
theorem goEntries_keys : ∀ kvs : List (Bytes × J), J.WFf kvs → (Iface.goEntries (J.interfacef kvs)).map (·.1) = kvs.map (fun e => MapKey.text e.1 none) ∧
    GU.TextKeysm (Iface.goEntries (J.interfacef kvs))
  | [], _ => ⟨rfl, trivial⟩
  | (k, x) :: xs, hv => by
    rw [J.interfacef, goEntries_cons, GU.TextKeysm]
    obtain ⟨h1, h2⟩ := goEntries_keys xs hv.2
    refine ⟨by simp [h1], ?_, h2⟩
    have := go_keys x hv.1
    cases x <;> simp_all [J.interface, Iface.boxed, GU.TextKeys]
end

theorem marshal_go {pick : List Nat → Nat} {oe : Bool} {h : List GU} (hs : GoSort sort) {v : J} (hv : v.WF) {u : GU} (hu : v.interface.go.Same u) (n : Nat) :
    marshalU sort ord pick oe h n u = some (v.kept oe) := by
  unfold marshalU marshal
  rw [← walk_same hs hs hu (go_keys v hv)]
  have key : ∀ deref, ∃ o, GV.mar ord oe deref (v.interface.go.walk sort) .init none = some (.init, o) ∧ Goes oe v o := fun d => mar_go hs v hv .init
  have : ∃ o, gmar ord oe (GU.walks sort h) n (v.interface.go.walk sort) .init none = some (.init, o) ∧ Goes oe v o := by
    cases n with
    | zero => exact key _
    | succ n => exact key _
  obtain ⟨o, h1, h2⟩ := this
  rw [h1]
  rcases h2 with ⟨hn, h2⟩ | ⟨hn, m, h2, hm⟩
  · subst h2
    cases oe <;> simp [J.kept, nil_renewed hn, J.noNulls, MJ.finish]
  · subst h2
    exact congrArg some (hm _ _)

end Jsonutils
