import Verif.Model.Deserialize
import Verif.Proofs.Dict
import Verif.Props.Lenient

/-!
# C73: `JSONDeserialize`

`jsonDeserialize P t s` is `JSONDeserialize(t, s)`.
-/

namespace Jsonutils.Props
open Jsonutils Jsonutils.Lenient

private theorem update_empty {kvs : SMap J} (id : Int) (h : (J.dict id kvs).WF) : dictUpdate [] (.dict id kvs) = kvs := by
  have hs : SMap.Sorted ([] : SMap J) := by simp [SMap.Sorted]
  refine sorted_ext (dictUpdate_sorted hs _) (by simpa [J.WF] using h.1) fun k => ?_
  rw [smGet_dictUpdate hs _ h]
  simp [J.asMap, smGet]

/-- Does the text denote a document of this description (behind blanks, ignoring what follows: C52)? -/
def Denotes (s : Bytes) (p : J → Prop) : Prop := ∃ w u v ids r, s = w ++ u ∧ Blanks w ∧ Value u v ids r ∧ ids.Nodup ∧ p v

private theorem denotes_iff (s : Bytes) (p : J → Prop) : Denotes s p ↔ ∃ v, parse s = .ok v ∧ p v := by
  constructor
  · rintro ⟨w, u, v, ids, r, h1, h2, h3, h4, h5⟩
    exact ⟨v, (C52_accepts s v).2 ⟨w, u, ids, r, h1, h2, h3, h4⟩, h5⟩
  · rintro ⟨v, h, hp⟩
    obtain ⟨w, u, ids, r, h1, h2, h3, h4⟩ := (C52_accepts s v).1 h
    exact ⟨w, u, v, ids, r, h1, h2, h3, h4, hp⟩

/-- A number, a boolean, null or a reference. -/
def Bare : J → Prop
  | .null => True
  | .bool _ => True
  | .int _ => True
  | .float _ _ => True
  | .ptr _ => True
  | _ => False

private theorem des_ok {P : UEnv} {t : SerType} {s : Bytes} (ht : t ≠ .other) (w : J) :
    jsonDeserialize P t s = .ok w ↔ ∃ v, parse s = .ok v ∧
      (match t.fresh with | none => DesOut.ok v | some (ty, x) => fillFresh P v ty x) = .ok w := by
  unfold jsonDeserialize
  rw [if_neg ht]
  constructor
  · intro h
    cases hp : parse s with
    | ok v => rw [hp] at h; exact ⟨v, rfl, h⟩
    | err e => rw [hp] at h; cases h
    | panic p => rw [hp] at h; cases h
    | diverge => rw [hp] at h; cases h
  · rintro ⟨v, hp, h⟩
    rw [hp]; exact h

/-- **C73.** What `JSONDeserialize` returns, for every text.  As a JSONObject: the document the text denotes.  As a dictionary:
the dictionary the text denotes, without its node id; and the empty dictionary if the text denotes a number, a boolean, null or a
reference.  As an array: the array the text denotes, or the empty array likewise. -/
theorem C73_exact (P : UEnv) (s : Bytes) (w : J) :
    (jsonDeserialize P .object s = .ok w ↔ Denotes s (· = w)) ∧
    (jsonDeserialize P .dictPtr s = .ok w ↔
      (∃ id kvs, Denotes s (· = .dict id kvs) ∧ w = .dict 0 kvs) ∨ (Denotes s Bare ∧ w = .dict 0 [])) ∧
    (jsonDeserialize P .arrayPtr s = .ok w ↔
      (∃ xs, Denotes s (· = .arr xs) ∧ w = .arr xs) ∨ (Denotes s Bare ∧ w = .arr [])) := by
  refine ⟨?_, ?_, ?_⟩
  · rw [des_ok (by decide), denotes_iff]
    refine exists_congr fun v => and_congr_right fun _ => ?_
    simp [SerType.fresh]
  · rw [des_ok (by decide)]
    simp only [denotes_iff]
    constructor
    · rintro ⟨v, hp, h⟩
      cases v with
      | dict id kvs =>
        refine Or.inl ⟨id, kvs, ⟨_, hp, rfl⟩, ?_⟩
        have e := update_empty id (C07_parsed_well_formed s _ hp).1
        simp only [SerType.fresh, fillFresh, J.unmarshal, J.unm, UEnv.alloc, newDict, List.foldl_nil, dictInto, uok, e, DesOut.ok.injEq] at h
        exact h.symm
      | str x => simp [SerType.fresh, fillFresh, J.unmarshal, J.unm, UEnv.alloc, unmStr, uerr, newDict] at h
      | arr x => simp [SerType.fresh, fillFresh, J.unmarshal, J.unm, UEnv.alloc, arrInto, uerr, newDict] at h
      | _ =>
        refine Or.inr ⟨⟨_, hp, trivial⟩, ?_⟩
        simp only [SerType.fresh, fillFresh, J.unmarshal, uok, UEnv.zero, Ty.zeroIn, JKind.zero, DesOut.ok.injEq] at h
        exact h.symm
    · rintro (⟨id, kvs, ⟨v, hp, rfl⟩, rfl⟩ | ⟨⟨v, hp, hb⟩, rfl⟩)
      · refine ⟨_, hp, ?_⟩
        have e := update_empty id (C07_parsed_well_formed s _ hp).1
        simp only [SerType.fresh, fillFresh, J.unmarshal, J.unm, UEnv.alloc, newDict, List.foldl_nil, dictInto, uok, e]
      · refine ⟨v, hp, ?_⟩
        cases v <;> first | exact hb.elim | rfl
  · rw [des_ok (by decide)]
    simp only [denotes_iff]
    constructor
    · rintro ⟨v, hp, h⟩
      cases v with
      | arr xs =>
        refine Or.inl ⟨xs, ⟨_, hp, rfl⟩, ?_⟩
        simp only [SerType.fresh, fillFresh, J.unmarshal, J.unm, UEnv.alloc, newArray, arrInto, uok, List.nil_append, DesOut.ok.injEq] at h
        exact h.symm
      | str x => simp [SerType.fresh, fillFresh, J.unmarshal, J.unm, UEnv.alloc, unmStr, uerr, newArray] at h
      | dict id x => simp [SerType.fresh, fillFresh, J.unmarshal, J.unm, UEnv.alloc, dictInto, uerr, newArray] at h
      | _ =>
        refine Or.inr ⟨⟨_, hp, trivial⟩, ?_⟩
        simp only [SerType.fresh, fillFresh, J.unmarshal, uok, UEnv.zero, Ty.zeroIn, JKind.zero, DesOut.ok.injEq] at h
        exact h.symm
    · rintro (⟨xs, ⟨v, hp, rfl⟩, rfl⟩ | ⟨⟨v, hp, hb⟩, rfl⟩)
      · refine ⟨_, hp, ?_⟩
        simp only [SerType.fresh, fillFresh, J.unmarshal, J.unm, UEnv.alloc, newArray, arrInto, uok, List.nil_append]
      · refine ⟨v, hp, ?_⟩
        cases v <;> first | exact hb.elim | rfl

/-- **C73, otherwise.** A type that is not registered is an error, whatever the text.  For the three registered types: a text
`Parse` rejects is an error; a quoted or bare text, and the other kind of container, is a type mismatch; it panics exactly where
`Parse` does (C06); there is no other outcome. -/
theorem C73_errors (P : UEnv) (t : SerType) (s : Bytes) :
    jsonDeserialize P .other s = .notSerializable ∧
    (t ≠ .other → (∀ e, jsonDeserialize P t s = .parse e ↔ parse s = .err e) ∧
      (jsonDeserialize P t s = .panic ↔ NoValue s ∨ BadNodeId s ∨ SameNodeId s)) ∧
    (jsonDeserialize P .dictPtr s = .unmarshal .mismatch ↔ Denotes s fun v => (∃ x, v = .str x) ∨ ∃ xs, v = .arr xs) ∧
    (jsonDeserialize P .arrayPtr s = .unmarshal .mismatch ↔ Denotes s fun v => (∃ x, v = .str x) ∨ ∃ id kvs, v = .dict id kvs) ∧
    (∀ e, jsonDeserialize P t s = .unmarshal e → e = .mismatch) ∧
    (t ≠ .other → jsonDeserialize P t s ≠ .notSerializable) ∧ jsonDeserialize P t s ≠ .diverge := by
  have hd : parse s ≠ .diverge := by
    intro h
    have := (C05_terminates_in_range s 0).1
    unfold parse at h
    cases h2 : parseStream s 0 <;> rw [h2] at h <;> simp_all
  have hp3 := C06_panics_iff s
  have hpanic : (∃ p, parse s = .panic p) ↔ NoValue s ∨ BadNodeId s ∨ SameNodeId s := by
    rw [← hp3.1, ← hp3.2.1, ← hp3.2.2]
    constructor
    · rintro ⟨p, h⟩
      cases p <;> simp [h]
    · rintro (h | h | h) <;> exact ⟨_, h⟩
  have hno : ∀ v ty x, t.fresh = some (ty, x) → fillFresh P v ty x ≠ .panic ∧ (∀ e, fillFresh P v ty x ≠ .parse e) ∧
      fillFresh P v ty x ≠ .notSerializable ∧ fillFresh P v ty x ≠ .diverge ∧ ∀ e, fillFresh P v ty x = .unmarshal e → e = .mismatch := by
    intro v ty x h
    cases t with
    | other => cases h
    | object => cases h
    | dictPtr =>
      cases h
      cases v <;> refine ⟨?_, ?_, ?_, ?_, ?_⟩ <;>
        simp [fillFresh, J.unmarshal, J.unm, UEnv.alloc, unmStr, arrInto, dictInto, uerr, uok, newDict, UEnv.zero, Ty.zeroIn]
    | arrayPtr =>
      cases h
      cases v <;> refine ⟨?_, ?_, ?_, ?_, ?_⟩ <;>
        simp [fillFresh, J.unmarshal, J.unm, UEnv.alloc, unmStr, arrInto, dictInto, uerr, uok, newArray, UEnv.zero, Ty.zeroIn]
  refine ⟨rfl, fun ht => ⟨fun e => ?_, ?_⟩, ?_, ?_, ?_, ?_, ?_⟩
  · unfold jsonDeserialize
    rw [if_neg ht]
    cases hp : parse s with
    | ok v =>
      cases hf : t.fresh with
      | none => simp
      | some q => simpa using (hno v q.1 q.2 hf).2.1 e
    | _ => simp
  · rw [← hpanic]
    unfold jsonDeserialize
    rw [if_neg ht]
    cases hp : parse s with
    | ok v =>
      cases hf : t.fresh with
      | none => simp
      | some q => simpa using (hno v q.1 q.2 hf).1
    | _ => simp
  · rw [denotes_iff]
    unfold jsonDeserialize
    rw [if_neg (by decide)]
    cases hp : parse s with
    | ok v =>
      cases v <;> simp [SerType.fresh, fillFresh, J.unmarshal, J.unm, UEnv.alloc, unmStr, arrInto, dictInto, uerr, uok, newDict, UEnv.zero, Ty.zeroIn]
    | _ => simp
  · rw [denotes_iff]
    unfold jsonDeserialize
    rw [if_neg (by decide)]
    cases hp : parse s with
    | ok v =>
      cases v <;> simp [SerType.fresh, fillFresh, J.unmarshal, J.unm, UEnv.alloc, unmStr, arrInto, dictInto, uerr, uok, newArray, UEnv.zero, Ty.zeroIn]
    | _ => simp
  · intro e h
    unfold jsonDeserialize at h
    split at h
    · cases h
    · cases hp : parse s with
      | ok v =>
        rw [hp] at h
        cases hf : t.fresh with
        | none => rw [hf] at h; cases h
        | some q => rw [hf] at h; exact (hno v q.1 q.2 hf).2.2.2.2 e h
      | _ => rw [hp] at h; cases h
  · intro ht
    unfold jsonDeserialize
    rw [if_neg ht]
    cases hp : parse s with
    | ok v =>
      cases hf : t.fresh with
      | none => simp
      | some q => simpa using (hno v q.1 q.2 hf).2.2.1
    | _ => simp
  · unfold jsonDeserialize
    split
    · simp
    · cases hp : parse s with
      | ok v =>
        cases hf : t.fresh with
        | none => simp
        | some q => simpa using (hno v q.1 q.2 hf).2.2.2.1
      | diverge => exact absurd hp hd
      | _ => simp

/-- **C73, round trip.** The text of any document without references is deserialised to that document, as JSONObject and, if it is a
dictionary or an array, as that type (floats as their text is read: C01). -/
theorem C73_round_trip (P : UEnv) (v : J) (hw : v.WF) (hp : v.Plain) :
    jsonDeserialize P .object v.toBytes = .ok v.reread ∧
    (v.IsDict → jsonDeserialize P .dictPtr v.toBytes = .ok v.reread) ∧
    ((∃ xs, v = .arr xs) → jsonDeserialize P .arrayPtr v.toBytes = .ok v.reread) := by
  have h : parse v.toBytes = .ok v.reread := by
    unfold parse; rw [(C01_round_trip v hw hp).1]
  have hd := fun w => (denotes_iff v.toBytes (· = w)).2 
  refine ⟨((C73_exact P _ _).1).2 (hd _ ⟨_, h, rfl⟩), fun hv => ?_, ?_⟩
  · cases v with
    | dict id kvs =>
      have h0 : id = 0 := by simpa [J.Plain] using hp.1
      subst h0
      exact ((C73_exact P _ _).2.1).2 (Or.inl ⟨_, _, hd _ ⟨_, h, rfl⟩, rfl⟩)
    | _ => exact absurd hv (by simp [J.IsDict])
  · rintro ⟨xs, rfl⟩
    exact ((C73_exact P _ _).2.2).2 (Or.inl ⟨_, hd _ ⟨_, h, rfl⟩, rfl⟩)

example : jsonDeserialize ⟨[], fun _ _ => [], fun _ => false, fun _ => false, fun _ => false, fun _ => 0⟩ .dictPtr sample.toBytes = .ok sample.reread :=
  (C73_round_trip _ sample sample_wf sample_plain).2.1 trivial

/-- **C73, findings.** A number where a dictionary was expected is silently the empty dictionary; and the node id of the outermost
dictionary is dropped, so that references to it, which the text as a JSONObject keeps, no longer have a target. -/
theorem C73_witness (P : UEnv) :
    jsonDeserialize P .dictPtr b!"42" = .ok (.dict 0 []) ∧ jsonDeserialize P .arrayPtr b!"false" = .ok (.arr []) ∧
    jsonDeserialize P .dictPtr b!"{\"___jnid_\":1,\"me\":<1>}" = .ok (.dict 0 [(b!"me", .ptr 1)]) ∧
    jsonDeserialize P .object b!"{\"___jnid_\":1,\"me\":<1>}" = .ok (.dict 1 [(b!"me", .ptr 1)]) :=
  ⟨rfl, rfl, rfl, rfl⟩

end Jsonutils.Props
