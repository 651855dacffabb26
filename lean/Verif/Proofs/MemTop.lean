import Verif.Proofs.MemMain
import Verif.Proofs.MemReach
import Verif.Proofs.Dict

/-! # `Unmarshal` in memory and on trees: the entry point -/

namespace Jsonutils

theorem mem_eventsf {kvs : List (Bytes × J)} {k : Bytes} {v : J} (h : (k, v) ∈ kvs) : ∀ e ∈ v.events, e ∈ J.eventsf kvs := by
  induction kvs with
  | nil => cases h
  | cons p kvs ih =>
    obtain ⟨k', v'⟩ := p
    intro e he
    rw [J.eventsf]
    rcases List.mem_cons.1 h with h | h
    · cases h; exact List.mem_append_left _ he
    · exact List.mem_append_right _ (ih h e he)

theorem getLoop_sub : ∀ (keys : List Bytes) (id : Int) (kvs : SMap J) (c : J), (J.dict id kvs).WF → getLoop smGet kvs keys = .ok c →
    c.WF ∧ ∀ e ∈ c.events, e ∈ (J.dict id kvs).events
  | [], _, _, _, _, h => by cases h
  | [k], id, kvs, c, hw, h => by
    simp only [getLoop] at h
    split at h
    · rename_i v hg
      cases h
      exact ⟨wf_smGet hw hg, fun e he => by rw [J.events]; exact List.mem_append_right _ (mem_eventsf (smGet_mem hg) e he)⟩
    · cases h
  | k :: k2 :: ks, id, kvs, c, hw, h => by
    simp only [getLoop] at h
    split at h
    · rename_i i sub hg
      obtain ⟨h1, h2⟩ := getLoop_sub (k2 :: ks) i sub c (wf_smGet hw hg) h
      exact ⟨h1, fun e he => by rw [J.events]; exact List.mem_append_right _ (mem_eventsf (smGet_mem hg) e (h2 e he))⟩
    · cases h
    · cases h

theorem get_sub {j c : J} {keys : List Bytes} (hw : j.WF) (h : j.get keys = .ok c) : c.WF ∧ ∀ e ∈ c.events, e ∈ j.events := by
  cases j with
  | dict id kvs =>
    simp only [J.get, dictGet] at h
    split at h
    · cases h; exact ⟨hw, fun _ h => h⟩
    · exact getLoop_sub keys id kvs c hw h
  | _ => cases h

/-- The conclusion of C63. -/
def Refines (M : List HV) (l : Loc) (F : List Nat) (r : Option (List HV × Option UErr)) (u : URes) : Prop := match u with
  | none => r = none
  | some (v', e) => ∃ M' F', r = some (M', e) ∧ Owns M' l v' F' ∧ OnlyWrites M M' l F ∧ ∀ b ∈ F', b ∈ F ∨ M.length ≤ b

theorem hunmarshal_ref {P : UEnv} (hP : P.Ok) {j : J} (hw : j.WF) (hn : NoResolved j.events) (keys : List Bytes) {t : Ty} (ht : t.Valid P.defs)
    {M : List HV} {l : Loc} {v : UV} {F : List Nat} (ho : Owns M l v F) (hv : v.HasTy P.defs t) :
    Refines M l F (j.hunmarshal P keys t l M) (j.unmarshal P keys t v) := by
  obtain ⟨c, hg, hr, hd⟩ := ho
  let U : Int → Prop := fun id => .use id ∈ j.events
  have own : Own U ⟨M, fun _ => none⟩ l c F v := ⟨hg, hr, hd, fun _ _ h => by cases h⟩
  have fin : ∀ (r : HRes) (u : URes), MRef U ⟨M, fun _ => none⟩ l F r u → Refines M l F (r.map fun r => (r.1.mem, r.2)) u := by
    intro r u h
    match u, h with
    | none, h => exact (by rw [show r = none from h]; rfl)
    | some (v', e), ⟨s', c', F', h1, h2, h3⟩ =>
      exact ⟨s'.mem, F', by rw [h1]; rfl, ⟨c', h3.get, h3.rep, h3.nodup⟩, ⟨h2.out, c', h2.base⟩, h2.sub⟩
  have run : ∀ d : J, d.WF → (∀ e ∈ d.events, e ∈ j.events) →
      Refines M l F ((d.hunm P t l ⟨M, fun _ => none⟩).map fun r => (r.1.mem, r.2)) (d.unm P t v) := fun d hdw hde =>
    fin _ _ (hunm_ref hP d hdw (fun id => ⟨fun h => hde _ h, fun h hu => hn id hu (hde _ h)⟩) t _ l c F v ht own hv)
  have zero : Refines M l F (some ((UH.set ⟨M, fun _ => none⟩ l (P.hzero t)).mem, none)) (uok (P.zero t)) := by
    obtain ⟨h1, h2⟩ := own_leaf own (c' := P.hzero t) (rep_zero P t _)
    exact fin (some (_, none)) _ ⟨_, _, _, rfl, h1, h2⟩
  cases keys with
  | nil =>
    simp only [J.hunmarshal, J.unmarshal]
    cases j with
    | str x => exact run _ hw fun _ h => h
    | arr x => exact run _ hw fun _ h => h
    | dict x y => exact run _ hw fun _ h => h
    | _ => exact zero
  | cons k ks =>
    simp only [J.hunmarshal, J.unmarshal]
    cases hk : j.get (k :: ks) with
    | ok d =>
      obtain ⟨h1, h2⟩ := get_sub hw hk
      exact run d h1 h2
    | err x => exact ⟨M, F, rfl, ⟨c, hg, hr, hd⟩, ⟨fun _ _ _ _ => rfl, c, (Fr.refl (s := ⟨M, fun _ => none⟩) hg F).base⟩, fun b hb => Or.inl hb⟩
    | _ => exact (rfl : (none : Option (List HV × Option UErr)) = none)

end Jsonutils
