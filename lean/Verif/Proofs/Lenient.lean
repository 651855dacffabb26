import Verif.Proofs.LenientLex
import Verif.Proofs.ParseFuel

/-! The lenient grammar agrees with the parser. -/

set_option linter.unusedSimpArgs false

namespace Jsonutils.Lenient
open Rfc

/-! ### Members of a dictionary -/

theorem lastValue_snoc {α} (ms : List (Bytes × α)) (k : Bytes) (v : α) (k' : Bytes) :
    lastValue (ms ++ [(k, v)]) k' = if k = k' then some v else lastValue ms k' := by
  unfold lastValue
  simp only [List.reverse_append, List.reverse_cons, List.reverse_nil, List.nil_append, List.singleton_append, List.find?_cons]
  by_cases h : k = k' <;> simp [h]

/-- jsonutils.go:477-482 on the accumulated entries. -/
def stepM (p : SMap J × Int) (kv : Bytes × J) : SMap J × Int :=
  if kv.1 = jsonPointerKey then
    match kv.2 with
    | .int n => (p.1, n)
    | _ => p
  else (smAdd p.1 kv.1 kv.2, p.2)

def IntIds (ms : List (Bytes × J)) : Prop := ∀ v, (jsonPointerKey, v) ∈ ms → IsInt v

theorem stepM_entries (ms : List (Bytes × J)) : IntIds ms → ∀ m id, ms.foldl stepM ([], 0) = (m, id) → Entries ms m ∧ id = nodeId ms := by
  suffices H : ∀ l : List (Bytes × J), IntIds l.reverse → ∀ m id, l.reverse.foldl stepM ([], 0) = (m, id) →
      Entries l.reverse m ∧ id = nodeId l.reverse by
    intro h m id hf
    have := H ms.reverse (by rw [List.reverse_reverse]; exact h) m id (by rw [List.reverse_reverse]; exact hf)
    rwa [List.reverse_reverse] at this
  intro l
  induction l with
  | nil =>
    intro _ m id h
    cases h
    refine ⟨⟨sorted_nil, ?_⟩, rfl⟩
    intro k
    simp [smGet, lastValue]
  | cons kv l ih =>
    obtain ⟨k, v⟩ := kv
    intro hint m id h
    rw [List.reverse_cons] at hint h ⊢
    rw [List.foldl_append] at h
    obtain ⟨⟨h1, h2⟩, h3⟩ := ih (fun v hv => hint v (List.mem_append_left _ hv)) _ _ rfl
    simp only [List.foldl_cons, List.foldl_nil] at h
    generalize List.foldl stepM ([], 0) l.reverse = p at *
    unfold stepM at h
    split at h
    · rename_i hk
      simp only at hk; subst hk
      obtain ⟨n, rfl⟩ := hint v (by simp)
      simp only at h
      cases h
      refine ⟨⟨h1, ?_⟩, ?_⟩
      · intro k'
        rw [h2, lastValue_snoc]
        by_cases hk : k' = jsonPointerKey
        · simp [hk]
        · rw [if_neg hk, if_neg hk, if_neg (fun h => hk h.symm)]
      · unfold nodeId; rw [lastValue_snoc]; simp
    · rename_i hk
      simp only at hk
      cases h
      refine ⟨⟨sorted_smAdd h1 _ _, ?_⟩, ?_⟩
      · intro k'
        rw [smGet_smAdd _ h1, h2, lastValue_snoc]
        by_cases hk' : k' = k
        · subst hk'; simp [hk]
        · rw [if_neg hk', if_neg (fun h : k = k' => hk' h.symm)]
      · rw [h3]; unfold nodeId; rw [lastValue_snoc, if_neg hk]

theorem entries_fun {ms : List (Bytes × J)} {m m' : SMap J} (h : Entries ms m) (h' : Entries ms m') : m = m' :=
  sorted_ext h.1 h'.1 fun k => by rw [h.2, h'.2]

/-! ### Sound: what the parser accepts is in the grammar, and its panics have the causes named -/

theorem value_starts {u r : Bytes} {v : J} {ids : List Int} (h : Value u v ids r) :
    ∃ c t, u = c :: t ∧ ¬ Delim c := by
  cases h with
  | text hq _ => exact ⟨_, _, rfl, quote_not_delim hq⟩
  | ref _ _ _ => exact ⟨_, _, rfl, by rw [← delim_iff']; decide⟩
  | @word w _ _ hne hw _ _ _ _ =>
    cases w with
    | nil => exact absurd rfl hne
    | cons c w => exact ⟨c, w ++ r, rfl, hw c (by simp)⟩
  | array _ => exact ⟨_, _, rfl, by rw [← delim_iff']; decide⟩
  | dict _ _ => exact ⟨_, _, rfl, by rw [← delim_iff']; decide⟩

theorem starts_of_value {u r : Bytes} {v : J} {ids : List Int} (h : Value u v ids r) : Starts u := by
  obtain ⟨c, t, h1, h2⟩ := value_starts h
  exact ⟨c, t, h1, fun hb => h2 (Or.inl hb)⟩

theorem reach_starts {t u : Bytes} {ids : List Int} (h : Reach t .value ids u) : Starts u := by
  cases h with
  | start _ _ h => exact h
  | elem _ _ h _ => exact h
  | mem _ _ _ _ _ h => exact h

def Cause (t : Bytes) : PPanic → Prop
  | .index => NoValue t
  | .typeAssert => BadNodeId t
  | .dupNode => SameNodeId t

/-- What a session gains. -/
def Gain (s s' : Sess) (ids : List Int) : Prop := s'.saved = s.saved ++ ids ∧ (s.saved.Nodup → s'.saved.Nodup)

theorem Gain.trans {s s' s'' : Sess} {a b : List Int} (h : Gain s s' a) (h' : Gain s' s'' b) : Gain s s'' (a ++ b) :=
  ⟨by rw [h'.1, h.1, List.append_assoc], fun hn => h'.2 (h.2 hn)⟩

theorem Gain.nil (s : Sess) : Gain s s [] := ⟨by simp, id⟩

def GoodV (s : Sess) (u : Bytes) : PR (J × Sess) → Prop
  | .ok (v, s') r => ∃ ids, Value u v ids r ∧ Gain s s' ids
  | .panic p => ∀ t, Reach t .value s.saved u → s.saved.Nodup → Cause t p
  | _ => True

def GoodA (s : Sess) (u : Bytes) (acc : List J) : PR (List J × Sess) → Prop
  | .ok (xs, s') r => ∃ vs ids, xs = acc ++ vs ∧ Elements u vs ids r ∧ Gain s s' ids
  | .panic p => ∀ t, Reach t .elements s.saved u → s.saved.Nodup → Cause t p
  | _ => True

def GoodD (s : Sess) (u : Bytes) (acc : SMap J) (id : Int) : PR (SMap J × Int × Sess) → Prop
  | .ok (m, id', s') r => ∃ ms ids, (m, id') = ms.foldl stepM (acc, id) ∧ IntIds ms ∧ Members u ms ids r ∧ Gain s s' ids
  | .panic p => ∀ t, Reach t .members s.saved u → s.saved.Nodup → Cause t p
  | _ => True

theorem sound_scalar (s : Sess) (u : Bytes) (hu : ∀ c, u.head? = some c → c ≠ 91 ∧ c ≠ 123) : GoodV s u (parseJSONValue s u) := by
  cases hx : parseJSONValue s u with
  | err e r => trivial
  | fuel => trivial
  | panic p =>
    intro t ht hn
    obtain ⟨c, r, rfl, hc⟩ := reach_starts ht
    obtain ⟨rfl, hs⟩ := parseJSONValue_panic ((blank_iff' c).2 hc) hx
    exact ⟨_, c, r, ht, hn, hs⟩
  | ok a r =>
    obtain ⟨v, s'⟩ := a
    unfold parseJSONValue at hx
    cases hp : parseString u with
    | err e r => rw [hp] at hx; cases hx
    | panic p => rw [hp] at hx; cases hx
    | fuel => rw [hp] at hx; cases hx
    | ok b r' =>
      obtain ⟨val, q⟩ := b
      rw [hp] at hx
      cases q with
      | true =>
        cases hx
        cases u with
        | nil => simp [parseString] at hp
        | cons c u =>
          simp only [parseString] at hp
          split at hp
          · rename_i hq
            cases hpq : parseQuote c u [] with
            | ok x r'' =>
              rw [hpq] at hp; cases hp
              obtain ⟨s', rfl, hs⟩ := parseQuote_sound c (quote_ne hq) _ u (Nat.le_refl _) _ _ _ hpq
              exact ⟨[], .text hq hs, Gain.nil s⟩
            | err e r' => rw [hpq] at hp; cases hp
            | panic p => rw [hpq] at hp; cases hp
            | fuel => rw [hpq] at hp; cases hp
          · cases hp
      | false =>
        obtain ⟨rfl, h1, h2⟩ := parseString_token _ _ _ hp
        have hw : Word val := fun c hc => (delim_iff' c).1 (h1 c hc)
        have hr : Ends r' := by
          intro c hc
          cases r' with
          | nil => cases hc
          | cons d r => cases hc; exact (delim_iff c).1 (h2 c r rfl)
        cases val with
        | nil => cases hx
        | cons c cs =>
          simp only at hx
          split at hx
          · rename_i hc
            obtain ⟨rfl, hl⟩ := hc
            cases cs with
            | nil => simp at hl
            | cons d ds =>
              have hl' : (d :: ds).getLast (by simp) = 62 := by
                rw [List.getLast?_cons_cons, List.getLast?_eq_some_getLast (by simp)] at hl
                simpa using hl
              cases hi : parseInt (d :: ds).dropLast with
              | none => rw [hi] at hx; cases hx
              | some n =>
                rw [hi] at hx; cases hx
                have e : (d :: ds) = (d :: ds).dropLast ++ [62] := by
                  rw [← hl']; exact (List.dropLast_concat_getLast (by simp)).symm
                refine ⟨[], ?_, ⟨by simp [Sess.saveReferer], fun h => by simpa [Sess.saveReferer] using h⟩⟩
                have := Value.ref (d := (d :: ds).dropLast) (r := r) (n := n)
                  (fun x hx => hw x (List.mem_cons_of_mem _ (List.dropLast_subset _ hx))) (Numeral.parseInt_some.1 hi) hr
                have e2 : (60 :: (d :: ds)) ++ r = 60 :: ((d :: ds).dropLast ++ 62 :: r) := by
                  rw [List.cons_append]; congr 1
                  have := congrArg (· ++ r) e
                  simpa using this
                rw [e2]; exact this
          · rename_i hc
            cases hx
            refine ⟨[], .word (by simp) hw hr ?_ ?_ (means_scalarOf (by simp)), Gain.nil s⟩
            · intro x hx
              cases hx
              refine ⟨?_, hu c rfl⟩
              intro hq
              have hq' : c = 34 ∨ c = 39 := hq
              simp only [List.cons_append, parseString] at hp
              rw [if_pos hq'] at hp
              cases hpq : parseQuote c (cs ++ r) [] <;> rw [hpq] at hp <;> cases hp
            · intro d hd
              cases hd
              apply hc
              refine ⟨rfl, ?_⟩
              rw [← List.cons_append, List.getLast?_append]; simp

theorem nodup_snoc {l : List Int} {n : Int} : (l ++ [n]).Nodup ↔ l.Nodup ∧ n ∉ l := by
  rw [List.nodup_append]
  simp
  intro _
  constructor
  · intro h h'; exact h _ h' rfl
  · intro h a ha e; subst e; exact h ha

def storeM (acc : SMap J) (id : Int) (key : Bytes) (v : J) : Option (SMap J × Int) :=
  if key = jsonPointerKey then
    match v with
    | .int n => some (acc, n)
    | _ => none
  else some (smAdd acc key v, id)

theorem store_some {acc : SMap J} {id : Int} {key : Bytes} {v : J} (h : key = jsonPointerKey → IsInt v) :
    storeM acc id key v = some (stepM (acc, id) (key, v)) := by
  unfold stepM storeM
  by_cases hkey : key = jsonPointerKey
  · obtain ⟨n, rfl⟩ := h hkey
    simp [hkey]
  · simp [hkey]

theorem store_none {acc : SMap J} {id : Int} {key : Bytes} {v : J} (h : ¬ (key = jsonPointerKey → IsInt v)) :
    storeM acc id key v = none := by
  unfold storeM
  by_cases hkey : key = jsonPointerKey
  · cases v with
    | int n => exact absurd (fun _ => ⟨n, rfl⟩) h
    | _ => simp [hkey]
  · exact absurd (fun h' => absurd h' hkey) h

theorem parse_sound (f : Nat) :
    (∀ s u, GoodV s u (parseVal f s u)) ∧
    (∀ s u acc id, GoodD s u acc id (parseDict f s u acc id)) ∧
    (∀ s u acc, GoodA s u acc (parseArr f s u acc)) := by
  induction f with
  | zero => refine ⟨?_, ?_, ?_⟩ <;> intros <;> simp [parseVal, parseDict, parseArr, GoodV, GoodA, GoodD]
  | succ f ih =>
    obtain ⟨ihv, ihd, iha⟩ := ih
    refine ⟨?_, ?_, ?_⟩
    · intro s u
      rw [parseVal.eq_def]; simp only
      split
      · rename_i r
        have h1 := iha s r []
        cases h : parseArr f s r [] with
        | ok a r' =>
          obtain ⟨xs, s'⟩ := a
          rw [h] at h1
          obtain ⟨vs, ids, rfl, h2, h3⟩ := h1
          exact ⟨ids, .array (by simpa using h2), h3⟩
        | err e r' => trivial
        | panic p => rw [h] at h1; exact fun t ht hn => h1 t (.array ht) hn
        | fuel => trivial
      · rename_i r
        have h1 := ihd s r [] 0
        cases h : parseDict f s r [] 0 with
        | ok a r' =>
          obtain ⟨m, id, s'⟩ := a
          rw [h] at h1
          obtain ⟨ms, ids, h2, h3, h4, h5⟩ := h1
          obtain ⟨h6, rfl⟩ := stepM_entries ms h3 m id h2.symm
          have hv := Value.dict h4 h6
          simp only
          split
          · rename_i hpos
            rw [if_pos hpos] at hv
            unfold Sess.saveNode
            by_cases hc : nodeId ms ∈ s'.saved
            · rw [if_pos (by simpa using hc)]
              intro t ht hn
              refine ⟨_, _, _, _, _, ht, hv, hn, ?_⟩
              rw [← List.append_assoc, ← h5.1, nodup_snoc]
              exact fun h => h.2 hc
            · rw [if_neg (by simpa using hc)]
              refine ⟨_, hv, ?_, ?_⟩
              · simp [h5.1]
              · intro hn
                exact nodup_snoc.2 ⟨h5.2 hn, hc⟩
          · rename_i hpos
            rw [if_neg hpos] at hv
            exact ⟨_, hv, by simpa using h5⟩
        | err e r' => trivial
        | panic p => rw [h] at h1; exact fun t ht hn => h1 t (.dict ht) hn
        | fuel => trivial
      · rename_i h1 h2
        refine sound_scalar s u ?_
        intro c hc
        cases u with
        | nil => cases hc
        | cons d u =>
          cases hc
          exact ⟨fun h => h1 u (by rw [h]), fun h => h2 u (by rw [h])⟩
    · intro s u acc id
      rw [parseDict.eq_def]; simp only
      split
      · exact ⟨[], [], rfl, by intro v hv; simp at hv, .eof, Gain.nil s⟩
      · rename_i c0 t0
        generalize hs : skipEmpty (c0 :: t0) = x
        obtain ⟨w, hw, hwb⟩ := skip_split hs
        split
        · trivial
        · rename_i r
          rw [hw]
          exact ⟨[], [], rfl, by intro v hv; simp at hv, .close hwb, Gain.nil s⟩
        · rename_i hnil hne
          have hxh : ∀ c, x.head? = some c → ¬ Blank c := by
            intro c hc
            cases x with
            | nil => cases hc
            | cons d x => cases hc; exact skip_head hs
          cases hp : parseString x with
          | err e r => trivial
          | panic p =>
            have := parseString_inside x hnil
            rw [hp] at this; exact this.elim
          | fuel => trivial
          | ok a r1 =>
            obtain ⟨key, q⟩ := a
            have hk := key_of_parseString hp hxh
            simp only
            cases hs1 : skipEmpty r1 with
            | nil => trivial
            | cons c r2 =>
              obtain ⟨w1, rfl, hw1⟩ := skip_split hs1
              simp only
              split
              · rename_i hc; subst hc
                cases hs2 : skipEmpty r2 with
                | nil => trivial
                | cons c3 r3 =>
                  obtain ⟨w2, rfl, hw2⟩ := skip_split hs2
                  have hst : Starts (c3 :: r3) := ⟨c3, r3, rfl, skip_head hs2⟩
                  simp only
                  have h1 := ihv s (c3 :: r3)
                  rw [hw]
                  cases hv : parseVal f s (c3 :: r3) with
                  | err e r => trivial
                  | fuel => trivial
                  | panic p => rw [hv] at h1; exact fun t ht hn => h1 t (.mem ht hwb hk hw1 hw2 hst) hn
                  | ok b r4 =>
                    obtain ⟨v, s'⟩ := b
                    rw [hv] at h1
                    obtain ⟨ids, hval, hg⟩ := h1
                    simp only
                    change GoodD s (w ++ x) acc id (match storeM acc id key v with
                      | none => .panic .typeAssert
                      | some (acc', id') =>
                        match skipEmpty r4 with
                        | [] => .err .truncated []
                        | c5 :: r5 =>
                          if c5 = 44 then parseDict f s' r5 acc' id'
                          else if c5 = 125 then .ok (acc', id', s') r5
                          else .err .unexpected (c5 :: r5))
                    by_cases hint : key = jsonPointerKey → IsInt v
                    · rw [store_some hint]
                      simp only
                      cases hs4 : skipEmpty r4 with
                      | nil => trivial
                      | cons c5 r5 =>
                        obtain ⟨w', rfl, hw'⟩ := skip_split hs4
                        simp only
                        split
                        · rename_i hc; subst hc
                          have h2 := ihd s' r5 (stepM (acc, id) (key, v)).1 (stepM (acc, id) (key, v)).2
                          cases hd : parseDict f s' r5 (stepM (acc, id) (key, v)).1 (stepM (acc, id) (key, v)).2 with
                          | err e r => trivial
                          | fuel => trivial
                          | panic p =>
                            rw [hd] at h2
                            intro t ht hn
                            refine h2 t ?_ (hg.2 hn)
                            rw [hg.1]
                            exact .memNext ht hwb hk hw1 hw2 hval hw' hint
                          | ok b r6 =>
                            obtain ⟨m, id', s''⟩ := b
                            rw [hd] at h2
                            obtain ⟨ms, ids', h3, h4, h5, h6⟩ := h2
                            refine ⟨(key, v) :: ms, ids ++ ids', by rw [h3]; rfl, ?_, .more hwb hk hw1 hw2 hval hw' hint h5, hg.trans h6⟩
                            intro v' hv'
                            rcases List.mem_cons.1 hv' with h | h
                            · cases h; exact hint rfl
                            · exact h4 _ h
                        · split
                          · rename_i hc; subst hc
                            refine ⟨[(key, v)], ids, rfl, ?_, .last hwb hk hw1 hw2 hval hw' hint, hg⟩
                            intro v' hv'
                            rcases List.mem_cons.1 hv' with h | h
                            · cases h; exact hint rfl
                            · cases h
                          · trivial
                    · rw [store_none hint]
                      have hkey : key = jsonPointerKey := Classical.byContradiction fun h => hint fun h' => absurd h' h
                      subst hkey
                      intro t ht hn
                      refine ⟨_, ids, _, _, _, _, _, v, _, ht, hwb, hk, hw1, hw2, hval, ?_, fun h => hint fun _ => h⟩
                      rw [← hg.1]; exact hg.2 hn
              · trivial
    · intro s u acc
      rw [parseArr.eq_def]; simp only
      split
      · exact ⟨[], [], by simp, .eof, Gain.nil s⟩
      · rename_i c0 t0
        generalize hs : skipEmpty (c0 :: t0) = x
        obtain ⟨w, hw, hwb⟩ := skip_split hs
        split
        · trivial
        · rename_i r
          rw [hw]
          exact ⟨[], [], by simp, .close hwb, Gain.nil s⟩
        · rename_i hnil hne
          have hxs : Starts x ∧ x.head? ≠ some 93 := by
            cases x with
            | nil => exact absurd rfl hnil
            | cons d x =>
              refine ⟨⟨d, x, rfl, skip_head hs⟩, ?_⟩
              intro h; cases h; exact hne x rfl
          have h1 := ihv s x
          rw [hw]
          cases hv : parseVal f s x with
          | err e r => trivial
          | fuel => trivial
          | panic p => rw [hv] at h1; exact fun t ht hn => h1 t (.elem ht hwb hxs.1 hxs.2) hn
          | ok b r4 =>
            obtain ⟨v, s'⟩ := b
            rw [hv] at h1
            obtain ⟨ids, hval, hg⟩ := h1
            simp only
            cases hs4 : skipEmpty r4 with
            | nil => trivial
            | cons c5 r5 =>
              obtain ⟨w', rfl, hw'⟩ := skip_split hs4
              simp only
              split
              · rename_i hc; subst hc
                have h2 := iha s' r5 (acc ++ [v])
                cases hd : parseArr f s' r5 (acc ++ [v]) with
                | err e r => trivial
                | fuel => trivial
                | panic p =>
                  rw [hd] at h2
                  intro t ht hn
                  refine h2 t ?_ (hg.2 hn)
                  rw [hg.1]
                  exact .elemNext ht hwb hval hw'
                | ok b r6 =>
                  obtain ⟨xs, s''⟩ := b
                  rw [hd] at h2
                  obtain ⟨vs, ids', rfl, h5, h6⟩ := h2
                  exact ⟨v :: vs, ids ++ ids', by simp, .more hwb hval hw' h5, hg.trans h6⟩
              · split
                · rename_i hc; subst hc
                  exact ⟨[v], ids, rfl, .last hwb hval hw', hg⟩
                · trivial

end Jsonutils.Lenient
