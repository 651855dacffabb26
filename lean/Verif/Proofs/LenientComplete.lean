import Verif.Proofs.Lenient

/-! Everything in the lenient grammar is read by the parser, with its meaning; the panic causes do panic. -/

set_option linter.unusedSimpArgs false

namespace Jsonutils.Lenient
open Rfc

theorem Value.induct {P : Bytes → J → List Int → Bytes → Prop} {Pe : Bytes → List J → List Int → Bytes → Prop}
    {Pm : Bytes → List (Bytes × J) → List Int → Bytes → Prop}
    (text : ∀ {q t s r}, Quote q → Quoted q t s r → P (q :: t) (.str s) [] r)
    (ref : ∀ {d r n}, Word d → Numeral.IsInt64 d n → Ends r → P (60 :: (d ++ 62 :: r)) (.ptr n) [] r)
    (word : ∀ {w r j}, w ≠ [] → Word w → Ends r → (∀ c, w.head? = some c → ¬ Quote c ∧ c ≠ 91 ∧ c ≠ 123) →
      (∀ d, w ≠ 60 :: (d ++ [62])) → Means w j → P (w ++ r) j [] r)
    (array : ∀ {t r vs ids}, Elements t vs ids r → Pe t vs ids r → P (91 :: t) (.arr vs) ids r)
    (dict : ∀ {t r ms m ids}, Members t ms ids r → Entries ms m → Pm t ms ids r →
      P (123 :: t) (.dict (nodeId ms) m) (ids ++ if 0 < nodeId ms then [nodeId ms] else []) r)
    (eeof : Pe [] [] [] []) (eclose : ∀ {w r}, Blanks w → Pe (w ++ 93 :: r) [] [] r)
    (elast : ∀ {w u w' r v ids}, Blanks w → Value u v ids (w' ++ 93 :: r) → Blanks w' → P u v ids (w' ++ 93 :: r) → Pe (w ++ u) [v] ids r)
    (emore : ∀ {w u w' t r v vs ids ids'}, Blanks w → Value u v ids (w' ++ 44 :: t) → Blanks w' → Elements t vs ids' r →
      P u v ids (w' ++ 44 :: t) → Pe t vs ids' r → Pe (w ++ u) (v :: vs) (ids ++ ids') r)
    (meof : Pm [] [] [] []) (mclose : ∀ {w r}, Blanks w → Pm (w ++ 125 :: r) [] [] r)
    (mlast : ∀ {w x w1 w2 u w' r k v ids}, Blanks w → Key x k (w1 ++ 58 :: (w2 ++ u)) → Blanks w1 → Blanks w2 →
      Value u v ids (w' ++ 125 :: r) → Blanks w' → (k = jsonPointerKey → IsInt v) → P u v ids (w' ++ 125 :: r) → Pm (w ++ x) [(k, v)] ids r)
    (mmore : ∀ {w x w1 w2 u w' t r k v ms ids ids'}, Blanks w → Key x k (w1 ++ 58 :: (w2 ++ u)) → Blanks w1 → Blanks w2 →
      Value u v ids (w' ++ 44 :: t) → Blanks w' → (k = jsonPointerKey → IsInt v) → Members t ms ids' r →
      P u v ids (w' ++ 44 :: t) → Pm t ms ids' r → Pm (w ++ x) ((k, v) :: ms) (ids ++ ids') r)
    {u : Bytes} {v : J} {ids : List Int} {r : Bytes} (h : Value u v ids r) : P u v ids r :=
  Value.rec (motive_1 := fun u v ids r _ => P u v ids r) (motive_2 := fun u v ids r _ => Pe u v ids r)
    (motive_3 := fun u v ids r _ => Pm u v ids r) text ref word array dict eeof eclose elast emore meof mclose mlast mmore h

/-! ### One step of the parsing loops -/

theorem not_blank_byte {c : UInt8} (h : isWS c = false) : ¬ Blank c := (blank_iff' c).1 h

theorem parseVal_scalar (f : Nat) (s : Sess) {u : Bytes} (hu : ∀ c, u.head? = some c → c ≠ 91 ∧ c ≠ 123) :
    parseVal (f + 1) s u = parseJSONValue s u := by
  rw [parseVal.eq_def]; simp only
  split
  · exact absurd rfl (hu _ rfl).1
  · exact absurd rfl (hu _ rfl).2
  · rfl

theorem arr_close {f : Nat} {s : Sess} {w r : Bytes} {acc : List J} (hw : Blanks w) :
    parseArr (f + 1) s (w ++ 93 :: r) acc = .ok (acc, s) r := by
  have h1 := skip_byte hw (c := 93) (not_blank_byte (by decide)) r
  rw [parseArr.eq_def]; simp only
  split
  · rename_i h; simp at h
  · rw [h1]; rfl

theorem arr_val {f : Nat} {s : Sess} {w u : Bytes} {acc : List J} (hw : Blanks w) (hu : Starts u) (h93 : u.head? ≠ some 93) :
    parseArr (f + 1) s (w ++ u) acc = match parseVal f s u with
      | .err e r => .err e r
      | .panic p => .panic p
      | .fuel => .fuel
      | .ok (v, s') r4 =>
        match skipEmpty r4 with
        | [] => .err .truncated []
        | c5 :: r5 =>
          if c5 = 44 then parseArr f s' r5 (acc ++ [v])
          else if c5 = 93 then .ok (acc ++ [v], s') r5
          else .err .unexpected (c5 :: r5) := by
  have h1 := skip_starts hw hu
  rw [parseArr.eq_def]; simp only
  split
  · rename_i h
    obtain ⟨c, r, rfl, _⟩ := hu
    simp at h
  · rw [h1]
    obtain ⟨c, r, rfl, _⟩ := hu
    split
    · rename_i h; cases h
    · rename_i h; cases h; exact absurd rfl h93
    · rfl

theorem dict_close {f : Nat} {s : Sess} {w r : Bytes} {acc : SMap J} {id : Int} (hw : Blanks w) :
    parseDict (f + 1) s (w ++ 125 :: r) acc id = .ok (acc, id, s) r := by
  have h1 := skip_byte hw (c := 125) (not_blank_byte (by decide)) r
  rw [parseDict.eq_def]; simp only
  split
  · rename_i h; simp at h
  · rw [h1]; rfl

theorem key_starts {x k w1 r : Bytes} (h : Key x k (w1 ++ 58 :: r)) (hw1 : Blanks w1) : Starts x ∧ x.head? ≠ some 125 := by
  cases h with
  | @quoted q t _ _ hq _ =>
    refine ⟨⟨q, t, rfl, fun hb => quote_not_delim hq (Or.inl hb)⟩, ?_⟩
    intro h; cases h
    rcases hq with h | h <;> exact absurd h (by decide)
  | bare hk hq hr h0 =>
    cases k with
    | nil =>
      have := h0 rfl
      cases w1 with
      | nil => exact ⟨⟨58, r, rfl, not_blank_byte (by decide)⟩, by intro h; cases h⟩
      | cons c w1 => exact absurd (hw1 c (by simp)) (this c rfl)
    | cons c k =>
      have hc := hk c (by simp)
      refine ⟨⟨c, _, rfl, fun hb => hc (Or.inl hb)⟩, ?_⟩
      intro h; cases h
      exact hc (by unfold Delim; simp)

theorem dict_val {f : Nat} {s : Sess} {w x k w1 w2 u : Bytes} {acc : SMap J} {id : Int} (hw : Blanks w) (hx : Key x k (w1 ++ 58 :: (w2 ++ u)))
    (hw1 : Blanks w1) (hw2 : Blanks w2) (hu : Starts u) :
    parseDict (f + 1) s (w ++ x) acc id = match parseVal f s u with
      | .err e r => .err e r
      | .panic p => .panic p
      | .fuel => .fuel
      | .ok (v, s') r4 =>
        match storeM acc id k v with
        | none => .panic .typeAssert
        | some (acc', id') =>
          match skipEmpty r4 with
          | [] => .err .truncated []
          | c5 :: r5 =>
            if c5 = 44 then parseDict f s' r5 acc' id'
            else if c5 = 125 then .ok (acc', id', s') r5
            else .err .unexpected (c5 :: r5) := by
  obtain ⟨hxs, hx125⟩ := key_starts hx hw1
  have h1 := skip_starts hw hxs
  have h2 := skip_byte hw1 (c := 58) (not_blank_byte (by decide)) (w2 ++ u)
  have h3 := skip_starts hw2 hu
  obtain ⟨b, hp⟩ := parseString_key hx (by obtain ⟨c, r, rfl, _⟩ := hxs; simp)
  rw [parseDict.eq_def]; simp only
  split
  · rename_i h
    obtain ⟨c, r, rfl, _⟩ := hxs
    simp at h
  · rw [h1]
    split
    · obtain ⟨c, r, h, _⟩ := hxs; cases h
    · exact absurd rfl hx125
    · rw [hp]; simp only
      rw [h2]; simp only [if_true]
      rw [h3]
      obtain ⟨c, r, rfl, _⟩ := hu
      rfl

/-! ### Completeness -/

def RunsV (s : Sess) (u : Bytes) (x : PR (J × Sess)) : Prop := x ≠ .fuel ∧ ∃ f, parseVal f s u = x
def RunsA (s : Sess) (u : Bytes) (acc : List J) (x : PR (List J × Sess)) : Prop := x ≠ .fuel ∧ ∃ f, parseArr f s u acc = x
def RunsD (s : Sess) (u : Bytes) (acc : SMap J) (id : Int) (x : PR (SMap J × Int × Sess)) : Prop := x ≠ .fuel ∧ ∃ f, parseDict f s u acc id = x

theorem val_le {f g : Nat} {s : Sess} {u : Bytes} {x : PR (J × Sess)} (hx : x ≠ .fuel) (h : parseVal f s u = x) (hfg : f ≤ g) : parseVal g s u = x := by
  rw [← h] at hx ⊢; exact parseVal_fuel_le hfg s u hx

theorem arr_le {f g : Nat} {s : Sess} {u : Bytes} {acc : List J} {x : PR (List J × Sess)} (hx : x ≠ .fuel) (h : parseArr f s u acc = x) (hfg : f ≤ g) :
    parseArr g s u acc = x := by
  rw [← h] at hx ⊢; exact parseArr_fuel_le hfg s u acc hx

theorem dict_le {f g : Nat} {s : Sess} {u : Bytes} {acc : SMap J} {id : Int} {x : PR (SMap J × Int × Sess)} (hx : x ≠ .fuel)
    (h : parseDict f s u acc id = x) (hfg : f ≤ g) : parseDict g s u acc id = x := by
  rw [← h] at hx ⊢; exact parseDict_fuel_le hfg s u acc id hx

theorem runsA_panic {s : Sess} {w u : Bytes} {acc : List J} {p : PPanic} (hw : Blanks w) (hu : Starts u) (h93 : u.head? ≠ some 93)
    (h : RunsV s u (.panic p)) : RunsA s (w ++ u) acc (.panic p) := by
  obtain ⟨_, f, hf⟩ := h
  exact ⟨by simp, f + 1, by rw [arr_val hw hu h93, hf]⟩

theorem runsA_last {s s' : Sess} {w u w' r : Bytes} {v : J} {acc : List J} (hw : Blanks w) (hu : Starts u) (h93 : u.head? ≠ some 93)
    (h : RunsV s u (.ok (v, s') (w' ++ 93 :: r))) (hw' : Blanks w') : RunsA s (w ++ u) acc (.ok (acc ++ [v], s') r) := by
  obtain ⟨_, f, hf⟩ := h
  refine ⟨by simp, f + 1, ?_⟩
  rw [arr_val hw hu h93, hf]; simp only
  rw [skip_byte hw' (not_blank_byte (by decide))]
  rfl

theorem runsA_more {s s' : Sess} {w u w' t : Bytes} {v : J} {acc : List J} {x} (hw : Blanks w) (hu : Starts u) (h93 : u.head? ≠ some 93)
    (h : RunsV s u (.ok (v, s') (w' ++ 44 :: t))) (hw' : Blanks w') (hx : RunsA s' t (acc ++ [v]) x) : RunsA s (w ++ u) acc x := by
  obtain ⟨h1, f, hf⟩ := h
  obtain ⟨h2, g, hg⟩ := hx
  refine ⟨h2, max f g + 1, ?_⟩
  rw [arr_val hw hu h93, val_le h1 hf (Nat.le_max_left f g)]; simp only
  rw [skip_byte hw' (not_blank_byte (by decide))]
  simp only [if_true]
  exact arr_le h2 hg (Nat.le_max_right f g)

theorem runsD_panic {s : Sess} {w x k w1 w2 u : Bytes} {acc : SMap J} {id : Int} {p : PPanic} (hw : Blanks w)
    (hx : Key x k (w1 ++ 58 :: (w2 ++ u))) (hw1 : Blanks w1) (hw2 : Blanks w2) (hu : Starts u)
    (h : RunsV s u (.panic p)) : RunsD s (w ++ x) acc id (.panic p) := by
  obtain ⟨_, f, hf⟩ := h
  exact ⟨by simp, f + 1, by rw [dict_val hw hx hw1 hw2 hu, hf]⟩

theorem runsD_bad {s s' : Sess} {w x k w1 w2 u r : Bytes} {acc : SMap J} {id : Int} {v : J} (hw : Blanks w)
    (hx : Key x k (w1 ++ 58 :: (w2 ++ u))) (hw1 : Blanks w1) (hw2 : Blanks w2) (hu : Starts u)
    (h : RunsV s u (.ok (v, s') r)) (hk : ¬ (k = jsonPointerKey → IsInt v)) : RunsD s (w ++ x) acc id (.panic .typeAssert) := by
  obtain ⟨_, f, hf⟩ := h
  refine ⟨by simp, f + 1, ?_⟩
  rw [dict_val hw hx hw1 hw2 hu, hf]; simp only
  rw [store_none hk]

theorem runsD_last {s s' : Sess} {w x k w1 w2 u w' r : Bytes} {acc : SMap J} {id : Int} {v : J} (hw : Blanks w)
    (hx : Key x k (w1 ++ 58 :: (w2 ++ u))) (hw1 : Blanks w1) (hw2 : Blanks w2) (hu : Starts u)
    (h : RunsV s u (.ok (v, s') (w' ++ 125 :: r))) (hw' : Blanks w') (hk : k = jsonPointerKey → IsInt v) :
    RunsD s (w ++ x) acc id (.ok ((stepM (acc, id) (k, v)).1, (stepM (acc, id) (k, v)).2, s') r) := by
  obtain ⟨_, f, hf⟩ := h
  refine ⟨by simp, f + 1, ?_⟩
  rw [dict_val hw hx hw1 hw2 hu, hf]; simp only
  rw [store_some hk]; simp only
  rw [skip_byte hw' (not_blank_byte (by decide))]
  rfl

theorem runsD_more {s s' : Sess} {w x k w1 w2 u w' t : Bytes} {acc : SMap J} {id : Int} {v : J} {y} (hw : Blanks w)
    (hx : Key x k (w1 ++ 58 :: (w2 ++ u))) (hw1 : Blanks w1) (hw2 : Blanks w2) (hu : Starts u)
    (h : RunsV s u (.ok (v, s') (w' ++ 44 :: t))) (hw' : Blanks w') (hk : k = jsonPointerKey → IsInt v)
    (hy : RunsD s' t (stepM (acc, id) (k, v)).1 (stepM (acc, id) (k, v)).2 y) : RunsD s (w ++ x) acc id y := by
  obtain ⟨h1, f, hf⟩ := h
  obtain ⟨h2, g, hg⟩ := hy
  refine ⟨h2, max f g + 1, ?_⟩
  rw [dict_val hw hx hw1 hw2 hu, val_le h1 hf (Nat.le_max_left f g)]; simp only
  rw [store_some hk]; simp only
  rw [skip_byte hw' (not_blank_byte (by decide))]
  simp only [if_true]
  exact dict_le h2 hg (Nat.le_max_right f g)

theorem runsV_arr {s s' : Sess} {t r : Bytes} {xs : List J} (h : RunsA s t [] (.ok (xs, s') r)) : RunsV s (91 :: t) (.ok (.arr xs, s') r) := by
  obtain ⟨h1, f, hf⟩ := h
  refine ⟨by simp, f + 1, ?_⟩
  rw [parseVal.eq_def]; simp only
  rw [hf]

theorem runsV_arr_panic {s : Sess} {t : Bytes} {p} (h : RunsA s t [] (.panic p)) : RunsV s (91 :: t) (.panic p) := by
  obtain ⟨h1, f, hf⟩ := h
  refine ⟨by simp, f + 1, ?_⟩
  rw [parseVal.eq_def]; simp only
  rw [hf]

theorem runsV_dict_panic {s : Sess} {t : Bytes} {p} (h : RunsD s t [] 0 (.panic p)) : RunsV s (123 :: t) (.panic p) := by
  obtain ⟨h1, f, hf⟩ := h
  refine ⟨by simp, f + 1, ?_⟩
  rw [parseVal.eq_def]; simp only
  rw [hf]

theorem runsV_dict {s s' : Sess} {t r : Bytes} {m : SMap J} {id : Int} (h : RunsD s t [] 0 (.ok (m, id, s') r)) :
    RunsV s (123 :: t) (if 0 < id then
      (if id ∈ s'.saved then .panic .dupNode else .ok (.dict id m, { s' with saved := s'.saved ++ [id] }) r)
      else .ok (.dict id m, s') r) := by
  obtain ⟨h1, f, hf⟩ := h
  refine ⟨by split <;> (try split) <;> simp, f + 1, ?_⟩
  rw [parseVal.eq_def]; simp only
  rw [hf]; simp only
  split
  · unfold Sess.saveNode
    by_cases hc : id ∈ s'.saved
    · rw [if_pos (by simpa using hc), if_pos hc]
    · rw [if_neg (by simpa using hc), if_neg hc]
  · rfl

theorem val93 {u r : Bytes} {v : J} {ids : List Int} (h : Value u v ids r) : u.head? ≠ some 93 := by
  obtain ⟨c, t, rfl, hc⟩ := value_starts h
  intro e; cases e
  exact hc (by unfold Delim; simp)

theorem nodup_left {a b : List Int} (h : (a ++ b).Nodup) : a.Nodup := (List.nodup_append.1 h).1

theorem value_complete {u : Bytes} {v : J} {ids : List Int} {r : Bytes} (h : Value u v ids r) :
    ∀ s : Sess, s.saved.Nodup →
      ((s.saved ++ ids).Nodup → ∃ s', RunsV s u (.ok (v, s') r) ∧ s'.saved = s.saved ++ ids) ∧
      (¬ (s.saved ++ ids).Nodup → RunsV s u (.panic .dupNode)) := by
  refine Value.induct
    (P := fun u v ids r => ∀ s : Sess, s.saved.Nodup →
      ((s.saved ++ ids).Nodup → ∃ s', RunsV s u (.ok (v, s') r) ∧ s'.saved = s.saved ++ ids) ∧
      (¬ (s.saved ++ ids).Nodup → RunsV s u (.panic .dupNode)))
    (Pe := fun u vs ids r => ∀ s : Sess, s.saved.Nodup → ∀ acc,
      ((s.saved ++ ids).Nodup → ∃ s', RunsA s u acc (.ok (acc ++ vs, s') r) ∧ s'.saved = s.saved ++ ids) ∧
      (¬ (s.saved ++ ids).Nodup → RunsA s u acc (.panic .dupNode)))
    (Pm := fun u ms ids r => IntIds ms ∧ ∀ s : Sess, s.saved.Nodup → ∀ acc id,
      ((s.saved ++ ids).Nodup → ∃ s', RunsD s u acc id (.ok ((ms.foldl stepM (acc, id)).1, (ms.foldl stepM (acc, id)).2, s') r) ∧
        s'.saved = s.saved ++ ids) ∧
      (¬ (s.saved ++ ids).Nodup → RunsD s u acc id (.panic .dupNode)))
    ?_ ?_ ?_ ?_ ?_ ?_ ?_ ?_ ?_ ?_ ?_ ?_ ?_ h
  · intro q t s r hq hs st hn
    refine ⟨fun _ => ⟨st, ⟨by simp, 1, ?_⟩, by simp⟩, fun h => absurd (by simpa using hn) h⟩
    rw [parseVal_scalar]
    · unfold parseJSONValue
      have hq' : q = 34 ∨ q = 39 := hq
      simp only [parseString]
      rw [if_pos hq', parseQuote_complete (quote_ne hq) hs]
      simp
    · intro c hc; cases hc
      rcases hq with rfl | rfl <;> decide
  · intro d r n hd hi hr st hn
    refine ⟨fun _ => ⟨st.saveReferer n, ⟨by simp, 1, ?_⟩, by simp [Sess.saveReferer]⟩, fun h => absurd (by simpa using hn) h⟩
    rw [parseVal_scalar]
    · unfold parseJSONValue
      have e : 60 :: (d ++ 62 :: r) = (60 :: (d ++ [62])) ++ r := by simp
      rw [e, parseString_bare ?_ hr ?_ (by simp)]
      · simp only
        rw [if_pos (by rw [← List.cons_append, List.getLast?_append]; simp)]
        simp [Numeral.parseInt_some.2 hi]
      · intro c hc
        simp only [List.mem_cons, List.mem_append, List.not_mem_nil, or_false] at hc
        rcases hc with rfl | hc | rfl
        · rw [← delim_iff']; decide
        · exact hd c hc
        · rw [← delim_iff']; decide
      · intro c hc; cases hc
        intro h; rcases h with h | h <;> exact absurd h (by decide)
    · intro c hc; cases hc; decide
  · intro w r j hne hw hr hh hd hm st hn
    refine ⟨fun _ => ⟨st, ⟨by simp, 1, ?_⟩, by simp⟩, fun h => absurd (by simpa using hn) h⟩
    cases w with
    | nil => exact absurd rfl hne
    | cons c w =>
      rw [parseVal_scalar]
      · unfold parseJSONValue
        rw [parseString_bare hw hr (by intro x hx; cases hx; exact (hh c rfl).1) (by simp)]
        simp only
        rw [if_neg ?_, scalarOf_means hne hm]
        rintro ⟨rfl, hl⟩
        cases w with
        | nil => simp at hl
        | cons d ds =>
          rw [List.getLast?_cons_cons, List.getLast?_eq_some_getLast (by simp)] at hl
          have hl' : (d :: ds).getLast (by simp) = 62 := by simpa using hl
          refine hd (d :: ds).dropLast ?_
          congr 1
          rw [← hl']; exact (List.dropLast_concat_getLast (by simp)).symm
      · intro x hx; cases hx; exact (hh c rfl).2
  · intro t r vs ids _ ih st hn
    obtain ⟨h1, h2⟩ := ih st hn []
    refine ⟨fun h => ?_, fun h => ?_⟩
    · obtain ⟨s', h3, h4⟩ := h1 h
      exact ⟨s', by simpa using runsV_arr h3, h4⟩
    · exact runsV_arr_panic (h2 h)
  · intro t r ms m ids _ he ih st hn
    obtain ⟨hint, ih⟩ := ih
    obtain ⟨h1, h2⟩ := ih st hn [] 0
    obtain ⟨h3, h4⟩ := stepM_entries ms hint _ _ (rfl : ms.foldl stepM ([], 0) = ((ms.foldl stepM ([], 0)).1, (ms.foldl stepM ([], 0)).2))
    have h5 := entries_fun h3 he
    refine ⟨fun h => ?_, fun h => ?_⟩
    · rw [← List.append_assoc] at h
      obtain ⟨s', h6, h7⟩ := h1 (nodup_left h)
      have h8 := runsV_dict h6
      rw [h4, h5] at h8
      by_cases hp : 0 < nodeId ms
      · rw [if_pos hp] at h8 h ⊢
        rw [nodup_snoc] at h
        rw [if_neg (by rw [h7]; exact h.2)] at h8
        exact ⟨_, h8, by simp [h7]⟩
      · rw [if_neg hp] at h8 ⊢
        exact ⟨_, h8, by simp [h7]⟩
    · rw [← List.append_assoc] at h
      by_cases hn' : (st.saved ++ ids).Nodup
      · obtain ⟨s', h6, h7⟩ := h1 hn'
        have h8 := runsV_dict h6
        rw [h4, h5] at h8
        by_cases hp : 0 < nodeId ms
        · rw [if_pos hp] at h8 h
          rw [nodup_snoc] at h
          rw [if_pos (by rw [h7]; exact Classical.byContradiction fun hc => h ⟨hn', hc⟩)] at h8
          exact h8
        · rw [if_neg hp] at h
          exact absurd (by simpa using hn') h
      · exact runsV_dict_panic (h2 hn')
  · intro st hn acc
    refine ⟨fun _ => ⟨st, ⟨by simp, 1, ?_⟩, by simp⟩, fun h => absurd (by simpa using hn) h⟩
    rw [parseArr.eq_def]; simp
  · intro w r hw st hn acc
    refine ⟨fun _ => ⟨st, ⟨by simp, 1, ?_⟩, by simp⟩, fun h => absurd (by simpa using hn) h⟩
    rw [arr_close hw]; simp
  · intro w u w' r v ids hw hv hw' ih st hn acc
    obtain ⟨h1, h2⟩ := ih st hn
    refine ⟨fun h => ?_, fun h => ?_⟩
    · obtain ⟨s', h3, h4⟩ := h1 h
      exact ⟨s', runsA_last hw (starts_of_value hv) (val93 hv) h3 hw', h4⟩
    · exact runsA_panic hw (starts_of_value hv) (val93 hv) (h2 h)
  · intro w u w' t r v vs ids ids' hw hv hw' _ ih ih' st hn acc
    obtain ⟨h1, h2⟩ := ih st hn
    refine ⟨fun h => ?_, fun h => ?_⟩
    · rw [← List.append_assoc] at h
      obtain ⟨s', h3, h4⟩ := h1 (nodup_left h)
      obtain ⟨h5, _⟩ := ih' s' (by rw [h4]; exact nodup_left h) (acc ++ [v])
      obtain ⟨s'', h6, h7⟩ := h5 (by rw [h4]; exact h)
      refine ⟨s'', ?_, by rw [h7, h4, List.append_assoc]⟩
      have := runsA_more hw (starts_of_value hv) (val93 hv) h3 hw' h6
      simpa using this
    · rw [← List.append_assoc] at h
      by_cases hn' : (st.saved ++ ids).Nodup
      · obtain ⟨s', h3, h4⟩ := h1 hn'
        obtain ⟨_, h5⟩ := ih' s' (by rw [h4]; exact hn') (acc ++ [v])
        exact runsA_more hw (starts_of_value hv) (val93 hv) h3 hw' (h5 (by rw [h4]; exact h))
      · exact runsA_panic hw (starts_of_value hv) (val93 hv) (h2 hn')
  · refine ⟨by intro v hv; simp at hv, ?_⟩
    intro st hn acc id
    refine ⟨fun _ => ⟨st, ⟨by simp, 1, ?_⟩, by simp⟩, fun h => absurd (by simpa using hn) h⟩
    rw [parseDict.eq_def]; simp
  · intro w r hw
    refine ⟨by intro v hv; simp at hv, ?_⟩
    intro st hn acc id
    refine ⟨fun _ => ⟨st, ⟨by simp, 1, ?_⟩, by simp⟩, fun h => absurd (by simpa using hn) h⟩
    rw [dict_close hw]; simp
  · intro w x w1 w2 u w' r k v ids hw hx hw1 hw2 hv hw' hk ih
    refine ⟨?_, ?_⟩
    · intro v' hv'
      rcases List.mem_cons.1 hv' with h | h
      · cases h; exact hk rfl
      · cases h
    intro st hn acc id
    obtain ⟨h1, h2⟩ := ih st hn
    refine ⟨fun h => ?_, fun h => ?_⟩
    · obtain ⟨s', h3, h4⟩ := h1 h
      exact ⟨s', runsD_last hw hx hw1 hw2 (starts_of_value hv) h3 hw' hk, h4⟩
    · exact runsD_panic hw hx hw1 hw2 (starts_of_value hv) (h2 h)
  · intro w x w1 w2 u w' t r k v ms ids ids' hw hx hw1 hw2 hv hw' hk _ ih ih'
    obtain ⟨hint, ih'⟩ := ih'
    refine ⟨?_, ?_⟩
    · intro v' hv'
      rcases List.mem_cons.1 hv' with h | h
      · cases h; exact hk rfl
      · exact hint _ h
    intro st hn acc id
    obtain ⟨h1, h2⟩ := ih st hn
    refine ⟨fun h => ?_, fun h => ?_⟩
    · rw [← List.append_assoc] at h
      obtain ⟨s', h3, h4⟩ := h1 (nodup_left h)
      obtain ⟨h5, _⟩ := ih' s' (by rw [h4]; exact nodup_left h) (stepM (acc, id) (k, v)).1 (stepM (acc, id) (k, v)).2
      obtain ⟨s'', h6, h7⟩ := h5 (by rw [h4]; exact h)
      refine ⟨s'', ?_, by rw [h7, h4, List.append_assoc]⟩
      exact runsD_more hw hx hw1 hw2 (starts_of_value hv) h3 hw' hk h6
    · rw [← List.append_assoc] at h
      by_cases hn' : (st.saved ++ ids).Nodup
      · obtain ⟨s', h3, h4⟩ := h1 hn'
        obtain ⟨_, h5⟩ := ih' s' (by rw [h4]; exact hn') (stepM (acc, id) (k, v)).1 (stepM (acc, id) (k, v)).2
        exact runsD_more hw hx hw1 hw2 (starts_of_value hv) h3 hw' hk (h5 (by rw [h4]; exact h))
      · exact runsD_panic hw hx hw1 hw2 (starts_of_value hv) (h2 hn')

/-! ### Panics propagate -/

def RunsAt (s : Sess) (u : Bytes) (p : PPanic) : Pos → Prop
  | .value => RunsV s u (.panic p)
  | .elements => ∀ acc, RunsA s u acc (.panic p)
  | .members => ∀ acc id, RunsD s u acc id (.panic p)

theorem reach_panics {t : Bytes} {pos : Pos} {ids : List Int} {u : Bytes} (h : Reach t pos ids u) (p : PPanic) :
    ids.Nodup → (∀ s : Sess, s.saved = ids → RunsAt s u p pos) →
    ∃ w u, t = w ++ u ∧ Blanks w ∧ Starts u ∧ RunsV {} u (.panic p) := by
  induction h with
  | start h1 h2 h3 =>
    intro _ h
    exact ⟨_, _, h1, h2, h3, h {} rfl⟩
  | array _ ih =>
    intro hn h
    exact ih hn fun s hs => runsV_arr_panic (h s hs [])
  | dict _ ih =>
    intro hn h
    exact ih hn fun s hs => runsV_dict_panic (h s hs [] 0)
  | elem _ hw hu h93 ih =>
    intro hn h
    exact ih hn fun s hs acc => runsA_panic hw hu h93 (h s hs)
  | elemNext _ hw hv hw' ih =>
    intro hn h
    refine ih (nodup_left hn) fun s hs acc => ?_
    obtain ⟨s', h1, h2⟩ := (value_complete hv s (by rw [hs]; exact nodup_left hn)).1 (by rw [hs]; exact hn)
    exact runsA_more hw (starts_of_value hv) (val93 hv) h1 hw' (h s' (by rw [h2, hs]) _)
  | mem _ hw hx hw1 hw2 hu ih =>
    intro hn h
    exact ih hn fun s hs acc id => runsD_panic hw hx hw1 hw2 hu (h s hs)
  | memNext _ hw hx hw1 hw2 hv hw' hk ih =>
    intro hn h
    refine ih (nodup_left hn) fun s hs acc id => ?_
    obtain ⟨s', h1, h2⟩ := (value_complete hv s (by rw [hs]; exact nodup_left hn)).1 (by rw [hs]; exact hn)
    exact runsD_more hw hx hw1 hw2 (starts_of_value hv) h1 hw' hk (h s' (by rw [h2, hs]) _ _)

theorem stop_panics (s : Sess) {c : UInt8} (r : Bytes) (hc : StopByte c) : RunsV s (c :: r) (.panic .index) := by
  refine ⟨by simp, 1, ?_⟩
  have hd : isDelim c = true := by rcases hc with rfl | rfl | rfl | rfl <;> rfl
  rw [parseVal_scalar]
  · unfold parseJSONValue
    have hq : ¬ (c = 34 ∨ c = 39) := by rcases hc with rfl | rfl | rfl | rfl <;> decide
    simp only [parseString]
    rw [if_neg hq]
    simp [hd]
  · intro x hx; cases hx
    rcases hc with rfl | rfl | rfl | rfl <;> decide

theorem cause_panics {t : Bytes} {p : PPanic} (h : Cause t p) : ∃ w u, t = w ++ u ∧ Blanks w ∧ Starts u ∧ RunsV {} u (.panic p) := by
  cases p with
  | index =>
    obtain ⟨ids, c, r, h1, h2, h3⟩ := h
    exact reach_panics h1 .index h2 fun s _ => stop_panics s r h3
  | typeAssert =>
    obtain ⟨ids, ids', w, x, w1, w2, u, v, r, h1, h2, h3, h4, h5, h6, h7, h8⟩ := h
    refine reach_panics h1 .typeAssert (nodup_left h7) fun s hs acc id => ?_
    obtain ⟨s', h9, _⟩ := (value_complete h6 s (by rw [hs]; exact nodup_left h7)).1 (by rw [hs]; exact h7)
    exact runsD_bad h2 h3 h4 h5 (starts_of_value h6) h9 (fun h => h8 (h rfl))
  | dupNode =>
    obtain ⟨ids, ids', u, v, r, h1, h2, h3, h4⟩ := h
    refine reach_panics h1 .dupNode h3 fun s hs => ?_
    exact (value_complete h2 s (by rw [hs]; exact h3)).2 (by rw [hs]; exact h4)

/-! ### The entry point -/

theorem stream_of_runs {str : Bytes} {offset : Nat} {w u : Bytes} {x} (h : str.drop offset = w ++ u) (hw : Blanks w) (hu : Starts u) (hx : RunsV {} u x) :
    (∀ v s' r, x = .ok (v, s') r → parseStream str offset = .ok v (str.length - r.length)) ∧
    (∀ p, x = .panic p → parseStream str offset = .panic p) := by
  obtain ⟨h1, f, hf⟩ := hx
  have h2 := skip_starts hw hu
  have h3 : parseVal (parseFuel u) {} u = x := parseVal_of_fuel h1 hf
  obtain ⟨c, r, rfl, _⟩ := hu
  refine ⟨?_, ?_⟩
  · rintro v s' r rfl
    unfold parseStream
    rw [h, h2]; simp only
    rw [h3]
  · rintro p rfl
    unfold parseStream
    rw [h, h2]; simp only
    rw [h3]

theorem stream_ok_iff (str : Bytes) (offset : Nat) (v : J) (off : Nat) :
    parseStream str offset = .ok v off ↔
      ∃ w u ids r, str.drop offset = w ++ u ∧ Blanks w ∧ Value u v ids r ∧ ids.Nodup ∧ off = str.length - r.length := by
  constructor
  · intro h
    unfold parseStream at h
    split at h
    · cases h
    · rename_i hne
      generalize hs : skipEmpty (str.drop offset) = u at *
      obtain ⟨w, hw, hb⟩ := skip_split hs
      have h1 := (parse_sound (parseFuel u)).1 {} u
      cases hp : parseVal (parseFuel u) {} u with
      | ok a r =>
        obtain ⟨v', s'⟩ := a
        rw [hp] at h h1
        cases h
        obtain ⟨ids, h2, h3, h4⟩ := h1
        have h5 := h4 (by simp)
        rw [h3] at h5
        exact ⟨w, u, ids, r, hw, hb, h2, by simpa using h5, rfl⟩
      | err e r => rw [hp] at h; cases h
      | panic p => rw [hp] at h; cases h
      | fuel => rw [hp] at h; cases h
  · rintro ⟨w, u, ids, r, h1, h2, h3, h4, rfl⟩
    obtain ⟨s', h5, _⟩ := (value_complete h3 {} (by simp)).1 (by simpa using h4)
    exact (stream_of_runs h1 h2 (starts_of_value h3) h5).1 _ _ _ rfl

theorem stream_panic_iff (str : Bytes) (offset : Nat) (p : PPanic) : parseStream str offset = .panic p ↔ Cause (str.drop offset) p := by
  constructor
  · intro h
    unfold parseStream at h
    split at h
    · cases h
    · rename_i hne
      generalize hs : skipEmpty (str.drop offset) = u at *
      obtain ⟨w, hw, hb⟩ := skip_split hs
      have h1 := (parse_sound (parseFuel u)).1 {} u
      cases hp : parseVal (parseFuel u) {} u with
      | ok a r => rw [hp] at h; cases h
      | err e r => rw [hp] at h; cases h
      | panic p =>
        rw [hp] at h h1
        cases h
        refine h1 _ (.start hw hb ?_) (by simp)
        cases u with
        | nil => exact absurd rfl hne
        | cons c u => exact ⟨c, u, rfl, skip_head hs⟩
      | fuel => rw [hp] at h; cases h
  · intro h
    obtain ⟨w, u, h1, h2, h3, h4⟩ := cause_panics h
    exact (stream_of_runs h1 h2 h3 h4).2 _ rfl

end Jsonutils.Lenient
