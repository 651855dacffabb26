import Verif.Proofs.Stream

/-! Parsing the pretty-printed text. -/

set_option linter.unusedSimpArgs false

namespace Jsonutils

theorem parseArr_gen (f : Nat) (s : Sess) (rest t : Bytes) (acc : List J) (hs : StartsValue t)
    (hr : skipEmpty rest = t) :
    parseArr (f + 1) s rest acc = match parseVal f s t with
      | .err e r => .err e r
      | .panic p => .panic p
      | .fuel => .fuel
      | .ok (v, s') r4 =>
        match skipEmpty r4 with
        | [] => .err .truncated []
        | c5 :: r5 =>
          if c5 = 44 then parseArr f s' r5 (acc ++ [v])
          else if c5 = 93 then .ok (acc ++ [v], s') r5
          else .err .unexpected (c5 :: r5) := by
  obtain ⟨c, u, rfl, h1, h2, h3⟩ := hs
  cases rest with
  | nil => simp [skipEmpty] at hr
  | cons d r =>
    rw [parseArr.eq_def]
    simp only [hr]
    split
    · simp_all
    · simp_all
    · rfl

theorem parseDict_gen (f : Nat) (s : Sess) (rest r0 r1 r2 k t : Bytes) (q : Bool) (acc : SMap J) (id : Int)
    (hr : skipEmpty rest = r0) (hr0 : ∃ c u, r0 = c :: u ∧ c ≠ 125) (hk : parseString r0 = .ok (k, q) r1)
    (h1 : skipEmpty r1 = 58 :: r2) (h2 : skipEmpty r2 = t) (hs : StartsValue t) :
    parseDict (f + 1) s rest acc id = match parseVal f s t with
      | .err e r => .err e r
      | .panic p => .panic p
      | .fuel => .fuel
      | .ok (v, s') r4 =>
        match (if k = jsonPointerKey then
            match v with
            | .int n => some (acc, n)
            | _ => none
          else some (smAdd acc k v, id)) with
        | none => .panic .typeAssert
        | some (acc', id') =>
          match skipEmpty r4 with
          | [] => .err .truncated []
          | c5 :: r5 =>
            if c5 = 44 then parseDict f s' r5 acc' id'
            else if c5 = 125 then .ok (acc', id', s') r5
            else .err .unexpected (c5 :: r5) := by
  obtain ⟨c, u, rfl, h3, h4, h5⟩ := hs
  obtain ⟨c', u', rfl, h6⟩ := hr0
  cases rest with
  | nil => simp [skipEmpty] at hr
  | cons d r =>
    rw [parseDict.eq_def]
    simp only [hr]
    split
    · simp_all
    · simp_all
    · simp only [hk, h1, h2, if_true]
      rfl

theorem parseArr_end (f : Nat) (s : Sess) (rest r : Bytes) (acc : List J) (h : skipEmpty rest = 93 :: r) :
    parseArr (f + 1) s rest acc = .ok (acc, s) r := by
  cases rest with
  | nil => simp [skipEmpty] at h
  | cons d r =>
    rw [parseArr.eq_def]; simp only [h]

theorem parseDict_end (f : Nat) (s : Sess) (rest r : Bytes) (acc : SMap J) (id : Int)
    (h : skipEmpty rest = 125 :: r) : parseDict (f + 1) s rest acc id = .ok (acc, id, s) r := by
  cases rest with
  | nil => simp [skipEmpty] at h
  | cons d r =>
    rw [parseDict.eq_def]; simp only [h]

theorem indent_ws (l : Nat) : ∀ c ∈ indent l, isWS c = true := by
  intro c hc
  simp [indent] at hc
  rw [hc.2]; decide

theorem skipEmpty_indent (l : Nat) (t : Bytes) : skipEmpty (indent l ++ t) = skipEmpty t :=
  skipEmpty_ws _ _ (indent_ws l)

theorem skipEmpty_nl (t : Bytes) : skipEmpty (10 :: t) = skipEmpty t := by simp [skipEmpty, isWS]
theorem skipEmpty_sp (t : Bytes) : skipEmpty (32 :: t) = skipEmpty t := by simp [skipEmpty, isWS]

/-- A key that `PrettyString` writes correctly: it contains neither a quote nor a backslash. -/
def RawKey (k : Bytes) : Prop := (34 : UInt8) ∉ k ∧ (92 : UInt8) ∉ k

mutual
/-- Every dictionary key is written correctly by `PrettyString`. -/
def J.RawKeys : J → Prop
  | .arr xs => J.RawKeyss xs
  | .dict _ kvs => J.RawKeysf kvs
  | _ => True
def J.RawKeyss : List J → Prop
  | [] => True
  | x :: xs => J.RawKeys x ∧ J.RawKeyss xs
def J.RawKeysf : List (Bytes × J) → Prop
  | [] => True
  | (k, x) :: xs => RawKey k ∧ J.RawKeys x ∧ J.RawKeysf xs
end

theorem parseQuote_raw (k rest buf : Bytes) (h : RawKey k) :
    parseQuote 34 (k ++ 34 :: rest) buf = .ok (buf ++ k) rest := by
  induction k generalizing buf with
  | nil => simp [parseQuote_end]
  | cons c k ih =>
    have h1 : c ≠ 34 := by rintro rfl; exact h.1 (by simp)
    have h2 : c ≠ 92 := by rintro rfl; exact h.2 (by simp)
    rw [List.cons_append, parseQuote_plain _ _ h2 h1, ih _ ⟨fun h' => h.1 (by simp [h']), fun h' => h.2 (by simp [h'])⟩]
    simp

theorem parseString_raw (k rest : Bytes) (h : RawKey k) :
    parseString (34 :: (k ++ 34 :: rest)) = .ok (k, true) rest := by
  simp only [parseString, true_or, if_true, parseQuote_raw k rest [] h, List.nil_append]

theorem prettyArr_false (xs : List J) (l : Nat) :
    J.prettyArr xs l false = if xs = [] then [] else 44 :: J.prettyArr xs l true := by
  cases xs <;> simp [J.prettyArr]

theorem prettyDict_false (xs : List (Bytes × J)) (l : Nat) :
    J.prettyDict xs l false = if xs = [] then [] else 44 :: J.prettyDict xs l true := by
  cases xs with
  | nil => simp [J.prettyDict]
  | cons p xs => obtain ⟨k, x⟩ := p; simp [J.prettyDict]

/-- Scalars print the same with `prettyString` and `String`. -/
theorem pretty_scalar (v : J) (l : Nat) (h : v.isDictOrArr = false) : v.pretty l = indent l ++ v.toBytes := by
  cases v <;> first | rfl | (simp [J.isDictOrArr] at h)

theorem sorted_unlabelf {kvs : List (Bytes × J)} (h : SMap.Sorted kvs) : SMap.Sorted (J.unlabelf kvs) := by
  have hk : ∀ kvs : List (Bytes × J), J.unlabelf kvs = kvs.map fun p => (p.1, p.2.unlabel) := by
    intro kvs
    induction kvs with
    | nil => rfl
    | cons p kvs ih => obtain ⟨k, x⟩ := p; simp [J.unlabelf, ih]
  unfold SMap.Sorted at *
  rw [hk, List.pairwise_map]; exact h

mutual
theorem unlabel_plain : (v : J) → v.Plain → v.unlabel = v
  | .arr xs, h => by rw [J.unlabel, unlabel_plains xs h]
  | .dict i kvs, h => by rw [J.unlabel, unlabel_plainf kvs h.2, h.1]
  | .null, _ => rfl
  | .bool _, _ => rfl
  | .int _, _ => rfl
  | .float _ _, _ => rfl
  | .str _, _ => rfl
  | .ptr _, _ => rfl
theorem unlabel_plains : (xs : List J) → J.Plains xs → J.unlabels xs = xs
  | [], _ => rfl
  | x :: xs, h => by rw [J.unlabels, unlabel_plain x h.1, unlabel_plains xs h.2]
theorem unlabel_plainf : (xs : List (Bytes × J)) → J.Plainf xs → J.unlabelf xs = xs
  | [], _ => rfl
  | (k, x) :: xs, h => by rw [J.unlabelf, unlabel_plain x h.2.1, unlabel_plainf xs h.2.2]
end

theorem roundTrip_plain (v : J) (s : Sess) (rest : Bytes) (hd : Delimited rest) (hw : v.WF) (hp : v.Refable)
    (hns : v.isDictOrArr = false) : ∃ f, parseVal f s (v.toBytes ++ rest) = .ok (v.unlabel.reread, ⟨s.saved, s.refs ++ v.ptrIds⟩) rest := by
  cases v with
  | arr xs => simp [J.isDictOrArr] at hns
  | dict i k => simp [J.isDictOrArr] at hns
  | ptr i =>
    refine ⟨1, ?_⟩
    rw [J.toBytes, parseVal_ptr 0 s i rest hp hd]
    simp [J.reread, J.unlabel, J.ptrIds, Sess.saveReferer]
  | null =>
    refine ⟨1, ?_⟩
    rw [J.toBytes, parseVal_scalar 0 s _ rest ⟨by decide, _, _, rfl, by decide⟩ hd (by decide)]
    simp [J.ptrIds]; rfl
  | bool b =>
    refine ⟨1, ?_⟩
    cases b <;> rw [J.toBytes, parseVal_scalar 0 s _ rest ⟨by decide, _, _, rfl, by decide⟩ hd (by decide)] <;> simp [J.ptrIds] <;> rfl
  | int n =>
    refine ⟨1, ?_⟩
    rw [J.toBytes, parseVal_scalar 0 s _ rest (tok_of_digits (intDec_chars' n) (intDec_ne_nil n)) hd
        (head_of_digits (intDec_chars' n)), scalarOf_intDec n hw]
    simp [J.ptrIds]; rfl
  | float x b =>
    refine ⟨1, ?_⟩
    have := formatFloat_tok x (floatBits b)
    rw [J.toBytes, parseVal_scalar 0 s _ rest this.1 hd this.2, scalarOf_formatFloat]
    simp [J.ptrIds]; rfl
  | str t => exact ⟨1, by rw [J.toBytes, parseVal_quote]; simp [J.ptrIds]; rfl⟩

mutual
theorem prettyTrip : (v : J) → (l : Nat) → (s : Sess) → (rest : Bytes) → v.isDictOrArr = true ∨ Delimited rest →
    v.WF → v.Refable → v.RawKeys →
    ∃ f t, v.pretty l = indent l ++ t ∧ StartsValue t ∧ parseVal f s (t ++ rest) = .ok (v.unlabel.reread, ⟨s.saved, s.refs ++ v.ptrIds⟩) rest
  | .null, l, s, rest, hd, hw, hp, _ => by
      obtain ⟨f, h⟩ := roundTrip_plain .null s rest (by simpa [J.isDictOrArr] using hd) hw hp rfl
      exact ⟨f, _, pretty_scalar _ l rfl, toBytes_starts _, h⟩
  | .bool b, l, s, rest, hd, hw, hp, _ => by
      obtain ⟨f, h⟩ := roundTrip_plain (.bool b) s rest (by simpa [J.isDictOrArr] using hd) hw hp rfl
      exact ⟨f, _, pretty_scalar _ l rfl, toBytes_starts _, h⟩
  | .int n, l, s, rest, hd, hw, hp, _ => by
      obtain ⟨f, h⟩ := roundTrip_plain (.int n) s rest (by simpa [J.isDictOrArr] using hd) hw hp rfl
      exact ⟨f, _, pretty_scalar _ l rfl, toBytes_starts _, h⟩
  | .float x b, l, s, rest, hd, hw, hp, _ => by
      obtain ⟨f, h⟩ := roundTrip_plain (.float x b) s rest (by simpa [J.isDictOrArr] using hd) hw hp rfl
      exact ⟨f, _, pretty_scalar _ l rfl, toBytes_starts _, h⟩
  | .str t, l, s, rest, hd, hw, hp, _ => by
      obtain ⟨f, h⟩ := roundTrip_plain (.str t) s rest (by simpa [J.isDictOrArr] using hd) hw hp rfl
      exact ⟨f, _, pretty_scalar _ l rfl, toBytes_starts _, h⟩
  | .ptr i, l, s, rest, hd, hw, hp, _ => by
      obtain ⟨f, h⟩ := roundTrip_plain (.ptr i) s rest (by simpa [J.isDictOrArr] using hd) hw hp rfl
      exact ⟨f, _, pretty_scalar _ l rfl, toBytes_starts _, h⟩
  | .arr [], l, s, rest, _, _, _, _ =>
      ⟨2, b!"[]", rfl, ⟨91, [93], rfl, by decide⟩, by
        rw [parseVal.eq_def]; simp only [List.cons_append, List.nil_append]
        rw [parseArr_end 0 s (93 :: rest) rest [] (skipEmpty_cons (by decide))]
        simp [J.unlabel, J.unlabels, J.reread, J.rereads, J.ptrIds, J.ptrIdss]⟩
  | .arr (x :: xs), l, s, rest, _, hw, hp, hk => by
      obtain ⟨f, h⟩ := prettyTrips (x :: xs) l s rest [] hw hp hk
      refine ⟨f + 1, 91 :: (J.prettyArr (x :: xs) l true ++ 10 :: indent l ++ [93]), rfl, ⟨91, _, rfl, by decide⟩, ?_⟩
      rw [parseVal.eq_def]
      simp only [List.cons_append, List.append_assoc, List.nil_append, h, J.reread, J.unlabel, J.ptrIds]
  | .dict id [], l, s, rest, _, _, hp, _ =>
      ⟨2, b!"{}", rfl, ⟨123, [125], rfl, by decide⟩, by
        rw [parseVal.eq_def]; simp only [List.cons_append, List.nil_append]
        rw [parseDict_end 0 s (125 :: rest) rest [] 0 (skipEmpty_cons (by decide))]
        simp [J.reread, J.rereadf, J.unlabel, J.unlabelf, J.ptrIds, J.ptrIdsf]⟩
  | .dict id (kv :: kvs), l, s, rest, _, hw, hp, hk => by
      have hfold : (J.rereadf (J.unlabelf (kv :: kvs))).foldl (fun m kv => smAdd m kv.1 kv.2) [] = J.rereadf (J.unlabelf (kv :: kvs)) := by
        have := foldl_smAdd_sorted (J.rereadf (J.unlabelf (kv :: kvs))) [] (by simpa using sorted_rereadf (sorted_unlabelf hw.1))
        simpa using this
      obtain ⟨f, h⟩ := prettyTripf (kv :: kvs) l s rest [] hw.2 hp.2 hk
      rw [hfold] at h
      refine ⟨f + 1, 123 :: (J.prettyDict (kv :: kvs) l true ++ 10 :: indent l ++ [125]), rfl,
        ⟨123, _, rfl, by decide⟩, ?_⟩
      rw [parseVal.eq_def]
      simp only [List.cons_append, List.append_assoc, List.nil_append, h, J.reread, J.unlabel, J.ptrIds]
      simp

theorem prettyTrips : (xs : List J) → (l : Nat) → (s : Sess) → (rest : Bytes) → (acc : List J) →
    J.WFs xs → J.Refables xs → J.RawKeyss xs →
    ∃ f, parseArr f s (J.prettyArr xs l true ++ 10 :: (indent l ++ 93 :: rest)) acc =
      .ok (acc ++ J.rereads (J.unlabels xs), ⟨s.saved, s.refs ++ J.ptrIdss xs⟩) rest
  | [], l, s, rest, acc, _, _, _ => ⟨1, by
      rw [J.prettyArr, List.nil_append, parseArr_end 0 s _ rest acc (by
        rw [skipEmpty_nl, skipEmpty_indent, skipEmpty_cons (by decide)])]
      simp [J.rereads, J.unlabels, J.ptrIdss]⟩
  | x :: xs, l, s, rest, acc, hw, hp, hk => by
      have hdel : Delimited (J.prettyArr xs l false ++ 10 :: (indent l ++ 93 :: rest)) := by
        rw [prettyArr_false]
        split
        · exact delimited_cons (by decide)
        · exact delimited_cons (by decide)
      obtain ⟨f1, t, ht, hst, h1⟩ := prettyTrip x (l + 1) s _ (Or.inr hdel) hw.1 hp.1 hk.1
      obtain ⟨f2, h2⟩ := prettyTrips xs l ⟨s.saved, s.refs ++ x.ptrIds⟩ rest (acc ++ [x.unlabel.reread]) hw.2 hp.2 hk.2
      refine ⟨max f1 f2 + 1, ?_⟩
      rw [J.prettyArr, ht]
      simp only [if_true, List.nil_append, List.append_assoc, List.cons_append]
      rw [parseArr_gen _ _ _ _ _ (hst.append _) (by
        rw [skipEmpty_nl, skipEmpty_indent, skipEmpty_starts (hst.append _)])]
      rw [parseVal_fuel_le (Nat.le_max_left f1 f2) _ _ (by rw [h1]; simp), h1]
      simp only
      rw [prettyArr_false]
      by_cases he : xs = []
      · subst he
        simp only [if_true, List.nil_append]
        rw [skipEmpty_nl, skipEmpty_indent, skipEmpty_cons (by decide)]
        simp [J.rereads, J.unlabels, J.ptrIdss]
      · simp only [he, if_false, List.cons_append]
        rw [skipEmpty_cons (by decide)]
        simp only [if_true]
        rw [parseArr_fuel_le (Nat.le_max_right f1 f2) _ _ _ (by rw [h2]; simp), h2]
        simp [J.rereads, J.unlabels, J.ptrIdss]

theorem prettyTripf : (kvs : List (Bytes × J)) → (l : Nat) → (s : Sess) → (rest : Bytes) → (acc : SMap J) →
    J.WFf kvs → J.Refablef kvs → J.RawKeysf kvs →
    ∃ f, parseDict f s (J.prettyDict kvs l true ++ 10 :: (indent l ++ 125 :: rest)) acc 0 =
      .ok ((J.rereadf (J.unlabelf kvs)).foldl (fun m kv => smAdd m kv.1 kv.2) acc, 0, ⟨s.saved, s.refs ++ J.ptrIdsf kvs⟩) rest
  | [], l, s, rest, acc, _, _, _ => ⟨1, by
      rw [J.prettyDict, List.nil_append, parseDict_end 0 s _ rest acc 0 (by
        rw [skipEmpty_nl, skipEmpty_indent, skipEmpty_cons (by decide)])]
      simp [J.rereadf, J.unlabelf, J.ptrIdsf]⟩
  | (k, x) :: kvs, l, s, rest, acc, hw, hp, hk => by
      have hdel : Delimited (J.prettyDict kvs l false ++ 10 :: (indent l ++ 125 :: rest)) := by
        rw [prettyDict_false]
        split
        · exact delimited_cons (by decide)
        · exact delimited_cons (by decide)
      obtain ⟨f2, h2⟩ := prettyTripf kvs l ⟨s.saved, s.refs ++ x.ptrIds⟩ rest (smAdd acc k x.unlabel.reread) hw.2 hp.2.2 hk.2.2
      -- the text of the value, whichever of the two layouts is used
      have hv : ∃ f1 w t, (if x.isDictOrArr then 10 :: x.pretty (l + 2) else 32 :: x.toBytes) = w ++ t ∧
          (∀ c ∈ w, isWS c = true) ∧ StartsValue t ∧
          parseVal f1 s (t ++ (J.prettyDict kvs l false ++ 10 :: (indent l ++ 125 :: rest))) = .ok (x.unlabel.reread, ⟨s.saved, s.refs ++ x.ptrIds⟩)
            (J.prettyDict kvs l false ++ 10 :: (indent l ++ 125 :: rest)) := by
        by_cases hx : x.isDictOrArr = true
        · obtain ⟨f1, t, ht, hst, h1⟩ := prettyTrip x (l + 2) s _ (Or.inr hdel) hw.1 hp.2.1 hk.2.1
          refine ⟨f1, 10 :: indent (l + 2), t, by simp [hx, ht], ?_, hst, h1⟩
          intro c hc
          rcases List.mem_cons.1 hc with rfl | hc
          · decide
          · exact indent_ws _ c hc
        · have hx' : x.isDictOrArr = false := by simpa using hx
          obtain ⟨f1, h1⟩ := roundTrip_plain x s _ hdel hw.1 hp.2.1 hx'
          exact ⟨f1, [32], x.toBytes, by simp [hx'], by decide, toBytes_starts x, h1⟩
      obtain ⟨f1, w, t, htxt, hws, hst, h1⟩ := hv
      refine ⟨max f1 f2 + 1, ?_⟩
      rw [J.prettyDict, htxt]
      simp only [if_true, List.nil_append, List.append_assoc, List.cons_append]
      rw [parseDict_gen (max f1 f2) s _ _ _ _ k _ true acc 0 (by
          rw [skipEmpty_nl, skipEmpty_indent, skipEmpty_sp, skipEmpty_sp, skipEmpty_cons (by decide)])
        ⟨34, _, rfl, by decide⟩ (parseString_raw k _ hk.1) (skipEmpty_cons (by decide))
        (by rw [skipEmpty_ws _ _ hws, skipEmpty_starts (hst.append _)]) (hst.append _)]
      rw [parseVal_fuel_le (Nat.le_max_left f1 f2) _ _ (by rw [h1]; simp), h1]
      simp only [hp.1, if_false]
      rw [prettyDict_false]
      by_cases he : kvs = []
      · subst he
        simp only [if_true, List.nil_append]
        rw [skipEmpty_nl, skipEmpty_indent, skipEmpty_cons (by decide)]
        simp [J.rereadf, J.unlabelf, J.ptrIdsf]
      · simp only [he, if_false, List.cons_append]
        rw [skipEmpty_cons (by decide)]
        simp only [if_true]
        rw [parseDict_fuel_le (Nat.le_max_right f1 f2) _ _ _ _ (by rw [h2]; simp), h2]
        simp [J.rereadf, J.unlabelf, J.ptrIdsf]
end

theorem parse_pretty (v : J) (hw : v.WF) (hp : v.Refable) (hk : v.RawKeys) :
    parseStream v.prettyString 0 = .ok v.unlabel.reread v.prettyString.length := by
  obtain ⟨f, t, ht, hst, h⟩ := prettyTrip v 0 {} [] (Or.inr delimited_nil) hw hp hk
  have h0 : v.prettyString = t := by simp [J.prettyString, ht, indent]
  rw [List.append_nil] at h
  rw [parseStream_of (str := v.prettyString) (offset := 0) (t := t) (by
    rw [h0]; exact skipEmpty_starts hst) h]
  simp

end Jsonutils
