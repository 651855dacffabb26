import Verif.Proofs.ParseFuel
import Verif.Proofs.Float
import Verif.Proofs.SortedMap
import Verif.Spec.Doc

/-! Parsing the serialised text. -/

set_option linter.unusedSimpArgs false

namespace Jsonutils

/-- A bare token: non-empty, no delimiter, does not start like a quoted string, array, dictionary. -/
def IsTok (t : Bytes) : Prop :=
  (∀ c ∈ t, isDelim c = false) ∧ ∃ d u, t = d :: u ∧ d ≠ 34 ∧ d ≠ 39 ∧ d ≠ 91 ∧ d ≠ 123

/-- The rest of the input does not extend a token. -/
def Delimited (rest : Bytes) : Prop := ∀ c t, rest = c :: t → isDelim c = true

theorem takeWhile_delim (t rest : Bytes) (h : ∀ c ∈ t, isDelim c = false) (hr : Delimited rest) :
    (t ++ rest).takeWhile (fun x => !isDelim x) = t ∧ (t ++ rest).dropWhile (fun x => !isDelim x) = rest := by
  induction t with
  | nil =>
    cases rest with
    | nil => simp
    | cons c r => simp [hr c r rfl]
  | cons c t ih =>
    have hc := h c (by simp)
    have := ih (fun d hd => h d (by simp [hd]))
    simp [hc, this]

theorem parseString_tok (t rest : Bytes) (ht : IsTok t) (hr : Delimited rest) :
    parseString (t ++ rest) = .ok (t, false) rest := by
  obtain ⟨hd, d, u, rfl, h1, h2, _, _⟩ := ht
  have := takeWhile_delim (d :: u) rest hd hr
  simp only [List.cons_append] at this ⊢
  simp only [parseString, h1, h2, or_self, if_false, this.1, this.2]

theorem parseVal_tok (f : Nat) (s : Sess) (t rest : Bytes) (ht : IsTok t) :
    parseVal (f + 1) s (t ++ rest) = parseJSONValue s (t ++ rest) := by
  obtain ⟨_, d, u, rfl, _, _, h3, h4⟩ := ht
  rw [parseVal.eq_def]
  simp only [List.cons_append]
  split
  · simp_all
  · simp_all
  · rfl

theorem parseVal_scalar (f : Nat) (s : Sess) (t rest : Bytes) (ht : IsTok t) (hr : Delimited rest)
    (hp : t.head? ≠ some 60) : parseVal (f + 1) s (t ++ rest) = .ok (scalarOf t, s) rest := by
  rw [parseVal_tok f s t rest ht]
  unfold parseJSONValue
  rw [parseString_tok t rest ht hr]
  obtain ⟨_, d, u, rfl, _⟩ := ht
  have : d ≠ 60 := by simpa using hp
  simp [this]

theorem parseVal_quote (f : Nat) (st : Sess) (s rest : Bytes) :
    parseVal (f + 1) st (quoteString s ++ rest) = .ok (.str s, st) rest := by
  have : parseVal (f + 1) st (quoteString s ++ rest) = parseJSONValue st (quoteString s ++ rest) := by
    rw [parseVal.eq_def]; simp [quoteString]
  rw [this, parseJSONValue_quote]

/-! ### Texts of scalars are tokens -/

theorem tok_of_digits {t : Bytes} (h : ∀ c ∈ t, isDigit c = true ∨ c = 45 ∨ c = 46) (hne : t ≠ []) : IsTok t := by
  have key : ∀ c : UInt8, isDigit c = true ∨ c = 45 ∨ c = 46 →
      isDelim c = false ∧ c ≠ 34 ∧ c ≠ 39 ∧ c ≠ 91 ∧ c ≠ 123 ∧ c ≠ 60 := by
    intro c hc
    rcases hc with hc | rfl | rfl
    · refine ⟨?_, ?_⟩
      · unfold isDelim
        have h1 : c ≠ 32 := isDigit_ne hc (by decide)
        have h2 : c ≠ 58 := isDigit_ne hc (by decide)
        have h3 : c ≠ 44 := isDigit_ne hc (by decide)
        have h4 : c ≠ 9 := isDigit_ne hc (by decide)
        have h5 : c ≠ 13 := isDigit_ne hc (by decide)
        have h6 : c ≠ 10 := isDigit_ne hc (by decide)
        have h7 : c ≠ 125 := isDigit_ne hc (by decide)
        have h8 : c ≠ 93 := isDigit_ne hc (by decide)
        simp [h1, h2, h3, h4, h5, h6, h7, h8]
      · exact ⟨isDigit_ne hc (by decide), isDigit_ne hc (by decide), isDigit_ne hc (by decide),
          isDigit_ne hc (by decide), isDigit_ne hc (by decide)⟩
    · decide
    · decide
  cases t with
  | nil => exact absurd rfl hne
  | cons d u =>
    refine ⟨fun c hc => (key c (h c hc)).1, d, u, rfl, ?_⟩
    have := key d (h d (by simp))
    exact ⟨this.2.1, this.2.2.1, this.2.2.2.1, this.2.2.2.2.1⟩

theorem head_of_digits {t : Bytes} (h : ∀ c ∈ t, isDigit c = true ∨ c = 45 ∨ c = 46) : t.head? ≠ some 60 := by
  cases t with
  | nil => simp
  | cons d u =>
    have := h d (by simp)
    simp
    rintro rfl
    revert this; decide

theorem intDec_chars' (n : Int) : ∀ c ∈ intDec n, isDigit c = true ∨ c = 45 ∨ c = 46 := by
  intro c hc
  rcases intDec_chars n c hc with h | h
  · exact Or.inl h
  · exact Or.inr (Or.inl h)

theorem formatFloat_cases (x : GoFloat) (b : Nat) :
    formatFloat x b = b!"NaN" ∨ formatFloat x b = b!"+Inf" ∨ formatFloat x b = b!"-Inf" ∨
    ∃ neg c k, formatFloat x b = signBytes neg ++ decText c k := by
  cases x with
  | nan => left; rfl
  | inf neg => cases neg <;> simp [formatFloat]
  | fin neg m e =>
    unfold formatFloat
    simp only
    split
    · split
      · cases neg <;> simp
      · rename_i m' e' _
        obtain ⟨c, k, h, _⟩ := fmtMag_decText f32 m' e'
        right; right; right
        exact ⟨neg, c, k, by rw [h]⟩
    · obtain ⟨c, k, h, _⟩ := fmtMag_decText f64 m e
      right; right; right
      exact ⟨neg, c, k, by rw [h]⟩

theorem signed_chars (neg : Bool) (c : Nat) (k : Int) :
    ∀ x ∈ signBytes neg ++ decText c k, isDigit x = true ∨ x = 45 ∨ x = 46 := by
  intro x hx
  rcases List.mem_append.1 hx with h | h
  · cases neg <;> simp [signBytes] at h
    exact Or.inr (Or.inl h)
  · rcases decText_chars c k x h with h | h
    · exact Or.inl h
    · exact Or.inr (Or.inr h)

theorem signed_ne (neg : Bool) (c : Nat) (k : Int) : signBytes neg ++ decText c k ≠ [] := by
  obtain ⟨d, t, h, _⟩ := decText_head c k
  simp [h]

theorem formatFloat_tok (x : GoFloat) (b : Nat) : IsTok (formatFloat x b) ∧ (formatFloat x b).head? ≠ some 60 := by
  rcases formatFloat_cases x b with h | h | h | ⟨neg, c, k, h⟩
  · rw [h]; exact ⟨⟨by decide, _, _, rfl, by decide⟩, by decide⟩
  · rw [h]; exact ⟨⟨by decide, _, _, rfl, by decide⟩, by decide⟩
  · rw [h]; exact ⟨⟨by decide, _, _, rfl, by decide⟩, by decide⟩
  · rw [h]
    exact ⟨tok_of_digits (signed_chars neg c k) (signed_ne neg c k), head_of_digits (signed_chars neg c k)⟩

/-- A text that is no word of the language is read as a number. -/
theorem scalarOf_number (t : Bytes) (h : ∀ w ∈ [b!"", b!"null", b!"none", b!"true", b!"yes", b!"false", b!"no"],
    lowerBytes t ≠ w) : scalarOf t = numberOf t := by
  unfold scalarOf numberOf
  simp only [List.mem_cons, List.not_mem_nil, or_false] at h
  simp only
  rw [if_neg (by
    rintro (h' | h' | h')
    · exact h _ (by simp) h'
    · exact h _ (by simp) h'
    · exact h _ (by simp) h'), if_neg (by
    rintro (h' | h')
    · exact h _ (by simp) h'
    · exact h _ (by simp) h'), if_neg (by
    rintro (h' | h')
    · exact h _ (by simp) h'
    · exact h _ (by simp) h')]
  rfl

theorem scalarOf_digits (t : Bytes) (h : ∀ c ∈ t, isDigit c = true ∨ c = 45 ∨ c = 46) (hne : t ≠ []) :
    scalarOf t = numberOf t := by
  apply scalarOf_number
  cases t with
  | nil => exact absurd rfl hne
  | cons d u =>
    have hd := h d (by simp)
    have hlow : lowerByte d = d := by
      rcases hd with hd | rfl | rfl
      · exact lowerByte_digit hd
      · decide
      · decide
    have hn : ∀ c : UInt8, isDigit c = false → c ≠ 45 → c ≠ 46 → d ≠ c := by
      rintro c h1 h2 h3 rfl
      rcases hd with hd | hd | hd
      · simp_all
      · exact h2 hd
      · exact h3 hd
    intro w hw
    simp only [List.mem_cons, List.not_mem_nil, or_false] at hw
    simp only [lowerBytes, List.map_cons, hlow]
    rcases hw with rfl | rfl | rfl | rfl | rfl | rfl | rfl
    · simp
    all_goals
      intro he
      simp at he
      exact hn _ (by decide) (by decide) (by decide) he.1

theorem scalarOf_formatFloat (x : GoFloat) (b : Nat) : scalarOf (formatFloat x b) = numberOf (formatFloat x b) := by
  rcases formatFloat_cases x b with h | h | h | ⟨neg, c, k, h⟩
  · rw [h]; exact scalarOf_number _ (by decide)
  · rw [h]; exact scalarOf_number _ (by decide)
  · rw [h]; exact scalarOf_number _ (by decide)
  · rw [h]; exact scalarOf_digits _ (signed_chars neg c k) (signed_ne neg c k)

theorem scalarOf_intDec (n : Int) (h : InI64 n) : scalarOf (intDec n) = .int n := by
  rw [scalarOf_digits _ (intDec_chars' n) (intDec_ne_nil n)]
  simp [numberOf, parseInt_intDec n h]

/-! ### First byte of a text -/

/-- A first byte at which the loops of the parser start reading a value. -/
def StartsValue (t : Bytes) : Prop := ∃ c u, t = c :: u ∧ isWS c = false ∧ c ≠ 93 ∧ c ≠ 125

theorem isWS_of_delim {c : UInt8} (h : isDelim c = false) : isWS c = false ∧ c ≠ 93 ∧ c ≠ 125 := by
  unfold isDelim at h
  unfold isWS
  simp at h ⊢
  simp [h]

theorem IsTok.starts {t : Bytes} (h : IsTok t) : StartsValue t := by
  obtain ⟨hd, d, u, rfl, _⟩ := h
  exact ⟨d, u, rfl, isWS_of_delim (hd d (by simp))⟩

theorem toBytes_starts (v : J) : StartsValue v.toBytes := by
  cases v with
  | null => exact ⟨_, _, rfl, by decide⟩
  | bool b => cases b <;> exact ⟨_, _, rfl, by decide⟩
  | int n => simpa [J.toBytes] using (tok_of_digits (intDec_chars' n) (intDec_ne_nil n)).starts
  | float x b => simpa [J.toBytes] using (formatFloat_tok x (floatBits b)).1.starts
  | str s => exact ⟨34, s.flatMap escapeJsonChar ++ [34], by simp [J.toBytes, quoteString], by decide⟩
  | arr xs => exact ⟨91, _, by rw [J.toBytes], by decide⟩
  | dict id kvs =>
    rw [J.toBytes]
    split
    · exact ⟨123, _, rfl, by decide⟩
    · exact ⟨123, _, rfl, by decide⟩
  | ptr id => exact ⟨60, _, by rw [J.toBytes], by decide⟩

/-! ### One step of the loops -/

theorem parseArr_step (f : Nat) (s : Sess) (t : Bytes) (acc : List J) (hs : StartsValue t) :
    parseArr (f + 1) s t acc = match parseVal f s t with
      | .err e r => .err e r
      | .panic p => .panic p
      | .fuel => .fuel
      | .ok (v, s') r4 =>
        match skipEmpty r4 with
        | [] => .err .truncated []
        | c5 :: r5 =>
          if c5 = 44 then parseArr f s' r5 (acc ++ [v])
          else if c5 = 93 then .ok (acc ++ [v], s') r5
          else .err .unexpected (c5 :: r5) := by
  obtain ⟨c, u, rfl, h1, h2, h3⟩ := hs
  rw [parseArr.eq_def]
  simp only [skipEmpty_cons h1]
  split
  · simp_all
  · simp_all
  · rfl

theorem parseDict_step (f : Nat) (s : Sess) (k t : Bytes) (acc : SMap J) (id : Int) (hs : StartsValue t) :
    parseDict (f + 1) s (quoteString k ++ 58 :: t) acc id = match parseVal f s t with
      | .err e r => .err e r
      | .panic p => .panic p
      | .fuel => .fuel
      | .ok (v, s') r4 =>
        match (if k = jsonPointerKey then
            match v with
            | .int n => some (acc, n)
            | _ => none
          else some (smAdd acc k v, id)) with
        | none => .panic .typeAssert
        | some (acc', id') =>
          match skipEmpty r4 with
          | [] => .err .truncated []
          | c5 :: r5 =>
            if c5 = 44 then parseDict f s' r5 acc' id'
            else if c5 = 125 then .ok (acc', id', s') r5
            else .err .unexpected (c5 :: r5) := by
  obtain ⟨c, u, rfl, h1, h2, h3⟩ := hs
  obtain ⟨u', hu⟩ : ∃ u', quoteString k ++ 58 :: c :: u = 34 :: u' := ⟨_, by simp [quoteString]; rfl⟩
  have hps := parseString_quote k (58 :: c :: u)
  rw [hu] at hps
  rw [parseDict.eq_def, hu]
  simp only [skipEmpty_cons (show isWS 34 = false by decide)]
  split
  · simp_all
  · simp_all
  simp only [hps, skipEmpty_cons (show isWS 58 = false by decide), skipEmpty_cons h1, if_true]
  rfl

/-! ### The round trip -/

theorem rereadf_eq (kvs : List (Bytes × J)) : J.rereadf kvs = kvs.map fun p => (p.1, p.2.reread) := by
  induction kvs with
  | nil => rfl
  | cons p kvs ih => obtain ⟨k, x⟩ := p; simp [J.rereadf, ih]

theorem sorted_rereadf {kvs : List (Bytes × J)} (h : SMap.Sorted kvs) : SMap.Sorted (J.rereadf kvs) := by
  rw [rereadf_eq]
  unfold SMap.Sorted at *
  rw [List.pairwise_map]
  exact h

theorem arrBytes_false (xs : List J) :
    J.arrBytes xs false = if xs = [] then [] else 44 :: J.arrBytes xs true := by
  cases xs <;> simp [J.arrBytes]

theorem dictBytes_false (xs : List (Bytes × J)) :
    J.dictBytes xs false = if xs = [] then [] else 44 :: J.dictBytes xs true := by
  cases xs with
  | nil => simp [J.dictBytes]
  | cons p xs => obtain ⟨k, x⟩ := p; simp [J.dictBytes]

theorem StartsValue.append {t : Bytes} (h : StartsValue t) (u : Bytes) : StartsValue (t ++ u) := by
  obtain ⟨c, w, rfl, h⟩ := h
  exact ⟨c, w ++ u, rfl, h⟩

theorem delimited_cons {c : UInt8} {t : Bytes} (h : isDelim c = true) : Delimited (c :: t) := by
  intro d u he; simp at he; rw [← he.1]; exact h

theorem parseVal_ptr (f : Nat) (s : Sess) (id : Int) (rest : Bytes) (h : InI64 id) (hr : Delimited rest) :
    parseVal (f + 1) s (60 :: (intDec id ++ [62]) ++ rest) = .ok (.ptr id, s.saveReferer id) rest := by
  have ht : IsTok (60 :: (intDec id ++ [62])) := by
    refine ⟨?_, 60, _, rfl, by decide⟩
    intro c hc
    rcases List.mem_cons.1 hc with rfl | hc
    · decide
    · rcases List.mem_append.1 hc with hc | hc
      · exact (tok_of_digits (intDec_chars' id) (intDec_ne_nil id)).1 c hc
      · simp at hc; subst hc; decide
  rw [parseVal_tok f s _ rest ht]
  unfold parseJSONValue
  rw [parseString_tok _ rest ht hr]
  have h1 : (60 :: (intDec id ++ [62])).getLast? = some 62 := by
    rw [← List.cons_append, List.getLast?_append]; simp
  simp only [h1, and_self, if_true, List.dropLast_concat, parseInt_intDec id h]

/-- Texts that end by themselves: arrays, dictionaries, quoted strings. -/
def J.closed : J → Bool
  | .arr _ => true
  | .dict _ _ => true
  | .str _ => true
  | _ => false

mutual
theorem roundTrip : (v : J) → (s : Sess) → (rest : Bytes) → v.closed = true ∨ Delimited rest → v.WF → v.Refable →
    (s.saved ++ v.nodeIds).Nodup →
    ∃ f, parseVal f s (v.toBytes ++ rest) =
      .ok (v.reread, ⟨s.saved ++ v.nodeIds, s.refs ++ v.ptrIds⟩) rest
  | .null, s, rest, hd, _, _, _ => ⟨1, by
      have hd : Delimited rest := by simpa [J.closed] using hd
      rw [J.toBytes, parseVal_scalar 0 s _ rest ⟨by decide, _, _, rfl, by decide⟩ hd (by decide)]
      simp [J.reread, J.nodeIds, J.ptrIds]
      rfl⟩
  | .bool b, s, rest, hd, _, _, _ => ⟨1, by
      have hd' : Delimited rest := by simpa [J.closed] using hd
      cases b <;> rw [J.toBytes, parseVal_scalar 0 s _ rest ⟨by decide, _, _, rfl, by decide⟩ hd' (by decide)] <;>
      simp [J.reread, J.nodeIds, J.ptrIds] <;> rfl⟩
  | .int n, s, rest, hd, hw, _, _ => ⟨1, by
      have hd : Delimited rest := by simpa [J.closed] using hd
      rw [J.toBytes, parseVal_scalar 0 s _ rest (tok_of_digits (intDec_chars' n) (intDec_ne_nil n)) hd
        (head_of_digits (intDec_chars' n)), scalarOf_intDec n hw]
      simp [J.reread, J.nodeIds, J.ptrIds]⟩
  | .float x b, s, rest, hd, _, _, _ => ⟨1, by
      have hd : Delimited rest := by simpa [J.closed] using hd
      have := formatFloat_tok x (floatBits b)
      rw [J.toBytes, parseVal_scalar 0 s _ rest this.1 hd this.2, scalarOf_formatFloat]
      simp [J.reread, J.nodeIds, J.ptrIds]⟩
  | .str t, s, rest, hd, _, _, _ => ⟨1, by
      rw [J.toBytes, parseVal_quote]
      simp [J.reread, J.nodeIds, J.ptrIds]⟩
  | .ptr id, s, rest, hd, _, hr, _ => ⟨1, by
      have hd : Delimited rest := by simpa [J.closed] using hd
      rw [J.toBytes, parseVal_ptr 0 s id rest hr hd]
      simp [J.reread, J.nodeIds, J.ptrIds, Sess.saveReferer]⟩
  | .arr xs, s, rest, hd, hw, hr, hn => by
      obtain ⟨f, h⟩ := roundTrips xs s rest [] hw hr hn
      refine ⟨f + 1, ?_⟩
      rw [J.toBytes, parseVal.eq_def]
      simp only [List.cons_append, List.append_assoc, List.nil_append, h]
      simp [J.reread, J.nodeIds, J.ptrIds]
  | .dict id kvs, s, rest, hd, hw, hr, hn => by
      obtain ⟨hsort, hwf⟩ := hw
      obtain ⟨hid, href⟩ := hr
      have hfold : (J.rereadf kvs).foldl (fun m kv => smAdd m kv.1 kv.2) [] = J.rereadf kvs := by
        have := foldl_smAdd_sorted (J.rereadf kvs) [] (by simpa using sorted_rereadf hsort)
        simpa using this
      by_cases hpos : 0 < id
      · simp only [J.nodeIds, hpos, if_true] at hn
        rw [← List.append_assoc, List.nodup_append] at hn
        have hnc : id ∉ s.saved ++ J.nodeIdsf kvs := fun hm => (hn.2.2 id hm id (by simp)) rfl
        obtain ⟨f, h⟩ := roundTripf kvs s rest [] id hwf href hn.1
        have hstep : ∃ g, parseDict g s (quoteString jsonPointerKey ++ 58 :: (intDec id ++
            (J.dictBytes kvs false ++ 125 :: rest))) [] 0 = .ok (J.rereadf kvs, id,
              ⟨s.saved ++ J.nodeIdsf kvs, s.refs ++ J.ptrIdsf kvs⟩) rest := by
          refine ⟨f + 1 + 1, ?_⟩
          rw [parseDict_step _ _ _ _ _ _
            ((tok_of_digits (intDec_chars' id) (intDec_ne_nil id)).starts.append _)]
          have hdel : Delimited (J.dictBytes kvs false ++ 125 :: rest) := by
            rw [dictBytes_false]
            split
            · exact delimited_cons (by decide)
            · exact delimited_cons (by decide)
          rw [parseVal_scalar f s _ _ (tok_of_digits (intDec_chars' id) (intDec_ne_nil id)) hdel
            (head_of_digits (intDec_chars' id)), scalarOf_intDec id hid]
          simp only [if_true]
          rw [dictBytes_false]
          by_cases hk : kvs = []
          · subst hk
            simp [skipEmpty, isWS, J.rereadf, J.nodeIdsf, J.ptrIdsf]
          · simp only [hk, if_false, List.cons_append]
            rw [skipEmpty_cons (by decide)]
            simp only [if_true]
            rw [parseDict_fuel_le (Nat.le_succ f) _ _ _ _ (by rw [h]; simp), h, hfold]
        obtain ⟨g, hg⟩ := hstep
        refine ⟨g + 1, ?_⟩
        rw [J.toBytes, if_pos hpos, parseVal.eq_def]
        simp only [List.cons_append, List.append_assoc, List.nil_append, hg]
        simp only [hpos, if_true, Sess.saveNode]
        rw [if_neg (by simpa [List.contains_iff_mem] using hnc)]
        simp [J.reread, J.nodeIds, J.ptrIds, hpos]
      · simp only [J.nodeIds, hpos, if_false, List.append_nil] at hn
        obtain ⟨f, h⟩ := roundTripf kvs s rest [] 0 hwf href hn
        rw [hfold] at h
        refine ⟨f + 1, ?_⟩
        rw [J.toBytes, if_neg hpos, parseVal.eq_def]
        simp only [List.cons_append, List.append_assoc, List.nil_append, h]
        simp [J.reread, J.nodeIds, J.ptrIds, hpos]

theorem roundTrips : (xs : List J) → (s : Sess) → (rest : Bytes) → (acc : List J) → J.WFs xs → J.Refables xs →
    (s.saved ++ J.nodeIdss xs).Nodup →
    ∃ f, parseArr f s (J.arrBytes xs true ++ 93 :: rest) acc =
      .ok (acc ++ J.rereads xs, ⟨s.saved ++ J.nodeIdss xs, s.refs ++ J.ptrIdss xs⟩) rest
  | [], s, rest, acc, _, _, _ => ⟨1, by
      rw [J.arrBytes, parseArr.eq_def]
      simp [skipEmpty, isWS, J.rereads, J.nodeIdss, J.ptrIdss]⟩
  | x :: xs, s, rest, acc, hw, hr, hn => by
      simp only [J.nodeIdss] at hn
      rw [← List.append_assoc] at hn
      have hdel : Delimited (J.arrBytes xs false ++ 93 :: rest) := by
        rw [arrBytes_false]
        split
        · exact delimited_cons (by decide)
        · exact delimited_cons (by decide)
      obtain ⟨f1, h1⟩ := roundTrip x s (J.arrBytes xs false ++ 93 :: rest) (Or.inr hdel) hw.1 hr.1
        (List.Nodup.sublist (List.sublist_append_left _ _) hn)
      obtain ⟨f2, h2⟩ := roundTrips xs ⟨s.saved ++ x.nodeIds, s.refs ++ x.ptrIds⟩ rest (acc ++ [x.reread])
        hw.2 hr.2 hn
      refine ⟨max f1 f2 + 1, ?_⟩
      rw [J.arrBytes]
      simp only [if_true, List.nil_append, List.append_assoc]
      rw [parseArr_step _ _ _ _ ((toBytes_starts x).append _)]
      rw [parseVal_fuel_le (Nat.le_max_left f1 f2) _ _ (by rw [h1]; simp), h1]
      simp only
      rw [arrBytes_false]
      by_cases hk : xs = []
      · subst hk
        simp [skipEmpty, isWS, J.rereads, J.nodeIdss, J.ptrIdss]
      · simp only [hk, if_false, List.cons_append]
        rw [skipEmpty_cons (by decide)]
        simp only [if_true]
        rw [parseArr_fuel_le (Nat.le_max_right f1 f2) _ _ _ (by rw [h2]; simp), h2]
        simp [J.rereads, J.nodeIdss, J.ptrIdss]

theorem roundTripf : (kvs : List (Bytes × J)) → (s : Sess) → (rest : Bytes) → (acc : SMap J) → (id : Int) →
    J.WFf kvs → J.Refablef kvs → (s.saved ++ J.nodeIdsf kvs).Nodup →
    ∃ f, parseDict f s (J.dictBytes kvs true ++ 125 :: rest) acc id =
      .ok ((J.rereadf kvs).foldl (fun m kv => smAdd m kv.1 kv.2) acc, id,
        ⟨s.saved ++ J.nodeIdsf kvs, s.refs ++ J.ptrIdsf kvs⟩) rest
  | [], s, rest, acc, id, _, _, _ => ⟨1, by
      rw [J.dictBytes, parseDict.eq_def]
      simp [skipEmpty, isWS, J.rereadf, J.nodeIdsf, J.ptrIdsf]⟩
  | (k, x) :: kvs, s, rest, acc, id, hw, hr, hn => by
      simp only [J.nodeIdsf] at hn
      rw [← List.append_assoc] at hn
      have hdel : Delimited (J.dictBytes kvs false ++ 125 :: rest) := by
        rw [dictBytes_false]
        split
        · exact delimited_cons (by decide)
        · exact delimited_cons (by decide)
      obtain ⟨f1, h1⟩ := roundTrip x s (J.dictBytes kvs false ++ 125 :: rest) (Or.inr hdel) hw.1 hr.2.1
        (List.Nodup.sublist (List.sublist_append_left _ _) hn)
      obtain ⟨f2, h2⟩ := roundTripf kvs ⟨s.saved ++ x.nodeIds, s.refs ++ x.ptrIds⟩ rest (smAdd acc k x.reread) id
        hw.2 hr.2.2 hn
      refine ⟨max f1 f2 + 1, ?_⟩
      rw [J.dictBytes]
      simp only [if_true, List.nil_append, List.append_assoc, List.cons_append]
      rw [parseDict_step _ _ _ _ _ _ ((toBytes_starts x).append _)]
      rw [parseVal_fuel_le (Nat.le_max_left f1 f2) _ _ (by rw [h1]; simp), h1]
      simp only [hr.1, if_false]
      rw [dictBytes_false]
      by_cases hk : kvs = []
      · subst hk
        simp [skipEmpty, isWS, J.rereadf, J.nodeIdsf, J.ptrIdsf]
      · simp only [hk, if_false, List.cons_append]
        rw [skipEmpty_cons (by decide)]
        simp only [if_true]
        rw [parseDict_fuel_le (Nat.le_max_right f1 f2) _ _ _ _ (by rw [h2]; simp), h2]
        simp [J.rereadf, J.nodeIdsf, J.ptrIdsf]
end

end Jsonutils
