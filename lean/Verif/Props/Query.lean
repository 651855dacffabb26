import Verif.Proofs.Query
import Verif.Proofs.Currency
import Verif.Props.Dict

/-!
# Properties of query strings, dotted keys, error excerpts and currency texts: C27 – C31, C37, C48, C49
-/

namespace Jsonutils.Props

/-! ## C27 -/

/-- **C27.** Query-escaping any bytes yields only `[A-Za-z0-9-_.~+%]`, and unescaping it returns the original; hence
different texts have different escapes. -/
theorem C27_query_escape (s : Bytes) :
    (∀ c ∈ queryEscape s, (97 ≤ c ∧ c ≤ 122) ∨ (65 ≤ c ∧ c ≤ 90) ∨ (48 ≤ c ∧ c ≤ 57) ∨ c ∈ b!"-_.~+%") ∧
    queryUnescape (queryEscape s) = some s ∧ ∀ t, queryEscape t = queryEscape s → t = s := by
  refine ⟨fun c hc => ?_, queryUnescape_queryEscape s, fun t ht => queryEscape_inj ht⟩
  rcases queryEscape_chars s c hc with h | rfl | rfl
  · simp only [unreserved, Bool.or_eq_true, Bool.and_eq_true, decide_eq_true_eq, beq_iff_eq] at h
    simp only [List.mem_cons, List.not_mem_nil, or_false]
    rcases h with (((((h | h) | h) | h) | h) | h) | h <;> simp [h]
  · simp
  · simp

example : queryEscape b!"a b&=é" = b!"a+b%26%3D%C3%A9" := by decide

/-! ## C28 -/

/-- **C28.** For a dictionary with non-empty dot-free keys (number keys canonical) whose values have no empty
containers, no key "0" below the top level, no reference pointers, and arrays ordered by the depth of their shallowest
scalar: `ParseQueryString(d.QueryString())` is the same document with every scalar replaced by its text. -/
theorem C28_query_roundtrip (id : Int) (kvs : SMap J) (h : (J.dict id kvs).WF) (hk : ∀ e ∈ kvs, e.1 ≠ [] ∧ QueryKey e.1)
    (hq : J.QueryOkf kvs) :
    parseQueryString (J.dict id kvs).queryString = .ok (J.dict id kvs).textual :=
  query_roundtrip ⟨h, fun e he => (hk e he).2, QueryOkf.clean _ hq, QueryOkf.order _ hq⟩ (fun e he => (hk e he).1) id

/-- If moreover all scalars are strings, the dictionary itself comes back. -/
theorem C28_query_roundtrip_strings (id : Int) (kvs : SMap J) (h : (J.dict id kvs).WF) (hk : ∀ e ∈ kvs, e.1 ≠ [] ∧ QueryKey e.1)
    (hq : J.QueryOkf kvs) (hs : (J.dict id kvs).StringsOnly) :
    parseQueryString (J.dict id kvs).queryString = .ok (.dict id kvs) := by
  rw [C28_query_roundtrip id kvs h hk hq, textual_strings _ hs]

/-- `{"f":[{"a":["x"]},{"a":["y","é"],"n":[{"k":""}]}],"z":"1 2"}` -/
def sampleQuery : SMap J :=
  [(b!"f", .arr [.dict 0 [(b!"a", .arr [.str b!"x"])],
     .dict 0 [(b!"a", .arr [.str b!"y", .str b!"é"]), (b!"n", .arr [.dict 0 [(b!"k", .str [])]])]]),
   (b!"z", .str b!"1 2")]

theorem queryKey_of_text {k : Bytes} (h1 : (46 : UInt8) ∉ k) (h2 : parseInt k = none) : QueryKey k :=
  ⟨h1, fun n hn => by rw [(parseInt_iff k n).2 hn] at h2; cases h2⟩

example : (J.dict 0 sampleQuery).WF ∧ (∀ e ∈ sampleQuery, e.1 ≠ [] ∧ QueryKey e.1) ∧ J.QueryOkf sampleQuery ∧
    (J.dict 0 sampleQuery).StringsOnly := by
  have kf : QueryKey b!"f" := queryKey_of_text (by decide) rfl
  have kz : QueryKey b!"z" := queryKey_of_text (by decide) rfl
  have ka : QueryKey b!"a" := queryKey_of_text (by decide) rfl
  have kn : QueryKey b!"n" := queryKey_of_text (by decide) rfl
  have kk : QueryKey b!"k" := queryKey_of_text (by decide) rfl
  refine ⟨?_, ?_, ?_, ?_⟩
  · simp only [sampleQuery, J.WF, J.WFf, J.WFs, SMap.Sorted, and_true]
    decide
  · intro e he
    simp only [sampleQuery, List.mem_cons, List.not_mem_nil, or_false] at he
    rcases he with rfl | rfl
    · exact ⟨by simp, kf⟩
    · exact ⟨by simp, kz⟩
  · simp [sampleQuery, J.QueryOkf, J.QueryOks, J.QueryOk, ka, kn, kk, InI64, i64min, i64max, NoDeeper, J.leaves, J.leavess, J.leavesf]
    rintro a b (⟨rfl, _⟩ | ⟨rfl, _⟩ | ⟨rfl, _⟩) <;> simp
  · simp [sampleQuery, J.StringsOnlyf, J.StringsOnlys, J.StringsOnly]

example : (J.dict 0 sampleQuery).queryString = b!"f.0.a.0=x&f.1.a.0=y&f.1.a.1=%C3%A9&f.1.n.0.k&z=1+2" := rfl

/-- The depth condition cannot be dropped: the array `[{"x":"1"},"s"]` comes back as a dictionary. -/
theorem C28_depth_needed :
    parseQueryString (J.dict 0 [(b!"a", .arr [.dict 0 [(b!"x", .str b!"1")], .str b!"s"])]).queryString =
      .ok (.dict 0 [(b!"a", .dict 0 [(b!"0", .dict 0 [(b!"x", .str b!"1")]), (b!"1", .str b!"s")])]) := rfl

/-- Nor can the condition on keys below the top level: `{"a":{"0":"x"}}` comes back as an array. -/
theorem C28_zero_key_needed :
    parseQueryString (J.dict 0 [(b!"a", .dict 0 [(b!"0", .str b!"x")])]).queryString =
      .ok (.dict 0 [(b!"a", .arr [.str b!"x"])]) := rfl

/-- Parameters can be lost without an error: the second parameter addresses the inside of the string `a`. -/
theorem C28_silent_loss : parseQueryString b!"a=1&a.b=2" = .ok (.dict 0 [(b!"a", .str b!"1")]) := rfl

/-- Only dictionaries have a query string: on every other kind `QueryString()` is the empty text, arrays and strings
included (the method is promoted from the embedded `JSONValue`). -/
theorem C28_non_dict_empty (v : J) (h : ¬ v.IsDict) : v.queryString = [] := by
  cases v <;> simp_all [J.queryString, J.IsDict, simpleQueryString]

/-! ## C29 -/

/-- **C29.** The order in which `ParseQueryString` processes keys is the specified one: fewer pieces first, then the
first pieces that differ, numbers before texts and by value. -/
theorem C29_key_order (k k' : Bytes) (ps qs : List Bytes) (hp : Pieces k ps) (hq : Pieces k' qs) :
    segsLess (string2Segments k) (string2Segments k') = true ↔ KeyBefore ps qs := less_iff k k' ps qs hp hq

/-- It is a strict weak order, and the only ties are keys with the same canonical text. -/
theorem C29_strict_weak_order (a b c : Bytes) :
    let less := fun k k' => segsLess (string2Segments k) (string2Segments k')
    less a a = false ∧ (less a b = true → less b c = true → less a c = true) ∧
    (less a b = true → less a c = true ∨ less c b = true) ∧
    ((less a b = false ∧ less b a = false) ↔ segments2string (string2Segments a) = segments2string (string2Segments b)) := by
  intro less
  have ma := mades_string2Segments a
  have mb := mades_string2Segments b
  have mc := mades_string2Segments c
  refine ⟨segsLess_irrefl _, segsLess_trans ma mb mc, fun h => ?_, tie_iff a b⟩
  rcases segsLess_total ma mc with h' | h' | h'
  · exact Or.inl h'
  · right; show segsLess (string2Segments c) (string2Segments b) = true; rw [← h']; exact h
  · exact Or.inr (segsLess_trans mc ma mb h' h)

/-- The outcome of sorting the keys depends neither on the order in which the map yields them nor on the algorithm:
any arrangement in which no later element is less than an earlier one is the one the model uses. -/
theorem C29_sort_unique (keys : List Bytes) (l : List (List TextNumber)) (hp : l.Perm (keys.map string2Segments))
    (hs : l.Pairwise fun a b => segsLess b a = false) : l = sortSegs (keys.map string2Segments) := by
  have hm : ∀ y ∈ keys.map string2Segments, Mades y := by
    intro y hy
    simp only [List.mem_map] at hy
    obtain ⟨k, _, rfl⟩ := hy
    exact mades_string2Segments k
  exact sorted_perm_eq (hp.trans (sortSegs_perm _).symm) hs (sortSegs_sorted hm) fun y hy => hm y (hp.subset hy)

example : Pieces b!"a.10" [b!"a", b!"10"] ∧ Pieces b!"a.9" [b!"a", b!"9"] := by
  constructor <;> refine ⟨by simp, by simp, by decide⟩

example : sortSegs ([b!"a.10", b!"b", b!"a.x", b!"a.9"].map string2Segments) = [b!"b", b!"a.9", b!"a.10", b!"a.x"].map string2Segments := rfl

/-! ## C30 -/

/-- **C30.** Splitting a key into segments and joining them again gives the key exactly if its number pieces are
canonical; the canonical text has the same segments. -/
theorem C30_segments_roundtrip (k : Bytes) (ps : List Bytes) (hp : Pieces k ps) :
    (segments2string (string2Segments k) = k ↔ ∀ p ∈ ps, ∀ n, IsNumber p n → CanonicalDecimal p) ∧
    string2Segments (segments2string (string2Segments k)) = string2Segments k :=
  ⟨segments_roundtrip_iff k ps hp, string2Segments_canonical k⟩

/-- Every key has pieces. -/
theorem C30_pieces_exist (k : Bytes) : ∃ ps, Pieces k ps := ⟨splitOn 46 k, (pieces_iff k _).2 rfl⟩

/-- For other keys `ParseQueryString` fails, or drops the value without an error. -/
theorem C30_noncanonical_lost :
    parseQueryString b!"01=x" = .error .nilInput ∧
    parseQueryString b!"a.b.c=1&a.01.x.y=2" = .ok (.dict 0 [(b!"a", .dict 0 [(b!"b", .dict 0 [(b!"c", .str b!"1")])])]) :=
  ⟨rfl, rfl⟩

example : segments2string (string2Segments b!"a.01.+5.x") = b!"a.1.5.x" := rfl

/-! ## C31 -/

/-- **C31.** `NewJSONError` does not panic for any buffer and position. For a non-empty buffer the position is clamped
to a valid index `p`, and the excerpt is at most ten bytes before `p`, a caret, and at most ten bytes from `p` on. -/
theorem C31_error_excerpt (str : Bytes) (pos : Int) (msg : Bytes) :
    (str = [] → newJSONError str pos msg = some ⟨0, [], msg⟩) ∧
    (str ≠ [] → ∃ (p : Nat) (before after : Bytes),
      newJSONError str pos msg = some ⟨p, before ++ b!"^" ++ after, msg⟩ ∧
      p < str.length ∧ (0 ≤ pos → pos < str.length → (p : Int) = pos) ∧ (pos < 0 → p = 0) ∧ (pos ≥ str.length → p = str.length - 1) ∧
      before <:+ str.take p ∧ before.length = min 10 p ∧
      after <+: str.drop p ∧ after.length = min 10 (str.length - p)) := by
  constructor
  · rintro rfl; rfl
  · intro hne
    obtain ⟨p, h1, h2, h3⟩ := newJSONError_ne str hne pos msg
    have hlen : 0 < str.length := List.length_pos_iff.2 hne
    refine ⟨p, (str.take p).drop (p - 10), (str.drop p).take 10, by rw [h3]; simp, h1, ?_, ?_, ?_, List.drop_suffix _ _, ?_, List.take_prefix _ _, ?_⟩
    · intro a b
      rw [h2, if_neg (by omega), if_neg (by omega)]
    · intro a
      rw [if_pos a] at h2; omega
    · intro a
      rw [if_neg (by omega)] at h2
      split at h2 <;> omega
    · simp; omega
    · simp

example : (newJSONError b!"{\"a\":1,\"b\":2}" 30 b!"bad").map JSONError.error = some b!"JSON error bad at 12: a\":1,\"b\":2^}..." := by
  decide

/-! ## C37 -/

/-- **C37, US.** An amount with US grouping loses exactly its grouping commas. -/
theorem C37_us (us eu : Bytes → Bool) (hus : ∀ s, us s = true ↔ CurrencyText 44 46 s)
    (sign last frac : Bytes) (gs : List Bytes) (h : CurrencyText 44 46 (sign ++ grouped 44 gs last ++ frac))
    (hs : SignText sign) (hf : FracText 46 frac) (hl : Digits last) (hg : ∀ g ∈ gs, Digits g) :
    normalizeCurrency us eu (sign ++ grouped 44 gs last ++ frac) = sign ++ (gs.flatten ++ last) ++ frac := by
  unfold normalizeCurrency
  rw [if_pos ((hus _).2 h)]
  exact normalizeUS_text hs hf hl hg

/-- **C37, EU.** An amount with EU grouping, unless it also reads as a US amount, loses its grouping dots, and the
decimal comma becomes a dot. -/
theorem C37_eu (us eu : Bytes → Bool) (hus : ∀ s, us s = true ↔ CurrencyText 44 46 s) (heu : ∀ s, eu s = true ↔ CurrencyText 46 44 s)
    (sign last ds : Bytes) (gs : List Bytes) (hs : SignText sign) (hl : Digits last) (hg : ∀ g ∈ gs, Digits g) :
    (CurrencyText 46 44 (sign ++ grouped 46 gs last ++ b!"," ++ ds) → ¬ CurrencyText 44 46 (sign ++ grouped 46 gs last ++ b!"," ++ ds) →
      normalizeCurrency us eu (sign ++ grouped 46 gs last ++ b!"," ++ ds) = sign ++ (gs.flatten ++ last) ++ b!"." ++ ds) ∧
    (CurrencyText 46 44 (sign ++ grouped 46 gs last) → ¬ CurrencyText 44 46 (sign ++ grouped 46 gs last) →
      normalizeCurrency us eu (sign ++ grouped 46 gs last) = sign ++ (gs.flatten ++ last)) := by
  obtain ⟨h1, h2⟩ := normalizeEU_text hs hl hg
  constructor
  · intro a b
    unfold normalizeCurrency
    rw [if_neg (fun h => b ((hus _).1 h)), if_pos ((heu _).2 a)]
    simpa using h2 ds
  · intro a b
    unfold normalizeCurrency
    rw [if_neg (fun h => b ((hus _).1 h)), if_pos ((heu _).2 a)]
    exact h1

/-- **C37, laws.** Plain decimal texts are left alone, whatever else is recognised as currency; normalisation is
idempotent; a text that is neither US nor EU is left alone. -/
theorem C37_laws (us eu : Bytes → Bool) (hus : ∀ s, us s = true ↔ CurrencyText 44 46 s) (heu : ∀ s, eu s = true ↔ CurrencyText 46 44 s) :
    (∀ sign ds frac, SignText sign → Digits ds → FracText 46 frac → normalizeCurrency us eu (sign ++ ds ++ frac) = sign ++ ds ++ frac) ∧
    (∀ s, normalizeCurrency us eu (normalizeCurrency us eu s) = normalizeCurrency us eu s) ∧
    (∀ s, ¬ CurrencyText 44 46 s → ¬ CurrencyText 46 44 s → normalizeCurrency us eu s = s) := by
  refine ⟨fun sign ds frac h1 h2 h3 => normalize_plain hus heu ⟨sign, ds, frac, rfl, h1, h2, h3⟩, fun s => ?_, fun s h1 h2 => ?_⟩
  · rcases normalize_cases hus heu s with h | h
    · rw [h, h]
    · exact normalize_plain hus heu h
  · unfold normalizeCurrency
    rw [if_neg (fun h => h1 ((hus _).1 h)), if_neg (fun h => h2 ((heu _).1 h))]

theorem text_1234_56 : CurrencyText 44 46 b!"-1,234.56" :=
  ⟨b!"-", [b!"1"], b!"234", b!".56", rfl, Or.inr (Or.inr rfl), Or.inr ⟨b!"56", rfl, by simp [Digits, isDigit]⟩, by simp [Digits, isDigit],
    Or.inr ⟨by simp, rfl, by simp [Digits, isDigit]⟩⟩

example : ∃ us eu : Bytes → Bool, (∀ s, us s = true ↔ CurrencyText 44 46 s) ∧ (∀ s, eu s = true ↔ CurrencyText 46 44 s) ∧
    normalizeCurrency us eu b!"-1,234.56" = b!"-1234.56" := by
  classical
  refine ⟨fun s => decide (CurrencyText 44 46 s), fun s => decide (CurrencyText 46 44 s), by simp, by simp, ?_⟩
  exact C37_us _ _ (by simp) b!"-" b!"234" b!".56" [b!"1"] text_1234_56 (Or.inr (Or.inr rfl)) (Or.inr ⟨b!"56", rfl, by simp [Digits, isDigit]⟩)
    (by simp [Digits, isDigit]) (by simp [Digits, isDigit])

/-! ## C48 -/

/-- **C48.** Reordering the parameters of a query string with distinct non-empty keys does not change what
`ParseQueryString` returns (errors included). -/
theorem C48_parameter_order (ps qs : List (Bytes × Bytes)) (hp : ps.Perm qs) (hk : ∀ p ∈ ps, p.1 ≠ []) (hn : (ps.map (·.1)).Nodup) :
    parseQueryString (List.intercalate b!"&" (ps.map fun p => simpleQueryString p.1 p.2)) =
    parseQueryString (List.intercalate b!"&" (qs.map fun p => simpleQueryString p.1 p.2)) := by
  rw [← joinWith_eq, ← joinWith_eq]
  exact parseQueryString_perm hp hk hn

example : parseQueryString b!"c.1=4&b=x&c.0=3" = parseQueryString b!"b=x&c.0=3&c.1=4" ∧
    parseQueryString b!"c.1=4&b=x&c.0=3" = .ok (.dict 0 [(b!"b", .str b!"x"), (b!"c", .arr [.str b!"3", .str b!"4"])]) := ⟨rfl, rfl⟩

/-! ## C49 -/

/-- **C49.** `QueryBoolean` returns the default exactly if there is no such entry (nil query, not a dictionary, missing
key); otherwise the truth value of the entry's text, whatever the default. -/
theorem C49_query_boolean (toBool : Bytes → Bool) (query : Option J) (key : Bytes) (defVal : Bool) :
    ((∀ q v, query = some q → q.get [key] ≠ .ok v) → queryBoolean toBool query key defVal = defVal) ∧
    (∀ q v, query = some q → q.get [key] = .ok v → queryBoolean toBool query key defVal = toBool v.string0) := by
  constructor
  · intro h
    unfold queryBoolean
    split
    · rfl
    · rename_i q
      split
      · rename_i v hv; exact absurd hv (h q v rfl)
      · rfl
  · rintro q v rfl hv
    unfold queryBoolean
    simp only [hv]
    have : v.getString [] = .ok v.string0 := by cases v <;> rfl
    rw [this]

example : queryBoolean (· == b!"true") (some (.dict 0 [(b!"a", .bool true)])) b!"a" false = true := rfl

end Jsonutils.Props
