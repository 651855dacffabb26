import Verif.Proofs.UnmarshalIdem
import Verif.Props.Unmarshal
import Verif.Proofs.Quoted

/-!
# Unmarshal into variables that are not fresh: C53, C54, C56–C60

`d.unm P t v`: a document `d`, at the root (a text, an array or a dictionary) or anywhere inside the document `Unmarshal` was
called on, meets a variable of type `t` that holds `v`; the result is the variable afterwards and the error.
-/

namespace Jsonutils.Props

variable {ord : SMap Bytes → List (Bytes × Bytes)} {pick : List Nat → Nat} {P : UEnv}

/-- What `Unmarshal` does at the root, and under a path of keys. -/
theorem C53_entry (t : Ty) (x : UV) :
    (∀ s, (J.str s).unmarshal P [] t x = (J.str s).unm P t x) ∧ (∀ xs, (J.arr xs).unmarshal P [] t x = (J.arr xs).unm P t x) ∧
    (∀ id kvs, (J.dict id kvs).unmarshal P [] t x = (J.dict id kvs).unm P t x) ∧
    (∀ (d c : J) (ks : List Bytes), ks ≠ [] → d.get ks = .ok c → d.unmarshal P ks t x = c.unm P t x) := by
  refine ⟨fun _ => rfl, fun _ => rfl, fun _ _ => rfl, ?_⟩
  intro d c ks hne h
  cases ks with
  | nil => exact absurd rfl hne
  | cons k ks => simp only [J.unmarshal, h]

/-! ## C53: structs -/

theorem unmf_length {n : Nat} : ∀ (kvs : List (Bytes × J)) (vs : List UV) p, J.unmf P kvs n vs = some p → p.1.length = vs.length
  | [], vs, p, h => by simp only [J.unmf, Option.some.injEq] at h; subst h; rfl
  | (k, j) :: r, vs, p, h => by
    simp only [J.unmf] at h
    split at h
    · cases h
    · rename_i vs' vis e hk
      obtain ⟨_, h1⟩ := setKey_frame (q := 0) _ _ _ _ _ hk
      cases hr : J.unmf P r n vs' with
      | none => rw [hr] at h; cases h
      | some p' =>
        rw [hr] at h
        simp only [Option.map_some, Option.some.injEq] at h
        subst h
        exact (unmf_length r vs' p' hr).trans h1

theorem unm_struct {id : Int} {kvs : SMap J} {n : Nat} {vs : List UV} {r : UV} {e : Option UErr}
    (h : (J.dict id kvs).unm P (.struct n) (.struct vs) = some (r, e)) :
    ∃ ws es, J.unmf P kvs n vs = some (ws, es) ∧ r = .struct ws ∧ e = if es.isEmpty then none else some (.agg es) := by
  simp only [J.unm, UEnv.alloc, dictInto] at h
  cases hu : J.unmf P kvs n vs with
  | none => rw [hu] at h; cases h
  | some p =>
    rw [hu] at h
    simp only [Option.map_some, Option.some.injEq, Prod.mk.injEq] at h
    exact ⟨p.1, p.2, rfl, h.1.symm, h.2.symm⟩

/-- **C53, what is left alone.** A dictionary unmarshalled into a struct leaves every field unchanged that no key of the
dictionary leads to, be it directly or through deprecated-by options, and whatever errors occur elsewhere. -/
theorem C53_untouched {id : Int} {kvs : SMap J} {n : Nat} {vs : List UV} {r : UV} {e : Option UErr}
    (h : (J.dict id kvs).unm P (.struct n) (.struct vs) = some (r, e)) :
    ∃ ws, r = .struct ws ∧ ws.length = vs.length ∧
      ∀ q, (∀ k j, (k, j) ∈ kvs → ¬ Touches (P.idx n) (P.defs.getD n []) k q) → ws[q]? = vs[q]? := by
  obtain ⟨ws, es, hu, rfl, _⟩ := unm_struct h
  exact ⟨ws, rfl, unmf_length _ _ _ hu, fun q hq => unmf_frame kvs vs _ hu hq⟩

/-- **C53, what is written.** If no key is deprecated and no two match the same field: the field of every key receives the
key's document, also if other keys fail; the errors are reported together, in the order of the keys. -/
theorem C53_fields {id : Int} {kvs : SMap J} {n : Nat} {fs : List (FInfo × Ty)} (hn : P.defs[n]? = some fs) {vs : List UV} (hl : vs.length = fs.length)
    (hp : PlainKeys (P.idx n) fs kvs) {r : UV} {e : Option UErr} (h : (J.dict id kvs).unm P (.struct n) (.struct vs) = some (r, e)) :
    ∃ ws es, r = .struct ws ∧ (e = if es.isEmpty then none else some (.agg es)) ∧
      (∀ (k : Bytes) (j : J) (i : Nat) (info : FInfo) (t : Ty) (v : UV), (k, j) ∈ kvs → P.idx n k = [i] → fs[i]? = some (info, t) → vs[i]? = some v →
        ∃ w err, j.unm P t v = some (w, err) ∧ ws[i]? = some w ∧ ∀ x, err = some x → x ∈ es) ∧
      es = kvs.filterMap fun kv => (fieldRes P n vs kv.1 kv.2).bind (·.2) := by
  obtain ⟨ws, es, hu, rfl, he⟩ := unm_struct h
  have hgetD : P.defs.getD n [] = fs := by simp [List.getD_eq_getElem?_getD, hn]
  obtain ⟨_, _, g3, g4⟩ := unmf_plain P n kvs vs _ (by rw [hgetD]; exact hp) (by rw [hgetD]; exact hl) hu
  refine ⟨ws, es, rfl, he, ?_, g4⟩
  intro k j i info t v hm e1 e2 e3
  obtain ⟨w, err, a1, a2⟩ := g3 k j i info t v hm e1 (by rw [hgetD]; exact e2) e3
  refine ⟨w, err, a1, a2, ?_⟩
  rintro x rfl
  simp only at g4
  rw [g4]
  refine List.mem_filterMap.2 ⟨(k, j), hm, ?_⟩
  simp only [fieldRes, e1, hgetD, e2, e3, a1, Option.bind_some]

/-- Two keys, one of them of the wrong kind, and a struct of five fields. -/
example : ∃ e, (J.dict 0 [(b!"count", .arr []), (b!"name", .str b!"z")]).unm exT (.struct 0) exV =
    some (.struct [.str b!"z", .ptr (.int 7), .seq [.str b!"x", .str b!"y"] [], .map [(b!"p", .float (.fin false (2 ^ 52) 1022))],
      .ptr (.struct [.str b!"b", .nil, .nil, .nil, .nil])], some e) := ⟨.agg [.mismatch], rfl⟩

example : PlainKeys (exT.idx 0) (exT.defs.getD 0 []) [(b!"count", J.arr []), (b!"name", .str b!"z")] := by
  refine ⟨?_, by simp [exT]⟩
  intro k j h
  simp only [List.mem_cons, Prod.mk.injEq, List.not_mem_nil, or_false] at h
  rcases h with ⟨rfl, rfl⟩ | ⟨rfl, rfl⟩
  · exact .inr ⟨1, _, _, rfl, rfl, rfl⟩
  · exact .inr ⟨0, _, _, rfl, rfl, rfl⟩

/-! ## C54: slices and arrays -/

theorem received {t : Ty} {js : List J} {vs : List UV} {p : List UV × Option UErr} (hl : vs.length = js.length) (h : J.unms P js t vs = some p) :
    Received P t js vs p.1 p.2 := by
  obtain ⟨h1, h2, h3⟩ := unms_spec P t js vs p hl h
  refine ⟨h1.trans hl, ?_⟩
  cases he : p.2 with
  | none => exact h2 he
  | some e => exact h3 e he

theorem resize_slots (P : UEnv) (t : Ty) (n : Nat) (v : UV) :
    P.resize t n v = (slots P t v n, if n ≤ v.backing.length then v.backing.drop n else []) := by
  unfold UEnv.resize slots
  split
  · simp only [UV.backing, List.length_append]
    split
    · rw [if_neg (by omega), if_neg (by omega)]
    · rw [if_pos (by omega), if_pos (by omega)]
  · have hb : v.backing = [] := by
      cases v <;> first | rfl | (rename_i h; exact absurd rfl (h _ _))
    rw [hb]
    cases n <;> simp

/-- **C54, slices.** After an array document, a slice has as many elements as the document.  They are those of its old backing
array, if that was long enough, and receive the elements of the document one after the other until one fails. -/
theorem C54_slice {xs : List J} {t : Ty} {v r : UV} {e : Option UErr} (h : (J.arr xs).unm P (.slice t) v = some (r, e)) :
    ∃ ys spare, r = .seq ys spare ∧ ys.length = xs.length ∧ Received P t xs (slots P t v xs.length) ys e := by
  simp only [J.unm, UEnv.alloc, arrInto, resize_slots] at h
  have hl : (slots P t v xs.length).length = xs.length := by
    unfold slots; split <;> simp <;> omega
  cases hu : J.unms P xs t (slots P t v xs.length) with
  | none => rw [hu] at h; cases h
  | some p =>
    rw [hu] at h
    simp only [Option.map_some, Option.some.injEq, Prod.mk.injEq] at h
    obtain ⟨rfl, rfl⟩ := h
    have := received hl hu
    exact ⟨p.1, _, rfl, this.1, this⟩

/-- **C54, arrays.** An array document of another length changes nothing and is an error; one of the same length goes into the
elements. -/
theorem C54_array {xs : List J} {n : Nat} {t : Ty} {vs : List UV} (hv : vs.length = n) :
    (xs.length ≠ n → (J.arr xs).unm P (.array n t) (.arr vs) = uerr (.arr vs) .arrayLen) ∧
    (xs.length = n → ∀ r e, (J.arr xs).unm P (.array n t) (.arr vs) = some (r, e) → ∃ ws, r = .arr ws ∧ Received P t xs vs ws e) := by
  refine ⟨?_, ?_⟩
  · intro h
    simp only [J.unm, UEnv.alloc, arrInto]
    rw [if_pos (Ne.symm h)]
  · intro h r e hr
    simp only [J.unm, UEnv.alloc, arrInto] at hr
    rw [if_neg (by simp [h])] at hr
    cases hu : J.unms P xs t vs with
    | none => rw [hu] at hr; cases hr
    | some p =>
      rw [hu] at hr
      simp only [Option.map_some, Option.some.injEq, Prod.mk.injEq] at hr
      obtain ⟨rfl, rfl⟩ := hr
      exact ⟨_, rfl, received (by omega) hu⟩

/-- **C54, stale data.** Elements are merged, not replaced: a slice emptied by the caller (`s[:0]`) that receives
`[{"name": "z"}]` shows the other fields of the struct that was there before. -/
theorem C54_stale : (J.arr [.dict 0 [(b!"name", .str b!"z")]]).unmarshal exT [] (.slice (.struct 0)) (.seq [] [exV]) =
    uok (.seq [.struct [.str b!"z", .ptr (.int 7), .seq [.str b!"x", .str b!"y"] [], .map [(b!"p", .float (.fin false (2 ^ 52) 1022))],
      .ptr (.struct [.str b!"b", .nil, .nil, .nil, .nil])]] []) := rfl

example : slots exT (.struct 0) (.seq [] [exV]) 1 = [exV] := rfl
example : (J.arr [.int 1, .dict 0 [], .int 3]).unm exT (.slice (.int 8)) (.seq [.int 7, .int 8, .int 9] []) =
    some (.seq [.int 1, .int 8, .int 9] [], some .mismatch) := rfl

/-! ## C56: maps -/

/-- **C56, no error.** A map keeps its other entries; the entries of the document replace those with the same keys: each
is unmarshalled into a fresh variable, not into the old entry. -/
theorem C56_map {id : Int} {kvs : SMap J} (hs : SMap.Sorted kvs) {t : Ty} {v r : UV} (hv : SMap.Sorted v.entries)
    (h : (J.dict id kvs).unm P (.map t) v = uok r) :
    ∃ m, r = .map m ∧ SMap.Sorted m ∧
      ∀ k, (∀ j, smGet kvs k = some j → ∃ w, j.unm P t (P.zero t) = uok w ∧ smGet m k = some w) ∧
        (smGet kvs k = none → smGet m k = smGet v.entries k) := by
  simp only [J.unm, UEnv.alloc, dictInto] at h
  cases hu : J.unmm P kvs t v.entries with
  | none => rw [hu] at h; cases h
  | some p =>
    rw [hu] at h
    simp only [Option.map_some, uok, Option.some.injEq, Prod.mk.injEq] at h
    obtain ⟨rfl, he⟩ := h
    obtain ⟨g1, g2, _⟩ := unmm_spec P t kvs v.entries p hs hv hu
    exact ⟨p.1, rfl, g1, g2 he⟩

/-- **C56, with an error.** The entries before the first one that fails, in the order of the keys, are in the map; the others
are not. -/
theorem C56_map_error {id : Int} {kvs : SMap J} (hs : SMap.Sorted kvs) {t : Ty} {v r : UV} {e : UErr} (hv : SMap.Sorted v.entries)
    (h : (J.dict id kvs).unm P (.map t) v = some (r, some e)) :
    ∃ m k0 j0 w0, r = .map m ∧ SMap.Sorted m ∧ smGet kvs k0 = some j0 ∧ j0.unm P t (P.zero t) = some (w0, some e) ∧
      ∀ k, (blt k k0 = true → ∀ j, smGet kvs k = some j → ∃ w, j.unm P t (P.zero t) = uok w ∧ smGet m k = some w) ∧
        (blt k k0 = false ∨ smGet kvs k = none → smGet m k = smGet v.entries k) := by
  simp only [J.unm, UEnv.alloc, dictInto] at h
  cases hu : J.unmm P kvs t v.entries with
  | none => rw [hu] at h; cases h
  | some p =>
    rw [hu] at h
    simp only [Option.map_some, Option.some.injEq, Prod.mk.injEq] at h
    obtain ⟨rfl, he⟩ := h
    obtain ⟨g1, _, g3⟩ := unmm_spec P t kvs v.entries p hs hv hu
    obtain ⟨k0, j0, w0, a, b, c⟩ := g3 e he
    exact ⟨p.1, k0, j0, w0, rfl, g1, a, b, c⟩

/-- A map with another key kind than string takes no dictionary, but a nil one is made. -/
theorem C56_other_keys (id : Int) (kvs : SMap J) (t : Ty) (v : UV) :
    (J.dict id kvs).unm P (.mapOther t) v = uerr (.map v.entries) .mapKey := rfl

example : (J.dict 0 [(b!"a", .int 1), (b!"b", .arr []), (b!"c", .int 3)]).unm exT (.map (.int 8)) (.map [(b!"a", .int 7), (b!"d", .int 9)]) =
    some (.map [(b!"a", .int 1), (b!"d", .int 9)], some .mismatch) := rfl

/-! ## C57: types, panics -/

theorem get_keeps {Q : J → Prop} (hQ : ∀ id kvs, Q (.dict id kvs) → ∀ k j, smGet kvs k = some j → Q j) : ∀ (ks : List Bytes) (id : Int) (kvs : SMap J) (c : J),
    Q (.dict id kvs) → getLoop smGet kvs ks = .ok c → Q c
  | [], id, kvs, c, _, h => by simp [getLoop] at h
  | [k], id, kvs, c, hq, h => by
    simp only [getLoop] at h
    split at h
    · rename_i v hv; cases h; exact hQ id kvs hq k _ hv
    · cases h
  | k :: k2 :: ks, id, kvs, c, hq, h => by
    rw [getLoop.eq_def] at h
    simp only at h
    split at h
    · rename_i id' kvs' hv
      exact get_keeps hQ (k2 :: ks) id' kvs' c (hQ id kvs hq k _ hv) h
    · cases h
    · cases h

theorem wff_mem {kvs : List (Bytes × J)} (h : J.WFf kvs) {k : Bytes} {j : J} (hm : (k, j) ∈ kvs) : j.WF := by
  induction kvs with
  | nil => cases hm
  | cons p r ih =>
    obtain ⟨a, b⟩ := p
    rcases List.mem_cons.1 hm with hm | hm
    · cases hm; exact h.1
    · exact ih h.2 hm

theorem nbf_mem {kvs : List (Bytes × J)} (h : J.NoBoolFloatf kvs) {k : Bytes} {j : J} (hm : (k, j) ∈ kvs) : j.NoBoolFloat := by
  induction kvs with
  | nil => cases hm
  | cons p r ih =>
    obtain ⟨a, b⟩ := p
    rcases List.mem_cons.1 hm with hm | hm
    · cases hm; exact h.1
    · exact ih h.2 hm

theorem unmarshal_fine {S : Prop} (hP : P.Ok) {j : J} (hj : j.WF) (ks : List Bytes) {t : Ty} {v : UV} (ht : t.Valid P.defs) (hv : v.HasTy P.defs t)
    (hs : S → (P.NoUint ∧ t.NoUint) ∨ j.NoBoolFloat) : Fine S P.defs t (j.unmarshal P ks t v) := by
  cases ks with
  | nil =>
    simp only [J.unmarshal]
    cases j with
    | str s => exact unm_fine hP (.str s) hj t v ht hv hs
    | arr xs => exact unm_fine hP (.arr xs) hj t v ht hv hs
    | dict id kvs => exact unm_fine hP (.dict id kvs) hj t v ht hv hs
    | _ => exact fine_ok (zero_hasTy hP t ht)
  | cons k ks =>
    simp only [J.unmarshal]
    split
    · rename_i c hc
      cases j with
      | dict id kvs =>
        simp only [J.get, dictGet] at hc
        have hw : c.WF := get_keeps (Q := J.WF) (fun id kvs h k j hg => wff_mem h.2 (smGet_mem hg)) (k :: ks) id kvs c hj hc
        refine unm_fine hP c hw t v ht hv fun h => ?_
        rcases hs h with h | h
        · exact .inl h
        · exact .inr (get_keeps (Q := J.NoBoolFloat) (fun id kvs h k j hg => nbf_mem h (smGet_mem hg)) (k :: ks) id kvs c h hc)
      | _ => cases hc
    · exact fine_err hv
    · rename_i h1 h2
      exfalso
      cases j with
      | dict id kvs =>
        cases hg : (J.dict id kvs).get (k :: ks) with
        | ok c => exact h1 c hg
        | err e => exact h2 e hg
        | diverge => exact getLoop_ne_diverge kvs (k :: ks) hg
      | _ => exact h2 .unsupported rfl

/-- **C57, types.** Whatever the document, the path of keys, the variable and the error: afterwards the variable holds a
value of its type. -/
theorem C57_typed (hP : P.Ok) {j : J} (hj : j.WF) (ks : List Bytes) {t : Ty} {v : UV} (ht : t.Valid P.defs) (hv : v.HasTy P.defs t) {w : UV} {e : Option UErr}
    (h : j.unmarshal P ks t v = some (w, e)) : w.HasTy P.defs t :=
  (unmarshal_fine (S := False) hP hj ks ht hv (fun h => h.elim)).2 _ h

/-- **C57, panics.** `Unmarshal` returns, provided the variable holds no unsigned integers, or the document neither booleans
nor floats. -/
theorem C57_returns (hP : P.Ok) {j : J} (hj : j.WF) (ks : List Bytes) {t : Ty} {v : UV} (ht : t.Valid P.defs) (hv : v.HasTy P.defs t)
    (hs : (P.NoUint ∧ t.NoUint) ∨ j.NoBoolFloat) : ∃ w e, j.unmarshal P ks t v = some (w, e) := by
  cases h : j.unmarshal P ks t v with
  | none => exact absurd h ((unmarshal_fine (S := True) hP hj ks ht hv (fun _ => hs)).1 trivial)
  | some p => exact ⟨p.1, p.2, rfl⟩

/-- **C57, the panic.** A boolean or a float in the place of an unsigned integer: `SetInt` on a `uint` panics. -/
theorem C57_panics (k : Bytes) (id : Int) (kvs : SMap J) (b : Nat) (x : UV) :
    (∀ y, smGet kvs k = some (.bool y) → (J.dict id kvs).unmarshal P [k] (.uint b) x = none) ∧
    (∀ y bit, smGet kvs k = some (.float y bit) → (J.dict id kvs).unmarshal P [k] (.uint b) x = none) := by
  refine ⟨?_, ?_⟩
  · intro y h; rw [unmarshal_key _ k kvs id h]; rfl
  · intro y bit h; rw [unmarshal_key _ k kvs id h]; rfl

theorem exT_ok : exT.Ok := by
  refine ⟨(exT_roundTrips true).1, ?_, ?_⟩
  · intro n fs h i t hm
    cases n with
    | succ n => simp [exT] at h
    | zero =>
      simp only [exT, List.getElem?_cons_zero, Option.some.injEq] at h
      subst h
      simp only [List.mem_cons, Prod.mk.injEq, List.not_mem_nil, or_false] at hm
      rcases hm with ⟨_, rfl⟩ | ⟨_, rfl⟩ | ⟨_, rfl⟩ | ⟨_, rfl⟩ | ⟨_, rfl⟩ <;> simp [Ty.Valid, exT]
  · intro n fs h k i hi
    cases n with
    | succ n => simp [exT] at h
    | zero =>
      simp only [exT, List.getElem?_cons_zero, Option.some.injEq] at h
      subst h
      simp only [exT] at hi
      (repeat' split at hi) <;> simp at hi <;> subst hi <;> decide

example : exT.Ok ∧ exT.NoUint ∧ exV.HasTy exT.defs (.struct 0) ∧ (J.dict 0 [(b!"count", .bool true)]).WF := by
  refine ⟨exT_ok, ?_, exV_value.1, ⟨by simp [SMap.Sorted], trivial, trivial⟩⟩
  intro n fs h i t hm
  cases n with
  | succ n => simp [exT] at h
  | zero =>
    simp only [exT, List.getElem?_cons_zero, Option.some.injEq] at h
    subst h
    simp only [List.mem_cons, Prod.mk.injEq, List.not_mem_nil, or_false] at hm
    rcases hm with ⟨_, rfl⟩ | ⟨_, rfl⟩ | ⟨_, rfl⟩ | ⟨_, rfl⟩ | ⟨_, rfl⟩ <;> simp [Ty.NoUint]

/-! ## C58: scalars -/

/-- **C58, null and references.** null resets a variable of any type to its zero value; a reference to a dictionary the
document does not define leaves it as it is. -/
theorem C58_null (t : Ty) (v : UV) (id : Int) : J.null.unm P t v = uok (P.zero t) ∧ (J.ptr id).unm P t v = uok v := ⟨rfl, rfl⟩

/-- **C58, integers.** An integer document goes into every integer variable without an error; what is stored is the number of that
type that agrees with it modulo `2^bits`. -/
theorem C58_int (n : Int) (b : Nat) (hb : 0 < b) (hb' : b ≤ 64) (v : UV) :
    (∃ w q, (J.int n).unm P (.int b) v = uok (.int w) ∧ (UV.int w).HasTy P.defs (.int b) ∧ w = n + 2 ^ b * q) ∧
    (∃ w q, (J.int n).unm P (.uint b) v = uok (.int w) ∧ (UV.int w).HasTy P.defs (.uint b) ∧ w = n + 2 ^ b * q) := by
  refine ⟨?_, ?_⟩
  · obtain ⟨q, hq⟩ := wrapI_dvd b n
    exact ⟨_, q, rfl, wrapI_hasTy (b := b) ⟨hb, hb'⟩ n, hq⟩
  · refine ⟨_, -(n / 2 ^ b), rfl, wrapU_hasTy (b := b) ⟨hb, hb'⟩ n, ?_⟩
    unfold wrapU
    have := Int.mul_ediv_add_emod n (2 ^ b)
    rw [Int.mul_neg]
    omega

/-- 300 becomes 44 in an int8. -/
example : (J.int 300).unm P (.int 8) v = uok (.int 44) := rfl

/-- **C58, texts to numbers.** The empty text leaves a number variable as it is; a text that is neither empty nor a number
is an error, and also leaves it. -/
theorem C58_text (b : Nat) (v : UV) (s : Bytes) :
    ((J.str []).unm P (.int b) v = uok v ∧ (J.str []).unm P (.uint b) v = uok v ∧ (J.str []).unm P .float64 v = uok v ∧
      (J.str []).unm P .float32 v = uok v) ∧
    (s ≠ [] → parseInt (normalizeCurrency P.us P.eu s) = none → (J.str s).unm P (.int b) v = uerr v .num) := by
  refine ⟨⟨rfl, rfl, rfl, rfl⟩, ?_⟩
  intro h1 h2
  have : s.isEmpty = false := by cases s <;> simp_all
  simp only [J.unm, UEnv.alloc, unmStr, this, h2, Bool.false_eq_true, if_false]

/-- **C58, numbers as texts.** An integer stored in a string variable and read back from that text is the same integer. -/
theorem C58_int_text (n : Int) (hn : InI64 n) (v w : UV) :
    ∃ s, (J.int n).unm P .string v = uok (.str s) ∧ (J.str s).unm P (.int 64) w = uok (.int n) := by
  refine ⟨intDec n, rfl, ?_⟩
  have h1 : normalizeCurrency P.us P.eu (intDec n) = intDec n := intDec_normal _ _ _
  have h2 : (intDec n).isEmpty = false := by
    cases h : intDec n with
    | nil => have := parseInt_intDec n hn; rw [h] at this; simp [parseInt] at this
    | cons _ _ => rfl
  simp only [J.unm, UEnv.alloc, unmStr, h1, h2, parseInt_intDec n hn, Bool.false_eq_true, if_false]
  have hlo : -2 ^ (64 - 1) ≤ n := by have := hn.1; simp only [i64min] at this; omega
  have hhi : n < 2 ^ (64 - 1) := by have := hn.2; simp only [i64max] at this; omega
  rw [wrapI_range 64 (by omega) n hlo hhi]

/-- **C58, nil pointers.** A nil pointer is replaced by a pointer to a zero value before the document is looked at, and
stays so if the document does not fit. -/
theorem C58_alloc_on_error (n : Int) (t : Ty) (hw : t.isSeq = true) : (J.int n).unm P (.ptr t) .nil = uerr (.ptr (P.zero t)) .mismatch := by
  cases t <;> first | rfl | (exact absurd hw (by simp [Ty.isSeq]))

/-- **C58, boolean variables.** A number stored in a boolean variable is true exactly when it is not zero (so NaN and both infinities are
true, and -0 is false); a boolean is stored as it is. -/
theorem C58_bool_variable (n : Int) (b : Bool) (x : GoFloat) (bit : Nat) (v : UV) :
    (∃ c, (J.int n).unm P .bool v = uok (.bool c) ∧ (c = true ↔ n ≠ 0)) ∧
    (J.bool b).unm P .bool v = uok (.bool b) ∧
    (∃ c, (J.float x bit).unm P .bool v = uok (.bool c) ∧ (c = false ↔ ∃ neg e, x = .fin neg 0 e)) := by
  refine ⟨⟨_, rfl, by simp⟩, rfl, ⟨_, rfl, ?_⟩⟩
  cases x with
  | fin neg m e =>
    cases m with
    | zero => exact ⟨fun _ => ⟨neg, e, rfl⟩, fun _ => rfl⟩
    | succ m => simp [GoFloat.isZero]
  | inf neg => simp [GoFloat.isZero]
  | nan => simp [GoFloat.isZero]

/-- **C58, text variables.** Stored in a text variable, a boolean is the word `true` or `false` and an integer its decimal digits (both are what
the document itself looks like), a text is itself, and a float has six digits behind the point. -/
theorem C58_text_variable (n : Int) (b : Bool) (s : Bytes) (x : GoFloat) (bit : Nat) (v : UV) :
    (J.bool b).unm P .string v = uok (.str (J.bool b).toBytes) ∧ ((J.bool true).toBytes = b!"true" ∧ (J.bool false).toBytes = b!"false") ∧
    (J.int n).unm P .string v = uok (.str (J.int n).toBytes) ∧ (J.str s).unm P .string v = uok (.str s) ∧
    (∃ t, (J.float x bit).unm P .string v = uok (.str t) ∧ SixDigits x t) := by
  refine ⟨?_, ⟨by decide +kernel, by decide +kernel⟩, ?_, rfl, ⟨_, rfl, sprintfF_six x⟩⟩
  · cases b <;> simp [J.unm, unmBool, J.toBytes]
  · simp [J.unm, unmInt, J.toBytes]

/-- **C58, words.** A text stored in a `*JSONBool` variable is true exactly when it is, up to the case of its ASCII letters, one of
`true`, `yes`, `on` and `1`. -/
theorem C58_words (s : Bytes) (v : UV) :
    ∃ c, (J.str s).unm P (.jptr .bool) v = uok (.json (.bool c)) ∧
      (c = true ↔ ∃ w ∈ [b!"true", b!"yes", b!"on", b!"1"], s.map lowerByte = w) := by
  refine ⟨isTrueWord s, rfl, ?_⟩
  simp only [isTrueWord, lowerBytes, List.contains_iff_mem]
  exact ⟨fun h => ⟨_, h, rfl⟩, fun ⟨w, h, e⟩ => e ▸ h⟩

example (v : UV) : (J.str b!"On").unm P (.jptr .bool) v = uok (.json (.bool true)) ∧ (J.str b!"2").unm P (.jptr .bool) v = uok (.json (.bool false)) :=
  ⟨rfl, rfl⟩

/-- **C58, booleans as numbers.** In a signed integer variable of more than one bit, or a float variable, true is 1 and false is 0; in an
unsigned integer variable a boolean panics. -/
theorem C58_bool_number (b : Bool) (w : Nat) (hw : 1 < w) (v : UV) :
    (J.bool b).unm P (.int w) v = uok (.int (if b then 1 else 0)) ∧
    (J.bool b).unm P .float64 v = (J.int (if b then 1 else 0)).unm P .float64 v ∧
    (J.bool b).unm P .float32 v = (J.int (if b then 1 else 0)).unm P .float32 v ∧
    (J.bool b).unm P (.uint w) v = none := by
  refine ⟨?_, rfl, rfl, rfl⟩
  have h2 : (2 : Int) ^ 1 ≤ 2 ^ (w - 1) := by
    have : (2 : Nat) ^ 1 ≤ 2 ^ (w - 1) := Nat.pow_le_pow_right (by omega) (by omega)
    exact_mod_cast this
  cases b
  · simp only [J.unm, UEnv.alloc, unmBool]
    rw [wrapI_range w (by omega) _ (by simp; omega) (by simp; omega)]
  · simp only [J.unm, UEnv.alloc, unmBool]
    rw [wrapI_range w (by omega) _ (by simp; omega) (by simp; omega)]

/-- **C58, interfaces.** In a variable of type `interface{}` a scalar is the Go value; in one of type `JSONObject` it is the
document itself. -/
theorem C58_interface (n : Int) (b : Bool) (s : Bytes) (x : GoFloat) (bit : Nat) (v : UV) :
    ((J.int n).unm P .any v = uok (.any (.int n)) ∧ (J.bool b).unm P .any v = uok (.any (.bool b)) ∧ (J.str s).unm P .any v = uok (.any (.str s)) ∧
      (J.float x bit).unm P .any v = uok (.any (.float x))) ∧
    (∀ j ∈ [J.int n, .bool b, .str s, .float x bit], j.unm P .jobj v = uok (.json j)) := by
  refine ⟨⟨rfl, rfl, rfl, rfl⟩, ?_⟩
  intro j hj
  simp only [List.mem_cons, List.not_mem_nil, or_false] at hj
  rcases hj with rfl | rfl | rfl | rfl <;> rfl

/-- **C58, an inconsistency.** An array goes into a string variable (as its text), but not into a `*string`. -/
theorem C58_array_string (xs : List J) (v x : UV) :
    (J.arr xs).unm P .string v = uok (.str (J.arr xs).toBytes) ∧ (J.arr xs).unm P (.ptr .string) (.ptr x) = uerr (.ptr x) .mismatch := ⟨rfl, rfl⟩

/-! ## C59: Update -/

/-- The scalar fields of a document go into scalar variables whatever these hold. -/
theorem scalar_back {x y : UV} {t : Ty} (ht : t.Scalar) (hx : x.HasTy P.defs t) {oe : Bool} {v : J}
    (hm : (x.toTV P.defs t).mar ord oe none = some (some v)) : v.unm P t y = uok x := by
  cases x with
  | bool b =>
    cases hx
    simp only [UV.toTV, TV.mar, Leaf.marshal, marshalBoolean, Option.some.injEq] at hm
    simp [optFalse, optForce] at hm
    subst hm; rfl
  | int n =>
    simp only [UV.toTV, TV.mar, Leaf.marshal, marshalInt64, Option.some.injEq] at hm
    simp [optZero, optForce] at hm
    subst hm
    cases t with
    | int b => simp only [UV.HasTy] at hx; simp only [newInt, J.unm, UEnv.alloc, unmInt, wrapI_back b hx.1 hx.2.1 n hx.2.2.1 hx.2.2.2]
    | uint b => simp only [UV.HasTy] at hx; simp only [newInt, J.unm, UEnv.alloc, unmInt, wrapU_back b hx.2.1 n hx.2.2.1 hx.2.2.2]
    | _ => exact hx.elim
  | float f =>
    rcases hx with ⟨rfl, hc⟩ | ⟨rfl, hc⟩
    · simp only [UV.toTV, TV.mar, Leaf.marshal, marshalFloat64, Option.some.injEq] at hm
      simp [optZero, optForce] at hm
      subst hm; rfl
    · simp only [UV.toTV, TV.mar, Leaf.marshal, marshalFloat32, Option.some.injEq] at hm
      simp [optZero, optForce] at hm
      subst hm
      simp only [newFloat32, J.unm, UEnv.alloc, unmFloat, toF32_isF32 _ hc]
  | str s =>
    cases hx
    simp only [UV.toTV, TV.mar, Leaf.marshal, marshalString, Option.some.injEq] at hm
    simp [optEmpty] at hm
    subst hm; rfl
  | nil => cases t <;> first | exact (show False from ht).elim | exact (show False from hx).elim
  | seq xs sp => obtain ⟨t', rfl, _⟩ := hx; exact ht.elim
  | arr xs => obtain ⟨t', rfl, _⟩ := hx; exact ht.elim
  | map kvs => obtain ⟨_, t', rfl | rfl, _⟩ := hx <;> exact ht.elim
  | ptr x => obtain ⟨t', rfl, _⟩ := hx; exact ht.elim
  | struct vs => obtain ⟨_, _, rfl, _⟩ := hx; exact ht.elim
  | any a => cases hx; exact ht.elim
  | json j => cases t <;> first | exact (show False from ht).elim | exact (show False from hx).elim

/-- A scalar written with option `,string` is read back, whatever the variable held. -/
theorem scalar_quote {t : Ty} {i : FInfo} (hi : i.forceString = true) (ht : t.Scalar) (hq : t.Quotable P) {oe : Bool} {x : UV} (hx : x.HasTy P.defs t) {v : J}
    (hm : (x.toTV P.defs t).mar ord oe (some i) = some (some v)) (z : UV) : v.unm P t z = uok x := by
  have hnn : x.nullLike = false := by
    cases x with
    | nil => cases t <;> first | exact (show False from ht).elim | exact (show False from hx).elim
    | ptr x => obtain ⟨t', rfl, _⟩ := hx; exact ht.elim
    | json j => cases t <;> first | exact (show False from ht).elim | exact (show False from hx).elim
    | _ => rfl
  obtain ⟨s, rfl, hs⟩ := (quote_back i hi x t hx hq v hm).2 hnn
  have hno : x.norm P oe t = x := by
    cases x with
    | seq xs sp => obtain ⟨t', rfl, _⟩ := hx; exact ht.elim
    | arr xs => obtain ⟨t', rfl, _⟩ := hx; exact ht.elim
    | map kvs => obtain ⟨_, t', rfl | rfl, _⟩ := hx <;> exact ht.elim
    | ptr x => obtain ⟨t', rfl, _⟩ := hx; exact ht.elim
    | struct vs => obtain ⟨_, _, rfl, _⟩ := hx; exact ht.elim
    | _ => rfl
  rw [hno] at hs
  have hemp : ∀ n : Int, x = .int n → s.isEmpty = false := by
    rintro n rfl
    simp only [UV.toTV, TV.mar, Leaf.marshal, marshalInt64, optForce, hi, if_true, Option.some.injEq] at hm
    split at hm
    · cases hm
    · cases hm
      cases e : intDec (wrapI 64 n) with
      | nil => exact absurd e (intDec_ne_nil _)
      | cons _ _ => rfl
  have hint : (∃ b, t = .int b ∨ t = .uint b) → s.isEmpty = false := by
    rintro ⟨b, rfl | rfl⟩ <;> cases x <;> first | exact hemp _ rfl | exact (show False from hx).elim | (simp only [UV.HasTy] at hx; simp at hx)
  cases t with
  | bool => exact hs
  | string => exact hs
  | int b =>
    have := hint ⟨b, .inl rfl⟩
    simp only [J.unm, UEnv.alloc, unmStr, this, Bool.false_eq_true, if_false] at hs ⊢
    cases hp : parseInt (normalizeCurrency P.us P.eu s) with
    | none => rw [hp] at hs; cases hs
    | some n => rw [hp] at hs; exact hs
  | uint b =>
    have := hint ⟨b, .inr rfl⟩
    simp only [J.unm, UEnv.alloc, unmStr, this, Bool.false_eq_true, if_false] at hs ⊢
    cases hp : parseUint (normalizeCurrency P.us P.eu s) with
    | none => rw [hp] at hs; cases hs
    | some n => rw [hp] at hs; exact hs
  | float32 => exact hq.elim
  | float64 => exact hq.elim
  | _ => exact ht.elim

/-- A field of scalar type is read back, with option `,string` or not. -/
theorem scalar_field {t : Ty} {i : FInfo} (ht : t.Scalar) (hq : i.forceString = true → t.Quotable P) {oe : Bool} {x : UV} (hx : x.HasTy P.defs t) {v : J}
    (hm : (x.toTV P.defs t).mar ord oe (some i) = some (some v)) (z : UV) : v.unm P t z = uok x := by
  cases hi : i.forceString with
  | true => exact scalar_quote hi ht (hq hi) hx hm z
  | false => exact scalar_back ht hx (mar_info _ (some i) _ hi hm)

/-- The document of a struct, and what it does to another struct of that type. -/
theorem update_core (hord : ∀ dep, (ord dep).Perm dep) (hP : P.RoundTripsQ false) {n : Nat} {fs : List (FInfo × Ty)} (hn : P.defs[n]? = some fs)
    {h : List GV} {g : GV} {vs : List UV} (hv : IsValue P.defs h g (.struct vs) (.struct n)) {f : Nat} {j : J} (hm : marshal ord pick true h f g = some j) :
    ∃ m, j = .dict 0 m ∧ SMap.Sorted m ∧ PlainKeys (P.idx n) fs m ∧ vs.length = fs.length ∧
      (∀ key v, (key, v) ∈ m → ∃ (q : Nat) (y : UV) (i : FInfo) (t : Ty), vs[q]? = some y ∧ fs[q]? = some (i, t) ∧ i.ignore = false ∧ i.name = key ∧
        (y.toTV P.defs t).mar ord true (some i) = some (some v) ∧ P.idx n key = [q]) ∧
      ∀ (k : Nat) (i : FInfo) (t : Ty) (x : UV), fs[k]? = some (i, t) → vs[k]? = some x → x.HasTy P.defs t ∧
        ((i.ignore = true ∨ x.empty P.defs t (some i) = true) ∧ (∀ key v, (key, v) ∈ m → P.idx n key ≠ [k]) ∨
         i.ignore = false ∧ x.empty P.defs t (some i) = false ∧ ∃ v, (i.name, v) ∈ m ∧ P.idx n i.name = [k] ∧ (x.toTV P.defs t).mar ord true (some i) = some (some v)) := by
  obtain ⟨ht, hu⟩ := hv
  obtain ⟨_, fs', h1, h2, h3⟩ := ht
  cases h1
  rw [hn] at h2; cases h2
  obtain ⟨hlen, hty⟩ := (hasTyf_iff _ _).1 h3
  obtain ⟨o, ho, hj⟩ := marshal_tree hu hm
  have hgetD : P.defs.getD n [] = fs := by simp [List.getD_eq_getElem?_getD, hn]
  simp only [UV.toTV, Ty.fields, hgetD] at ho
  obtain ⟨hdist, hfld⟩ := hP.2 n fs hn
  obtain ⟨m, rfl, hs, hget, htot⟩ := struct_doc hord hdist (fun k i t h1 h2 => (hfld k i t h1 h2).2.2.1) hlen ho
  simp only [Option.getD_some] at hj
  have hmem : ∀ k v, (k, v) ∈ m → ∃ (q : Nat) (y : UV) (i : FInfo) (t : Ty), vs[q]? = some y ∧ fs[q]? = some (i, t) ∧ i.ignore = false ∧ i.name = k ∧
      (y.toTV P.defs t).mar ord true (some i) = some (some v) ∧ P.idx n k = [q] := by
    intro k v hkv
    obtain ⟨q, y, i, t, e1, e2, e3, e4, e5⟩ := (hget k v).1 (smGet_of_mem hs hkv)
    exact ⟨q, y, i, t, e1, e2, e3, e4, e5, by rw [← e4]; exact (hfld q i t e2 e3).2.2.2⟩
  refine ⟨m, hj.symm, hs, ⟨?_, ?_⟩, hlen, ?_, ?_⟩
  · intro k v hkv
    obtain ⟨q, y, i, t, e1, e2, e3, e4, e5, e6⟩ := hmem k v hkv
    exact .inr ⟨q, i, t, e6, e2, (hfld q i t e2 e3).2.2.1⟩
  · refine List.Pairwise.imp_of_mem ?_ hs
    intro a b ha hb hab q hq hq'
    obtain ⟨qa, ya, ia, ta, a1, a2, a3, a4, _, a6⟩ := hmem a.1 a.2 ha
    obtain ⟨qb, yb, ib, tb, b1, b2, b3, b4, _, b6⟩ := hmem b.1 b.2 hb
    rw [hq] at a6; cases a6
    rw [hq'] at b6; cases b6
    rw [a2] at b2; cases b2
    rw [← a4, ← b4, blt_irrefl] at hab
    cases hab
  · exact hmem
  · intro k i t x e1 e2
    refine ⟨hty k x i t e2 e1, ?_⟩
    have hno : (¬ ∃ v, i.ignore = false ∧ (x.toTV P.defs t).mar ord true (some i) = some (some v)) → ∀ key v, (key, v) ∈ m → P.idx n key ≠ [k] := by
      intro hw key v hkv he
      obtain ⟨q, y, i', t', a1, a2, a3, a4, a5, a6⟩ := hmem key v hkv
      rw [he] at a6; cases a6
      rw [e2] at a1; cases a1
      rw [e1] at a2; cases a2
      exact hw ⟨v, a3, a5⟩
    cases hi : i.ignore with
    | true => exact .inl ⟨.inl rfl, hno fun ⟨v, hv, _⟩ => by rw [hi] at hv; cases hv⟩
    | false =>
      obtain ⟨o, ho'⟩ := htot k x i t e2 e1 hi
      have hem := mar_none_iff _ _ _ ho'
      rw [empty_iff] at hem
      cases o with
      | none => exact .inl ⟨.inr (hem.1 rfl).2, hno fun ⟨v, _, hv⟩ => by rw [ho'] at hv; cases hv⟩
      | some v =>
        right
        refine ⟨rfl, ?_, v, smGet_mem ((hget i.name v).2 ⟨k, x, i, t, e2, e1, hi, rfl, ho'⟩), (hfld k i t e1 hi).2.2.2, ho'⟩
        cases he : x.empty P.defs t (some i) with
        | false => rfl
        | true => exact absurd (hem.2 ⟨rfl, he⟩) (by simp)

/-- **C59, all types.** `Update(&dst, src)` for two structs of one type, if it returns: a field that is ignored, or empty in
`src` (in the sense of its options), keeps its value in `dst`; any other receives what `Marshal` makes of the field of `src`. -/
theorem C59_fields (hord : ∀ dep, (ord dep).Perm dep) (hP : P.RoundTripsQ false) {n : Nat} {fs : List (FInfo × Ty)} (hn : P.defs[n]? = some fs)
    {h : List GV} {g : GV} {vs : List UV} (hv : IsValue P.defs h g (.struct vs) (.struct n)) {dst : List UV} (hd : dst.length = fs.length) {f : Nat} {r : UV} {e : Option UErr}
    (hu : update ord pick P h f g (.struct n) (.struct dst) = some (r, e)) :
    ∃ ws, r = .struct ws ∧ ws.length = dst.length ∧ ∀ (k : Nat) (i : FInfo) (t : Ty) (x y : UV), fs[k]? = some (i, t) → vs[k]? = some x → dst[k]? = some y →
      (i.ignore = true ∨ x.empty P.defs t (some i) = true → ws[k]? = some y) ∧
      (i.ignore = false → x.empty P.defs t (some i) = false → ∃ v w err, (x.toTV P.defs t).mar ord true (some i) = some (some v) ∧
        (i.forceString = false → (x.toTV P.defs t).mar ord true none = some (some v)) ∧ v.unm P t y = some (w, err) ∧ ws[k]? = some w) := by
  unfold update at hu
  split at hu
  · cases hu
  · rename_i j hm
    obtain ⟨m, rfl, hs, hpl, hlen, hmem, hf⟩ := update_core hord hP hn hv hm
    have hgetD : P.defs.getD n [] = fs := by simp [List.getD_eq_getElem?_getD, hn]
    obtain ⟨ws, es, hx, rfl, _⟩ := unm_struct (id := 0) (kvs := m) hu
    obtain ⟨g1, g2, g3, _⟩ := unmf_plain P n m dst _ (by rw [hgetD]; exact hpl) (by rw [hgetD]; exact hd) hx
    refine ⟨ws, rfl, g1, ?_⟩
    intro k i t x y e1 e2 e3
    obtain ⟨_, hcase⟩ := hf k i t x e1 e2
    refine ⟨?_, ?_⟩
    · intro hie
      rcases hcase with ⟨_, hno⟩ | ⟨a, b, _⟩
      · exact (g2 k hno).trans e3
      · rcases hie with hie | hie
        · rw [a] at hie; cases hie
        · rw [b] at hie; cases hie
    · intro hi he
      rcases hcase with ⟨hie, _⟩ | ⟨_, _, v, hv1, hv2, hv3⟩
      · rcases hie with hie | hie
        · rw [hi] at hie; cases hie
        · rw [he] at hie; cases hie
      · obtain ⟨w, err, a1, a2⟩ := g3 i.name v k i t y hv1 hv2 (by rw [hgetD]; exact e1) e3
        exact ⟨v, w, err, hv3, fun hi' => mar_info _ (some i) _ hi' hv3, a1, a2⟩

/-- **C59, scalar fields.** If all fields are booleans, numbers and texts, `Update(&dst, src)` never fails, and copies exactly the
fields of `src` that are neither ignored nor empty. -/
theorem C59_scalars (hord : ∀ dep, (ord dep).Perm dep) (hP : P.RoundTripsQ false) {n : Nat} {fs : List (FInfo × Ty)} (hn : P.defs[n]? = some fs)
    (hsc : ∀ (i : FInfo) (t : Ty), (i, t) ∈ fs → i.ignore = false → t.Scalar)
    {h : List GV} {g : GV} {vs : List UV} (hv : IsValue P.defs h g (.struct vs) (.struct n)) {dst : List UV} (hd : dst.length = fs.length) {f : Nat}
    (hm : marshal ord pick true h f g ≠ none) :
    ∃ ws, update ord pick P h f g (.struct n) (.struct dst) = uok (.struct ws) ∧ ws.length = dst.length ∧
      ∀ (k : Nat) (i : FInfo) (t : Ty) (x y : UV), fs[k]? = some (i, t) → vs[k]? = some x → dst[k]? = some y →
        ws[k]? = some (if i.ignore || x.empty P.defs t (some i) then y else x) := by
  cases hj : marshal ord pick true h f g with
  | none => exact absurd hj hm
  | some j =>
    obtain ⟨m, rfl, hs, hpl, hlen, hmem, hf⟩ := update_core hord hP hn hv hj
    have hgetD : P.defs.getD n [] = fs := by simp [List.getD_eq_getElem?_getD, hn]
    obtain ⟨_, hfld⟩ := hP.2 n fs hn
    obtain ⟨ws, g1, g2, g3, g4⟩ := unmf_all P n m dst (sorted_keys_nodupM hs) (by
        intro k v k' v' hk hk' he
        obtain ⟨q, y, i, t, e1, e2, e3, e4, e5, e6⟩ := hmem k v hk
        obtain ⟨q', y', i', t', e1', e2', e3', e4', e5', e6'⟩ := hmem k' v' hk'
        rw [he, e6'] at e6; cases e6
        rw [e2] at e2'; cases e2'
        exact e4.symm.trans e4') (by
        intro k v hk
        obtain ⟨q, y, i, t, e1, e2, e3, e4, e5, e6⟩ := hmem k v hk
        obtain ⟨z, hz⟩ : ∃ z, dst[q]? = some z := ⟨_, List.getElem?_eq_getElem (by have := (List.getElem?_eq_some_iff.1 e2).1; omega)⟩
        have hvt := (hf q i t y e2 e1).1
        exact ⟨q, i, t, z, y, e6, by rw [hgetD]; exact e2, (hfld q i t e2 e3).2.2.1, hz,
          scalar_field (hsc i t (List.mem_of_getElem? e2) e3) (hfld q i t e2 e3).2.1 hvt e5 z⟩)
    refine ⟨ws, ?_, g2, ?_⟩
    · simp only [update, hj, J.unmarshal, J.unm, UEnv.alloc, dictInto, g1, Option.map_some, List.isEmpty_nil, if_true, uok]
    · intro k i t x y e1 e2 e3
      obtain ⟨hvt, hcase⟩ := hf k i t x e1 e2
      rcases hcase with ⟨hie, hno⟩ | ⟨a, b, v, hv1, hv2, hv3⟩
      · rw [g3 k hno, e3]
        rcases hie with hie | hie <;> simp [hie]
      · rw [g4 i.name v k i t y x hv1 hv2 (by rw [hgetD]; exact e1) e3 (scalar_field (hsc i t (List.mem_of_getElem? e1) a) (hfld k i t e1 a).2.1 hvt hv3 y)]
        simp [a, b]

/-! ### With deprecated fields -/

/-- What `Update` does to a struct, deprecated fields included, if each document fits its fields. -/
theorem update_heirs (hord : ∀ dep, (ord dep).Perm dep) (hP : P.RoundTripsD false) {n : Nat} {fs : List (FInfo × Ty)} (hn : P.defs[n]? = some fs)
    {h : List GV} {g : GV} {vs : List UV} (hv : IsValue P.defs h g (.struct vs) (.struct n)) {dst : List UV} (hd : dst.length = fs.length) {f : Nat}
    (hm : marshal ord pick true h f g ≠ none)
    (hfit : ∀ (q : Nat) (i ie : FInfo) (t : Ty) (x y : UV) v, fs[q]? = some (i, t) → i.ignore = false → fs[P.heir n fs.length q]? = some (ie, t) →
      vs[P.heir n fs.length q]? = some x → x.HasTy P.defs t → (x.toTV P.defs t).mar ord true (some ie) = some (some v) → (ie.forceString = true → t.Quotable P) → dst[q]? = some y →
      ∃ w, v.unm P t y = uok w ∧ v.unm P t w = uok w) :
    ∃ ws, update ord pick P h f g (.struct n) (.struct dst) = uok (.struct ws) ∧ ws.length = dst.length ∧
      ∀ (q : Nat) (i : FInfo) (t : Ty) (y : UV), fs[q]? = some (i, t) → dst[q]? = some y →
        (i.ignore = true → ws[q]? = some y) ∧
        (i.ignore = false → ∃ ie x, fs[P.heir n fs.length q]? = some (ie, t) ∧ ie.ignore = false ∧ ie.deprecatedBy = none ∧ vs[P.heir n fs.length q]? = some x ∧ x.HasTy P.defs t ∧
          (x.empty P.defs t (some ie) = true → ws[q]? = some y) ∧
          (x.empty P.defs t (some ie) = false → ∃ v w, (x.toTV P.defs t).mar ord true (some ie) = some (some v) ∧ v.unm P t y = uok w ∧ ws[q]? = some w)) := by
  cases hj : marshal ord pick true h f g with
  | none => exact absurd hj hm
  | some j =>
    obtain ⟨ht, hu⟩ := hv
    obtain ⟨_, fs', h1, h2, h3⟩ := ht
    cases h1
    rw [hn] at h2; cases h2
    obtain ⟨hlen, hty⟩ := (hasTyf_iff _ _).1 h3
    obtain ⟨o, ho, hjo⟩ := marshal_tree hu hj
    have hgetD : P.defs.getD n [] = fs := by simp [List.getD_eq_getElem?_getD, hn]
    simp only [UV.toTV, Ty.fields, hgetD] at ho
    obtain ⟨hdist, hfld⟩ := hP.2 n fs hn
    have hheir : ∀ (q : Nat) (i : FInfo) (t : Ty), fs[q]? = some (i, t) → i.ignore = false → ∃ m, m ≤ fs.length ∧ HeirIn P n fs t m q (P.heir n fs.length q) :=
      fun q i t h1 h2 => heirIn_heir hgetD (fun k i t a b => ⟨(hfld k i t a b).2.2.1, (hfld k i t a b).2.2.2.1⟩) fs.length q i t h1 h2 (hfld q i t h1 h2).2.2.2.2
    obtain ⟨hmap, hmem⟩ := toTVf_spec (D := P.defs) vs fs hlen
    obtain ⟨m, rfl, hsorted, hget1, hget2, htot⟩ := struct_doc_heirs (P := P) (n := n) (tv := fun y t => y.toTV P.defs t) hord hdist
      (fun k i t h1 h2 => (hfld k i t h1 h2).2.2.1) (fun q i t h1 h2 => by obtain ⟨l, _, h⟩ := hheir q i t h1 h2; exact ⟨l, _, h⟩) hlen hmap hmem ho
    simp only [Option.getD_some] at hjo
    subst hjo
    have hheq : ∀ {t : Ty} {l q e : Nat}, HeirIn P n fs t l q e → P.heir n fs.length q = e := by
      intro t l q e h
      obtain ⟨i, h1, h2, _⟩ := h.start
      obtain ⟨l', h3, h4⟩ := hheir q i t h1 h2
      exact h4.det h
    have hown : ∀ {e : Nat} {v v' : J}, OwnEntry ord true (fun y t => y.toTV P.defs t) vs fs e v → OwnEntry ord true (fun y t => y.toTV P.defs t) vs fs e v' → v = v' := by
      rintro e v v' ⟨y, i, t, a1, a2, _, _, a5⟩ ⟨y', i', t', b1, b2, _, _, b5⟩
      rw [a1] at b1; cases b1
      rw [a2] at b2; cases b2
      rw [a5] at b5; cases b5; rfl
    have hW0 : ∀ p, ∃ w : UV, ∀ t l e v, HeirIn P n fs t l p e → OwnEntry ord true (fun y t => y.toTV P.defs t) vs fs e v →
        ∀ x, (dst[p]? = some x ∨ x = w) → v.unm P t x = uok w := by
      intro p
      by_cases hw : ∃ t l e v, HeirIn P n fs t l p e ∧ OwnEntry ord true (fun y t => y.toTV P.defs t) vs fs e v
      · obtain ⟨t, l, e, v, k1, k2⟩ := hw
        obtain ⟨i, a1, a2, a3⟩ := k1.start
        obtain ⟨ie, b1, b2, b3, b4⟩ := k1.stop
        obtain ⟨x, i', t', c1, c2, c3, c4, c5⟩ := id k2
        rw [b1] at c2; cases c2
        obtain ⟨y, hy⟩ : ∃ y, dst[p]? = some y := ⟨_, List.getElem?_eq_getElem (by have := (List.getElem?_eq_some_iff.1 a1).1; omega)⟩
        obtain ⟨w, w1, w2⟩ := hfit p i ie t x y v a1 a2 (by rw [hheq k1]; exact b1) (by rw [hheq k1]; exact c1) (hty e x ie t c1 b1) c5
          (hfld e ie t b1 b2).2.1 hy
        refine ⟨w, fun t' l' e' v' d1 d2 z hz => ?_⟩
        obtain ⟨i2, f1, _⟩ := d1.start
        rw [a1] at f1; cases f1
        rw [← k1.det d1] at d2
        rw [← hown k2 d2]
        rcases hz with hz | rfl
        · rw [hy] at hz; cases hz; exact w1
        · exact w2
      · exact ⟨.nil, fun t l e v a b => absurd ⟨t, l, e, v, a, b⟩ hw⟩
    obtain ⟨W, hW⟩ : ∃ W : Nat → UV, ∀ p t l e v, HeirIn P n fs t l p e → OwnEntry ord true (fun y t => y.toTV P.defs t) vs fs e v →
        ∀ x, (dst[p]? = some x ∨ x = W p) → v.unm P t x = uok (W p) := ⟨fun p => Classical.choose (hW0 p), fun p => Classical.choose_spec (hW0 p)⟩
    have hlen' : ∀ {t : Ty} {l q e : Nat}, HeirIn P n fs t l q e → ∃ l', l' ≤ fs.length ∧ HeirIn P n fs t l' q e := by
      intro t l q e h
      obtain ⟨i, h1, h2, _⟩ := h.start
      obtain ⟨l', h3, h4⟩ := hheir q i t h1 h2
      rw [← h.det h4] at h4
      exact ⟨l', h3, h4⟩
    have hent : ∀ {q : Nat} {i : FInfo} {t : Ty} {l e : Nat} {v : J}, fs[q]? = some (i, t) → HeirIn P n fs t l q e →
        OwnEntry ord true (fun y t => y.toTV P.defs t) vs fs e v → HeirEntry P n fs (fun p x => dst[p]? = some x ∨ x = W p) W i.name v q e := by
      intro q i t l e v h1 h2 h3
      obtain ⟨l', h4, h5⟩ := hlen' h2
      exact ⟨i, t, l', h1, rfl, h5, h4, fun m' p x hp hx => hW p t m' e v hp h3 x hx⟩
    obtain ⟨ws, g1, g2, g3, g4⟩ := unmf_heirs hgetD (G := fun p x => dst[p]? = some x ∨ x = W p) (W := W) m dst (by
        intro t l p e hp
        obtain ⟨i, a1, _⟩ := hp.start
        obtain ⟨y, hy⟩ : ∃ y, dst[p]? = some y := ⟨_, List.getElem?_eq_getElem (by have := (List.getElem?_eq_some_iff.1 a1).1; omega)⟩
        exact ⟨y, hy, .inl hy⟩) (by
        intro k v hk
        obtain ⟨q, i, t, l, e, h2, h3, h4, h5⟩ := hget1 k v (smGet_of_mem hsorted hk)
        subst h3
        exact ⟨q, e, hent h2 h4 h5, fun _ _ _ _ => .inr rfl⟩)
    have hkeep : ∀ p, (∀ t l e v, HeirIn P n fs t l p e → ¬ OwnEntry ord true (fun y t => y.toTV P.defs t) vs fs e v) → ws[p]? = dst[p]? := by
      intro p hp
      rcases g3 p with h | ⟨k, v, q, e, t, l, h1, h2, h3, h4⟩
      · exact h
      · obtain ⟨q', i', t', l', e', h6, h7, h8, h9⟩ := hget1 k v (smGet_of_mem hsorted h1)
        obtain ⟨i2, t2, l2, f1, f2, f3, _⟩ := h2
        obtain ⟨ia, a1, a2, a3⟩ := h8.start
        obtain ⟨ib, b1, b2, b3⟩ := f3.start
        rw [h6] at a1; cases a1
        rw [f1] at b1; cases b1
        rw [h7] at a3
        rw [f2, a3] at b3
        cases b3
        rw [← h8.det f3] at h3
        exact absurd h9 (hp t l e' v h3)
    refine ⟨ws, ?_, g2, ?_⟩
    · simp only [update, hj, J.unmarshal, J.unm, UEnv.alloc, dictInto, g1, Option.map_some, List.isEmpty_nil, if_true, uok]
    · intro q i t y e1 e2
      refine ⟨fun hi => ?_, fun hi => ?_⟩
      · rw [hkeep q fun t' l e v hh _ => ?_]
        · exact e2
        · obtain ⟨i', a1, a2, _⟩ := hh.start
          rw [e1] at a1; cases a1
          rw [hi] at a2; cases a2
      · obtain ⟨l, _, hh⟩ := hheir q i t e1 hi
        generalize P.heir n fs.length q = e at hh ⊢
        obtain ⟨ie, s1, s2, s3, _⟩ := hh.stop
        obtain ⟨x, hx⟩ : ∃ x, vs[e]? = some x := ⟨_, List.getElem?_eq_getElem (by have := (List.getElem?_eq_some_iff.1 s1).1; omega)⟩
        obtain ⟨o, ho'⟩ := htot e x ie t hx s1 s2 s3
        have hem := mar_none_iff _ _ _ ho'
        rw [empty_iff] at hem
        refine ⟨ie, x, s1, s2, s3, hx, hty e x ie t hx s1, fun he => ?_, fun he => ?_⟩
        · have := hem.2 ⟨rfl, he⟩
          subst this
          rw [hkeep q fun t' l' e' v h' hw => ?_]
          · exact e2
          · rw [← hh.det h'] at hw
            obtain ⟨y', i', t', w1, w2, _, _, w5⟩ := hw
            rw [hx] at w1; cases w1
            rw [s1] at w2; cases w2
            rw [ho'] at w5; cases w5
        · cases o with
          | none => rw [(hem.1 rfl).2] at he; cases he
          | some v =>
            have hw : OwnEntry ord true (fun y t => y.toTV P.defs t) vs fs e v := ⟨x, ie, t, hx, s1, s2, s3, ho'⟩
            exact ⟨v, W q, ho', hW q t l e v hh hw y (.inl e2), g4 i.name v q e (smGet_mem (hget2 q i t l e v e1 hh hw)) (hent e1 hh hw)⟩

/-- **C59, deprecated fields, all types.** `Update(&dst, src)` for two structs of a type with deprecated fields, if the documents
fit: a field keeps its value in `dst` if it is ignored, or if the field at the end of its chain (`heir`) is empty in `src`; any
other receives what `Marshal` makes of the field at the end of its chain: its own value in `src` is not looked at. -/
theorem C59_heirs (hord : ∀ dep, (ord dep).Perm dep) (hOk : P.Ok) (hN : P.NoJVal) (hP : P.RoundTripsD false) {n : Nat} {fs : List (FInfo × Ty)} (hn : P.defs[n]? = some fs)
    (hty : ∀ (i : FInfo) (t : Ty), (i, t) ∈ fs → i.ignore = false → t.Valid P.defs ∧ t.NoJVal)
    {h : List GV} {g : GV} {vs : List UV} (hv : IsValue P.defs h g (.struct vs) (.struct n)) {dst : List UV} (hd : UV.HasTy P.defs (.struct dst) (.struct n)) {f : Nat}
    (hm : marshal ord pick true h f g ≠ none)
    (hfit : ∀ (q : Nat) (i ie : FInfo) (t : Ty) (x y : UV) v, fs[q]? = some (i, t) → i.ignore = false → fs[P.heir n fs.length q]? = some (ie, t) →
      vs[P.heir n fs.length q]? = some x → (x.toTV P.defs t).mar ord true (some ie) = some (some v) → dst[q]? = some y →
      v.WF ∧ v.PlainFor P ∧ ∃ w, v.unm P t y = uok w) :
    ∃ ws, update ord pick P h f g (.struct n) (.struct dst) = uok (.struct ws) ∧ ws.length = dst.length ∧
      ∀ (q : Nat) (i : FInfo) (t : Ty) (y : UV), fs[q]? = some (i, t) → dst[q]? = some y →
        (i.ignore = true → ws[q]? = some y) ∧
        (i.ignore = false → ∃ ie x, fs[P.heir n fs.length q]? = some (ie, t) ∧ ie.ignore = false ∧ ie.deprecatedBy = none ∧ vs[P.heir n fs.length q]? = some x ∧ x.HasTy P.defs t ∧
          (x.empty P.defs t (some ie) = true → ws[q]? = some y) ∧
          (x.empty P.defs t (some ie) = false → ∃ v w, (x.toTV P.defs t).mar ord true (some ie) = some (some v) ∧ v.unm P t y = uok w ∧ ws[q]? = some w)) := by
  obtain ⟨_, fs', h1, h2, h3⟩ := hd
  cases h1
  rw [hn] at h2; cases h2
  obtain ⟨hlen, hdt⟩ := (hasTyf_iff _ _).1 h3
  refine update_heirs hord hP hn hv hlen hm fun q i ie t x y v a1 a2 a3 a4 _ a5 _ a6 => ?_
  obtain ⟨g1, g2, w, g3⟩ := hfit q i ie t x y v a1 a2 a3 a4 a5 a6
  obtain ⟨k1, k2⟩ := hty i t (List.mem_of_getElem? a1) a2
  exact ⟨w, g3, unm_idem hOk hN v g1 g2 t y w k1 k2 (hdt q y i t a6 a1) g3⟩

/-- **C59, deprecated scalar fields.** If all fields are booleans, numbers and texts, `Update(&dst, src)` never fails, and every
field whose chain ends in a field of `src` that is neither ignored nor empty becomes that. -/
theorem C59_heirs_scalars (hord : ∀ dep, (ord dep).Perm dep) (hP : P.RoundTripsD false) {n : Nat} {fs : List (FInfo × Ty)} (hn : P.defs[n]? = some fs)
    (hsc : ∀ (i : FInfo) (t : Ty), (i, t) ∈ fs → i.ignore = false → t.Scalar)
    {h : List GV} {g : GV} {vs : List UV} (hv : IsValue P.defs h g (.struct vs) (.struct n)) {dst : List UV} (hd : dst.length = fs.length) {f : Nat}
    (hm : marshal ord pick true h f g ≠ none) :
    ∃ ws, update ord pick P h f g (.struct n) (.struct dst) = uok (.struct ws) ∧ ws.length = dst.length ∧
      ∀ (q : Nat) (i : FInfo) (t : Ty) (y : UV), fs[q]? = some (i, t) → dst[q]? = some y →
        ∃ ie te x, fs[P.heir n fs.length q]? = some (ie, te) ∧ vs[P.heir n fs.length q]? = some x ∧ (ie.ignore = i.ignore ∧ (i.ignore = false → te = t ∧ ie.deprecatedBy = none)) ∧
          ws[q]? = some (if i.ignore || x.empty P.defs t (some ie) then y else x) := by
  have hgetD : P.defs.getD n [] = fs := by simp [List.getD_eq_getElem?_getD, hn]
  have hback : ∀ {t : Ty} {ie : FInfo} {x : UV} {v : J}, t.Scalar → (ie.forceString = true → t.Quotable P) → x.HasTy P.defs t →
      (x.toTV P.defs t).mar ord true (some ie) = some (some v) → ∀ z, v.unm P t z = uok x := fun a b c d z => scalar_field a b c d z
  obtain ⟨ws, g1, g2, g3⟩ := update_heirs hord hP hn hv hd hm fun q i ie t x y v a1 a2 a3 a4 a4' a5 a5' a6 => by
    have ht := hsc i t (List.mem_of_getElem? a1) a2
    exact ⟨x, hback ht a5' a4' a5 y, hback ht a5' a4' a5 x⟩
  refine ⟨ws, g1, g2, fun q i t y e1 e2 => ?_⟩
  obtain ⟨k1, k2⟩ := g3 q i t y e1 e2
  cases hi : i.ignore with
  | true =>
    obtain ⟨_, fs', h1, h2, h3⟩ := hv.1
    cases h1
    rw [hn] at h2; cases h2
    obtain ⟨x, hx⟩ : ∃ x, vs[q]? = some x := ⟨_, List.getElem?_eq_getElem (by have := (List.getElem?_eq_some_iff.1 e1).1; have := ((hasTyf_iff _ _).1 h3).1; omega)⟩
    rw [heir_ignored hgetD e1 hi]
    exact ⟨i, t, x, e1, hx, ⟨hi, fun h => by cases h⟩, by simpa using k1 hi⟩
  | false =>
    obtain ⟨ie, x, s1, s2, s3, s4, s5, s6, s7⟩ := k2 hi
    refine ⟨ie, t, x, s1, s4, ⟨s2, fun _ => ⟨rfl, s3⟩⟩, ?_⟩
    cases he : x.empty P.defs t (some ie) with
    | true => simpa using s6 he
    | false =>
      obtain ⟨v, w, w1, w2, w3⟩ := s7 he
      have := hback (hsc i t (List.mem_of_getElem? e1) hi) ((hP.2 n fs hn).2 _ ie t s1 s2).2.1 s5 w1 y
      rw [this] at w2
      cases uok_inj w2
      simpa using w3

/-! `type S struct { A string "omitempty"; B int32; C bool "omitfalse" }` -/

def exS : UEnv where
  defs := [[({ name := b!"a", omitEmpty := true }, .string), ({ name := b!"b" }, .int 32), ({ name := b!"c", omitFalse := true }, .bool)]]
  idx := fun _ k => if k = b!"a" then [0] else if k = b!"b" then [1] else if k = b!"c" then [2] else []
  toBool := fun _ => false
  us := fun _ => false
  eu := fun _ => false
  trunc := fun _ => 0

theorem exS_roundTrips : exS.RoundTrips false := by
  refine ⟨?_, ?_⟩
  · intro n fs h i t hm
    cases n with
    | succ n => simp [exS] at h
    | zero =>
      simp only [exS, List.getElem?_cons_zero, Option.some.injEq] at h
      subst h
      simp only [List.mem_cons, Prod.mk.injEq, List.not_mem_nil, or_false] at hm
      rcases hm with ⟨_, rfl⟩ | ⟨_, rfl⟩ | ⟨_, rfl⟩ <;> trivial
  · intro n fs h
    cases n with
    | succ n => simp [exS] at h
    | zero =>
      simp only [exS, List.getElem?_cons_zero, Option.some.injEq] at h
      subst h
      refine ⟨by unfold DistinctNames; decide, ?_⟩
      intro k i t hk _
      match k with
      | 0 => simp at hk; obtain ⟨rfl, rfl⟩ := hk; exact ⟨trivial, rfl, rfl, by decide⟩
      | 1 => simp at hk; obtain ⟨rfl, rfl⟩ := hk; exact ⟨trivial, rfl, rfl, by decide⟩
      | 2 => simp at hk; obtain ⟨rfl, rfl⟩ := hk; exact ⟨trivial, rfl, rfl, by decide⟩
      | k + 3 => simp at hk

/-- The hypotheses of C59 are met, with an empty field. -/
example : IsValue exS.defs [] (.struct [({ name := b!"a", omitEmpty := true }, .leaf (.str [])), ({ name := b!"b" }, .leaf (.int 0)),
      ({ name := b!"c", omitFalse := true }, .leaf (.bool true))]) (.struct [.str [], .int 0, .bool true]) (.struct 0) ∧
    (∀ (i : FInfo) (t : Ty), (i, t) ∈ exS.defs.getD 0 [] → i.ignore = false → t.Scalar) := by
  refine ⟨⟨⟨0, _, rfl, rfl, _, _, _, rfl, rfl, _, _, _, rfl, ⟨by decide, by decide, by decide, by decide⟩, _, _, _, rfl, rfl, rfl⟩, ?_⟩, ?_⟩
  · exact .struct (.cons (.leaf _) (.cons (.leaf _) (.cons (.leaf _) .nil)))
  · intro i t h _
    simp only [exS, List.getD_cons_zero, List.mem_cons, Prod.mk.injEq, List.not_mem_nil, or_false] at h
    rcases h with ⟨_, rfl⟩ | ⟨_, rfl⟩ | ⟨_, rfl⟩ <;> trivial

/-- `Update(&S{"x", 7, false}, S{"", 0, true})` gives `S{"x", 0, true}`: the empty text is not copied, the zero without option is. -/
example : update id List.head! exS [] 1 (.struct [({ name := b!"a", omitEmpty := true }, .leaf (.str [])), ({ name := b!"b" }, .leaf (.int 0)),
      ({ name := b!"c", omitFalse := true }, .leaf (.bool true))]) (.struct 0) (.struct [.str b!"x", .int 7, .bool false]) =
    uok (.struct [.str b!"x", .int 0, .bool true]) := rfl

/-! ## C60: twice -/

/-- **C60.** If `Unmarshal` succeeds, doing it again changes nothing; for variables without JSONDict, JSONArray, ... by value, and
documents whose keys match no deprecated fields, and no field twice. -/
theorem C60_idempotent (hP : P.Ok) (hN : P.NoJVal) {j : J} (hj : j.WF) (hp : j.PlainFor P) {t : Ty} {v w : UV} (ht : t.Valid P.defs) (hn : t.NoJVal)
    (hv : v.HasTy P.defs t) (h : j.unmarshal P [] t v = uok w) : j.unmarshal P [] t w = uok w := by
  cases j with
  | str s => exact unm_idem hP hN (.str s) hj hp t v w ht hn hv h
  | arr xs => exact unm_idem hP hN (.arr xs) hj hp t v w ht hn hv h
  | dict id kvs => exact unm_idem hP hN (.dict id kvs) hj hp t v w ht hn hv h
  | _ => exact h

/-- **C60, FALSE for a JSONArray by value**: every call appends. -/
theorem C60_json_array (xs old : List J) :
    (J.arr xs).unmarshal P [] (.jval .arr) (.json (.arr old)) = uok (.json (.arr (old ++ xs))) ∧
    (J.arr xs).unmarshal P [] (.jval .arr) (.json (.arr (old ++ xs))) = uok (.json (.arr (old ++ xs ++ xs))) := ⟨rfl, rfl⟩

theorem exT_noJVal : exT.NoJVal := by
  intro n fs h i t hm
  cases n with
  | succ n => simp [exT] at h
  | zero =>
    simp only [exT, List.getElem?_cons_zero, Option.some.injEq] at h
    subst h
    simp only [List.mem_cons, Prod.mk.injEq, List.not_mem_nil, or_false] at hm
    rcases hm with ⟨_, rfl⟩ | ⟨_, rfl⟩ | ⟨_, rfl⟩ | ⟨_, rfl⟩ | ⟨_, rfl⟩ <;> simp [Ty.NoJVal]

example : exT.Ok ∧ exT.NoJVal ∧ (J.dict 0 [(b!"name", .str b!"z"), (b!"tags", .arr [.str b!"q"])]).PlainFor exT := by
  refine ⟨exT_ok, exT_noJVal, ?_, trivial, ⟨trivial, trivial⟩, trivial⟩
  intro n fs h
  cases n with
  | succ n => simp [exT] at h
  | zero =>
    simp only [exT, List.getElem?_cons_zero, Option.some.injEq] at h
    subst h
    refine ⟨?_, by simp [exT]⟩
    intro k j h
    simp only [List.mem_cons, Prod.mk.injEq, List.not_mem_nil, or_false] at h
    rcases h with ⟨rfl, rfl⟩ | ⟨rfl, rfl⟩
    · exact .inr ⟨0, _, _, rfl, rfl, rfl⟩
    · exact .inr ⟨2, _, _, rfl, rfl, rfl⟩

/-! C59 with deprecated fields: `exD`. -/

theorem exD_noJVal : exD.NoJVal ∧ exD.Ok ∧ ∀ (i : FInfo) (t : Ty), (i, t) ∈ exD.defs.getD 0 [] → i.ignore = false → t.Valid exD.defs ∧ t.NoJVal ∧ t.Scalar := by
  refine ⟨?_, ⟨(exD_roundTrips true).1, ?_, ?_⟩, ?_⟩
  · intro n fs h i t hm
    cases n with
    | succ n => simp [exD] at h
    | zero =>
      simp only [exD, List.getElem?_cons_zero, Option.some.injEq] at h
      subst h
      simp only [List.mem_cons, Prod.mk.injEq, List.not_mem_nil, or_false] at hm
      rcases hm with ⟨_, rfl⟩ | ⟨_, rfl⟩ | ⟨_, rfl⟩ | ⟨_, rfl⟩ <;> trivial
  · intro n fs h i t hm
    cases n with
    | succ n => simp [exD] at h
    | zero =>
      simp only [exD, List.getElem?_cons_zero, Option.some.injEq] at h
      subst h
      simp only [List.mem_cons, Prod.mk.injEq, List.not_mem_nil, or_false] at hm
      rcases hm with ⟨_, rfl⟩ | ⟨_, rfl⟩ | ⟨_, rfl⟩ | ⟨_, rfl⟩ <;> simp [Ty.Valid]
  · intro n fs h k i hi
    cases n with
    | succ n => simp [exD] at h
    | zero =>
      simp only [exD, List.getElem?_cons_zero, Option.some.injEq] at h
      subst h
      simp only [exD] at hi
      split at hi
      · simp only [List.mem_singleton] at hi; subst hi; decide
      · split at hi
        · simp only [List.mem_singleton] at hi; subst hi; decide
        · split at hi
          · simp only [List.mem_singleton] at hi; subst hi; decide
          · split at hi
            · simp only [List.mem_singleton] at hi; subst hi; decide
            · cases hi
  · intro i t hm _
    simp only [exD, List.getD_cons_zero, List.mem_cons, Prod.mk.injEq, List.not_mem_nil, or_false] at hm
    rcases hm with ⟨_, rfl⟩ | ⟨_, rfl⟩ | ⟨_, rfl⟩ | ⟨_, rfl⟩ <;> simp [Ty.Valid, Ty.NoJVal, Ty.Scalar]

/-- `Update(&D{"p", "q", "r", 7}, D{"a", "b", "x", 3})` gives `D{"x", "x", "x", 3}`: `"a"` and `"b"` are not looked at. -/
example : update id List.head! exD [] 2 (exDG b!"a" b!"b") (.struct 0) (.struct [.str b!"p", .str b!"q", .str b!"r", .int 7]) =
    uok (exDV b!"x" b!"x") := rfl

example : ∃ ws, update id List.head! exD [] 2 (exDG b!"a" b!"b") (.struct 0) (.struct [.str b!"p", .str b!"q", .str b!"r", .int 7]) = uok (.struct ws) ∧ ws.length = 4 := by
  obtain ⟨ws, h1, h2, _⟩ := C59_heirs_scalars (pick := List.head!) (fun _ => .refl _) (exD_roundTrips false) rfl (fun i t hm hi => (exD_noJVal.2.2 i t hm hi).2.2)
    (exDV_value b!"a" b!"b") (dst := [.str b!"p", .str b!"q", .str b!"r", .int 7]) rfl (f := 2) (by intro h; cases h)
  exact ⟨ws, h1, h2⟩

/-- The hypotheses of C59_heirs are met too. -/
example : ∃ ws, update id List.head! exD [] 2 (exDG b!"a" b!"b") (.struct 0) (.struct [.str b!"p", .str b!"q", .str b!"r", .int 7]) = uok (.struct ws) ∧ ws.length = 4 := by
  obtain ⟨ws, h1, h2, _⟩ := C59_heirs (pick := List.head!) (fun _ => .refl _) exD_noJVal.2.1 exD_noJVal.1 (exD_roundTrips false) rfl
    (fun i t hm hi => ⟨(exD_noJVal.2.2 i t hm hi).1, (exD_noJVal.2.2 i t hm hi).2.1⟩) (exDV_value b!"a" b!"b") (dst := [.str b!"p", .str b!"q", .str b!"r", .int 7])
    ⟨0, _, rfl, rfl, _, _, _, rfl, rfl, _, _, _, rfl, rfl, _, _, _, rfl, rfl, _, _, _, rfl, ⟨by decide, by decide, by decide, by decide⟩, rfl⟩
    (f := 2) (by intro h; cases h) (by
      intro q i ie t x y v a1 a2 a3 a4 a5 a6
      match q with
      | 0 => simp [exD] at a1; obtain ⟨rfl, rfl⟩ := a1; cases a3; cases a4; cases a5; cases a6; exact ⟨trivial, trivial, _, rfl⟩
      | 1 => simp [exD] at a1; obtain ⟨rfl, rfl⟩ := a1; cases a3; cases a4; cases a5; cases a6; exact ⟨trivial, trivial, _, rfl⟩
      | 2 => simp [exD] at a1; obtain ⟨rfl, rfl⟩ := a1; cases a3; cases a4; cases a5; cases a6; exact ⟨trivial, trivial, _, rfl⟩
      | 3 => simp [exD] at a1; obtain ⟨rfl, rfl⟩ := a1; cases a3; cases a4; cases a5; cases a6; exact ⟨show InI64 3 by decide, trivial, _, rfl⟩
      | q + 4 => simp [exD] at a1)
  exact ⟨ws, h1, h2⟩

end Jsonutils.Props
