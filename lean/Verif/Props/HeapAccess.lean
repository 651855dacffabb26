import Verif.Proofs.HeapAccess
import Verif.Props.HeapRead
import Verif.Props.Dict

/-!
# The remaining readers in memory: C86
-/

namespace Jsonutils.Props

/-- **C86, on documents.** On a document in memory every reader gives what it gives on the document: the same value, the same error, or it
does not return either (`Int()`, `Float()`, `Bool()` of a dictionary).  `GetArray` and `GetIgnoreCases` return the variables that hold the
sub-documents. -/
theorem C86_refines (h : Heap) (v : J) (a : Addr) (hv : J.Seen h v a) :
    (∀ keys, ∃ f0, ∀ f, f0 ≤ f → getStringH f h (some a) keys = (v.getString keys).inMemory) ∧
    (∀ f keys, intH f h (some a) keys = (v.int? f keys).inMemory) ∧
    (∀ f keys, floatH f h (some a) keys = (v.float? f keys).inMemory) ∧
    (∀ f keys, boolH f h (some a) keys = (v.bool? f keys).inMemory) ∧
    (∀ (T : Type) (layouts : List (Bytes → Option T)) keys, (v.getTime layouts keys).ended (getTimeH layouts h (some a) keys)) ∧
    (∀ keys, match v.getArray keys with
      | .ok ws => ∃ rs, getArrayH h (some a) keys = .ok rs ∧ J.Ats h (fun _ => True) ws rs
      | .err e => getArrayH h (some a) keys = .err e
      | .diverge => False) ∧
    (∀ fold keys, match v.getIgnoreCases fold keys with
      | .ok w => ∃ b, getFoldH fold h (some a) keys = .ok (some b) ∧ J.Seen h w b
      | .err e => getFoldH fold h (some a) keys = .err e
      | .diverge => False) ∧
    (∀ fold keys, containsFoldH fold h (some a) keys = .ok (v.containsIgnoreCases fold keys)) ∧
    isZeroH h (some a) = .ok v.isZero ∧ lengthH h a = v.length? ∧
    Eventually (fun f => queryStringH f h (some a)) (.ok v.queryString) := by
  refine ⟨getString_seen hv, fun f keys => ?_, fun f keys => ?_, fun f keys => ?_, fun T l keys => getTime_seen l hv keys, getArray_seen hv,
    fun fold => getFold_seen fold hv, fun fold keys => ?_, isZero_seen hv, length_seen hv, queryString_seen hv⟩
  · exact scalarAcc_seen (own_of rfl (fun _ => rfl) (fun _ => rfl) (fun _ _ => rfl) (fun _ => rfl) (fun _ => rfl) fun _ _ => rfl) f v a hv keys
  · exact scalarAcc_seen (own_of rfl (fun _ => rfl) (fun _ => rfl) (fun _ _ => rfl) (fun _ => rfl) (fun _ => rfl) fun _ _ => rfl) f v a hv keys
  · exact scalarAcc_seen (own_of rfl (fun _ => rfl) (fun _ => rfl) (fun _ _ => rfl) (fun _ => rfl) (fun _ => rfl) fun _ _ => rfl) f v a hv keys
  · have hg := getFold_seen fold hv keys
    simp only [containsFoldH, J.containsIgnoreCases]
    cases hr : v.getIgnoreCases fold keys with
    | ok w => rw [hr] at hg; obtain ⟨b, hb, _⟩ := hg; simp only [hb]
    | err e => rw [hr] at hg; simp only [hg]
    | diverge => rw [hr] at hg; exact hg.elim

/-- What `Get` can give on a dictionary with at least one key, in an orderly memory. -/
theorem get_cases (h : Heap) (hok : h.Ok) (ht : h.Tidy) (a : Addr) (ha : DictAt h a) (keys : List Bytes) (hk : keys ≠ []) :
    (∃ b o, getH h (some a) keys = .ok (some b) ∧ Leads h a keys (some b) ∧ h[b]? = some o ∧ ¬ Leads h a keys none) ∨
    (getH h (some a) keys = .panic ∧ Leads h a keys none) ∨ (∃ e, getH h (some a) keys = .err e ∧ ∀ r, ¬ Leads h a keys r) := by
  obtain ⟨hb, hp, -, -, -⟩ := C77_get h ht a ha keys hk
  obtain ⟨id, kvs, ho⟩ := ha
  cases hg : getH h (some a) keys with
  | ok r =>
    cases r with
    | none =>
      exfalso
      have := getLoop_spec ht keys a id kvs hk ho
      have hg' : getH h (some a) keys = getLoopH h kvs keys := by
        cases keys with
        | nil => exact absurd rfl hk
        | cons k ks => simp only [getH, ho]
      rw [← hg', hg] at this
      exact this.1 rfl
    | some b =>
      have hl := (hb b).1 hg
      have hlt : b < h.length := by
        clear hb hp hg
        generalize hr : (some b : Ref) = r at hl
        clear ho hk
        induction hl with
        | last g1 g2 => subst hr; exact hok.inside _ (List.mem_of_getElem? g1) b (List.mem_map.2 ⟨_, g2, rfl⟩)
        | step _ _ _ ih => exact ih hr
      refine Or.inl ⟨b, _, rfl, hl, List.getElem?_eq_getElem hlt, fun hn => ?_⟩
      rw [hp.2 hn] at hg; cases hg
  | err e =>
    refine Or.inr (Or.inr ⟨e, rfl, fun r hl => ?_⟩)
    cases r with
    | none => rw [hp.2 hl] at hg; cases hg
    | some b => rw [(hb b).2 hl] at hg; cases hg
  | panic => exact Or.inr (Or.inl ⟨rfl, hp.1 hg⟩)

theorem scalar_never {α} {ownH : Obj → Option (Res α)} (h : Heap) (b : Addr) (hb : DictAt h b) : ∀ f, scalarAccH ownH f h (some b) [] = .fuel := by
  obtain ⟨id, kvs, ho⟩ := hb
  intro f
  induction f with
  | zero => rfl
  | succ f ih => simp only [scalarAccH, ho, getH]; exact ih

theorem scalar_noPanic {α} {ownH : Obj → Option (Res α)} (h : Heap) (b : Addr) (o : Obj) (ho : h[b]? = some o) (f : Nat) :
    scalarAccH ownH f h (some b) [] ≠ .panic := by
  by_cases hd : ∃ id kvs, o = .dict id kvs
  · obtain ⟨id, kvs, rfl⟩ := hd
    rw [scalar_never h b ⟨id, kvs, ho⟩]; intro e; cases e
  · cases f with
    | zero => intro e; cases e
    | succ f =>
      rw [scalarH_other ho fun id kvs e => hd ⟨id, kvs, e⟩]
      cases hr : ownH o with
      | none => intro e; cases e
      | some r => cases r <;> (intro e; cases e)

theorem scalar_panic {α} {ownH : Obj → Option (Res α)} (h : Heap) (hok : h.Ok) (ht : h.Tidy) (a : Addr) (ha : DictAt h a) (keys : List Bytes)
    (hk : keys ≠ []) : (∃ f, scalarAccH ownH f h (some a) keys = .panic) ↔ Leads h a keys none := by
  have hg := get_cases h hok ht a ha keys hk
  obtain ⟨id, kvs, ho⟩ := ha
  constructor
  · rintro ⟨f, hf⟩
    cases f with
    | zero => cases hf
    | succ f =>
      simp only [scalarAccH, ho] at hf
      rcases hg with ⟨b, o, h1, h2, h3, h4⟩ | ⟨h1, h2⟩ | ⟨e, h1, h2⟩
      · rw [h1] at hf; exact absurd hf (scalar_noPanic h b o h3 f)
      · exact h2
      · rw [h1] at hf; cases hf
  · intro hl
    refine ⟨1, ?_⟩
    rcases hg with ⟨b, o, h1, h2, h3, h4⟩ | ⟨h1, h2⟩ | ⟨e, h1, h2⟩
    · exact absurd hl h4
    · simp only [scalarAccH, ho, h1]
    · exact absurd hl (h2 _)

theorem scalar_toDict {α} {ownH : Obj → Option (Res α)} (h : Heap) (ht : h.Tidy) (a : Addr) (ha : DictAt h a) (keys : List Bytes)
    (hk : keys ≠ []) (b : Addr) (hb : DictAt h b) (hl : Leads h a keys (some b)) : ∀ f, scalarAccH ownH f h (some a) keys = .fuel := by
  have hg := ((C77_get h ht a ha keys hk).1 b).2 hl
  obtain ⟨id, kvs, ho⟩ := ha
  intro f
  cases f with
  | zero => rfl
  | succ f => simp only [scalarAccH, ho, hg]; exact scalar_never h b hb f

/-- **C86, panics.** On any orderly memory, readers with keys on a dictionary panic exactly if the keys lead to a nil entry; `GetString` also
if they lead to something whose `String()` panics. -/
theorem C86_panics (h : Heap) (hok : h.Ok) (ht : h.Tidy) (a : Addr) (ha : DictAt h a) (keys : List Bytes) (hk : keys ≠ []) :
    ((∃ f, intH f h (some a) keys = .panic) ↔ Leads h a keys none) ∧
    ((∃ f, floatH f h (some a) keys = .panic) ↔ Leads h a keys none) ∧
    ((∃ f, boolH f h (some a) keys = .panic) ↔ Leads h a keys none) ∧
    (∀ (T : Type) (layouts : List (Bytes → Option T)), getTimeH layouts h (some a) keys = .panic ↔ Leads h a keys none) ∧
    (getArrayH h (some a) keys = .panic ↔ Leads h a keys none) ∧
    ((∃ f, getStringH f h (some a) keys = .panic) ↔
      Leads h a keys none ∨ ∃ b, Leads h a keys (some b) ∧ ∃ f, textH f h (some b) = .panic) := by
  refine ⟨scalar_panic h hok ht a ha keys hk, scalar_panic h hok ht a ha keys hk, scalar_panic h hok ht a ha keys hk, fun T layouts => ?_, ?_, ?_⟩
  · have hg := get_cases h hok ht a ha keys hk
    obtain ⟨id, kvs, ho⟩ := ha
    simp only [getTimeH, ho]
    rcases hg with ⟨b, o, h1, h2, h3, h4⟩ | ⟨h1, h2⟩ | ⟨e, h1, h2⟩
    · simp only [h1, h3]
      refine ⟨fun hp => ?_, fun hl => absurd hl h4⟩
      exfalso
      cases o with
      | str s => simp only at hp; cases ht : timeOfText layouts s <;> rw [ht] at hp <;> cases hp
      | _ => cases hp
    · simp only [h1]; exact ⟨fun _ => h2, fun _ => trivial⟩
    · simp only [h1]; exact ⟨fun hp => (by cases hp), fun hl => absurd hl (h2 _)⟩
  · have hg := get_cases h hok ht a ha keys hk
    obtain ⟨id, kvs, ho⟩ := ha
    simp only [getArrayH, ho]
    rcases hg with ⟨b, o, h1, h2, h3, h4⟩ | ⟨h1, h2⟩ | ⟨e, h1, h2⟩
    · simp only [h1, array0H, h3]
      refine ⟨fun hp => ?_, fun hl => absurd hl h4⟩
      cases o <;> cases hp
    · simp only [h1]; exact ⟨fun _ => h2, fun _ => trivial⟩
    · simp only [h1]; exact ⟨fun hp => (by cases hp), fun hl => absurd hl (h2 _)⟩
  · have hb := (C77_get h ht a ha keys hk).1
    have hg := get_cases h hok ht a ha keys hk
    obtain ⟨id, kvs, ho⟩ := ha
    have e : ∀ f, getStringH f h (some a) keys = match getH h (some a) keys with
        | .ok b => string0H f h b
        | .err e => .err e
        | .panic => .panic := by
      intro f
      cases keys with
      | nil => exact absurd rfl hk
      | cons k ks => simp only [getStringH, ho]; cases getH h (some a) (k :: ks) <;> rfl
    rcases hg with ⟨b, o, h1, h2, h3, h4⟩ | ⟨h1, h2⟩ | ⟨e', h1, h2⟩
    · simp only [e, h1, string0H, h3]
      constructor
      · rintro ⟨f, hf⟩
        refine Or.inr ⟨b, h2, f, ?_⟩
        cases hx : textH f h (some b) with
        | panic => rfl
        | _ => rw [hx] at hf; cases o <;> cases hf
      · rintro (hl | ⟨b', hl, f, hf⟩)
        · exact absurd hl h4
        · have hbb : b' = b := by
            have := (hb b').2 hl
            rw [h1] at this; cases this; rfl
          subst hbb
          refine ⟨f, ?_⟩
          cases o with
          | str s => cases f <;> simp [textH, h3] at hf
          | ptr s => cases f <;> simp [textH, h3] at hf
          | _ => simp only [hf]
    · exact ⟨fun _ => Or.inl h2, fun _ => ⟨0, by simp only [e, h1]⟩⟩
    · constructor
      · rintro ⟨f, hf⟩
        simp only [e, h1] at hf; cases hf
      · rintro (hl | ⟨b', hl, _⟩)
        · exact absurd hl (h2 _)
        · exact absurd hl (h2 _)

/-- **C86, calls that never return.** `Int`, `Float` and `Bool` of a dictionary without keys, and with keys that lead to a dictionary, never
return, whatever else is in memory. -/
theorem C86_never (h : Heap) (ht : h.Tidy) (a b : Addr) (ha : DictAt h a) (hb : DictAt h b) (keys : List Bytes)
    (hl : (keys = [] ∧ a = b) ∨ (keys ≠ [] ∧ Leads h a keys (some b))) :
    ∀ f, intH f h (some a) keys = .fuel ∧ floatH f h (some a) keys = .fuel ∧ boolH f h (some a) keys = .fuel := by
  intro f
  rcases hl with ⟨rfl, rfl⟩ | ⟨hk, hl⟩
  · exact ⟨scalar_never h a hb f, scalar_never h a hb f, scalar_never h a hb f⟩
  · exact ⟨scalar_toDict h ht a ha keys hk b hb hl f, scalar_toDict h ht a ha keys hk b hb hl f, scalar_toDict h ht a ha keys hk b hb hl f⟩

/-- **C86, `QueryString()`.** Of a dictionary: it returns exactly on documents, panics on a nil anywhere inside, and never returns on a
nil-free graph with a cycle.  Of anything else it is the empty text, nils inside or not. -/
theorem C86_query (h : Heap) (hok : h.Ok) (a : Addr) (ha : a < h.length) :
    (DictAt h a → Reads (fun f => queryStringH f h (some a)) J.queryString h a) ∧
    (¬ DictAt h a → ∀ f, queryStringH f h (some a) = .ok []) := by
  constructor
  · rintro ⟨id, kvs, ho⟩
    have e : ∀ f, queryStringH f h (some a) = queryStrH f h (some a) [] := fun f => by simp only [queryStringH, ho]
    refine reads_of hok ha (fun f => by rw [e]; exact query_shape f h (some a) []) fun v f out hv he => ?_
    rw [e] at he
    have := query_val v f a [] out hv he
    cases v with
    | dict id' kvs' => exact this
    | arr xs => simp only [J.Seen, J.At] at hv; obtain ⟨_, rs, h1, _⟩ := hv; rw [ho] at h1; cases h1
    | _ => simp only [J.Seen, J.At] at hv; rw [ho] at hv; cases hv.2
  · intro hd f
    obtain ⟨o, ho⟩ : ∃ o, h[a]? = some o := ⟨_, List.getElem?_eq_getElem ha⟩
    simp only [queryStringH, ho]
    cases o with
    | dict id kvs => exact absurd ⟨id, kvs, ho⟩ hd
    | _ => rfl

theorem getFoldLoop_spec (fold : Bytes → Bytes) (h : Heap) : ∀ (keys : List Bytes) (a : Addr) (id : Int) (kvs : SMap Ref), keys ≠ [] → h[a]? = some (.dict id kvs) →
    (∀ b, getFoldLoopH fold h kvs keys = .ok (some b) ↔ LeadsFold fold h a keys (some b)) ∧ getFoldLoopH fold h kvs keys ≠ .ok none ∧
    (getFoldLoopH fold h kvs keys = .panic ↔ LeadsFold fold h a keys none)
  | [], _, _, _, hk, _ => absurd rfl hk
  | [k], a, id, kvs, _, ho => by
    have key : ∀ r, LeadsFold fold h a [k] r ↔ smGetFold fold kvs k = some r := by
      intro r
      rw [smGetFold_iff]
      constructor
      · intro hl
        cases hl with
        | last g1 g2 => rw [ho] at g1; cases g1; exact g2
      · exact fun hf => .last ho hf
    simp only [getFoldLoopH, key]
    cases smGetFold fold kvs k with
    | none => exact ⟨fun b => ⟨fun e => (by cases e), fun e => (by cases e)⟩, (by intro e; cases e), fun e => (by cases e), fun e => (by cases e)⟩
    | some r =>
      cases r with
      | none => exact ⟨fun b => ⟨fun e => (by cases e), fun e => (by cases e)⟩, (by intro e; cases e), fun _ => rfl, fun _ => rfl⟩
      | some c => exact ⟨fun b => ⟨fun e => (by cases e; rfl), fun e => (by cases e; rfl)⟩, (by intro e; cases e), fun e => (by cases e), fun e => (by cases e)⟩
  | k :: k2 :: ks, a, id, kvs, _, ho => by
    have key : ∀ r, LeadsFold fold h a (k :: k2 :: ks) r ↔ ∃ b, smGetFold fold kvs k = some (some b) ∧ LeadsFold fold h b (k2 :: ks) r := by
      intro r
      constructor
      · intro hl
        cases hl with
        | step g1 g2 g3 => rw [ho] at g1; cases g1; exact ⟨_, (smGetFold_iff ..).2 g2, g3⟩
      · rintro ⟨b, g1, g2⟩
        exact .step ho ((smGetFold_iff ..).1 g1) g2
    have no : ∀ {b : Addr} {r : Ref} {ks : List Bytes}, LeadsFold fold h b ks r → ∃ i m, h[b]? = some (.dict i m) := by
      intro b r ks hl
      cases hl with
      | last g1 _ => exact ⟨_, _, g1⟩
      | step g1 _ _ => exact ⟨_, _, g1⟩
    simp only [getFoldLoopH]
    cases hg : smGetFold fold kvs k with
    | none =>
      have hno : ∀ r, ¬ LeadsFold fold h a (k :: k2 :: ks) r := fun r hl => by
        obtain ⟨b, g, _⟩ := (key r).1 hl
        rw [hg] at g; cases g
      exact ⟨fun b => ⟨fun e => (by cases e), fun e => absurd e (hno _)⟩, (by intro e; cases e), fun e => (by cases e), fun e => absurd e (hno _)⟩
    | some r =>
      cases r with
      | none =>
        have hno : ∀ r, ¬ LeadsFold fold h a (k :: k2 :: ks) r := fun r hl => by
          obtain ⟨b, g, _⟩ := (key r).1 hl
          rw [hg] at g; cases g
        exact ⟨fun b => ⟨fun e => (by cases e), fun e => absurd e (hno _)⟩, (by intro e; cases e), fun e => (by cases e), fun e => absurd e (hno _)⟩
      | some c =>
        have key2 : ∀ r, LeadsFold fold h a (k :: k2 :: ks) r ↔ LeadsFold fold h c (k2 :: ks) r := by
          intro r
          rw [key]
          constructor
          · rintro ⟨b, g1, g2⟩
            rw [hg] at g1; cases g1; exact g2
          · exact fun g => ⟨c, hg, g⟩
        simp only [key2]
        by_cases hd : ∃ i m, h[c]? = some (.dict i m)
        · obtain ⟨i, m, hc⟩ := hd
          simp only [hc]
          exact getFoldLoop_spec fold h (k2 :: ks) c i m (by simp) hc
        · have fin : (∀ b, GRes.err AErr.invalidDict = GRes.ok (some b) ↔ LeadsFold fold h c (k2 :: ks) (some b)) ∧ GRes.err AErr.invalidDict ≠ .ok (none : Ref) ∧
              (GRes.err AErr.invalidDict = (.panic : GRes Ref) ↔ LeadsFold fold h c (k2 :: ks) none) :=
            ⟨fun b => ⟨fun e => (by cases e), fun e => absurd (no e) hd⟩, (by intro e; cases e), fun e => (by cases e), fun e => absurd (no e) hd⟩
          cases hc : h[c]? with
          | none => exact fin
          | some o => cases o <;> first | exact fin | exact absurd ⟨_, _, hc⟩ hd

/-- **C86, ignoring case.** `GetIgnoreCases` with keys on a dictionary, on any memory: it returns what the keys lead to up to case, panics
exactly if that is nil, and returns an error otherwise; `ContainsIgnoreCases` is true, panics and is false in these cases. -/
theorem C86_fold (fold : Bytes → Bytes) (h : Heap) (a : Addr) (ha : DictAt h a) (keys : List Bytes) (hk : keys ≠ []) :
    (∀ b, getFoldH fold h (some a) keys = .ok (some b) ↔ LeadsFold fold h a keys (some b)) ∧ getFoldH fold h (some a) keys ≠ .ok none ∧
    (getFoldH fold h (some a) keys = .panic ↔ LeadsFold fold h a keys none) ∧
    (containsFoldH fold h (some a) keys = .panic ↔ LeadsFold fold h a keys none) ∧
    (containsFoldH fold h (some a) keys = .ok true ↔ ∃ b, LeadsFold fold h a keys (some b)) ∧
    (containsFoldH fold h (some a) keys = .ok false ↔ ∀ r, ¬ LeadsFold fold h a keys r) := by
  obtain ⟨id, kvs, ho⟩ := ha
  have hg : getFoldH fold h (some a) keys = getFoldLoopH fold h kvs keys := by
    cases keys with
    | nil => exact absurd rfl hk
    | cons k ks => simp only [getFoldH, ho]
  obtain ⟨s1, s2, s3⟩ := getFoldLoop_spec fold h keys a id kvs hk ho
  simp only [containsFoldH, hg]
  refine ⟨s1, s2, s3, ?_⟩
  cases hr : getFoldLoopH fold h kvs keys with
  | ok r =>
    rw [hr] at s1 s2 s3
    cases r with
    | none => exact absurd rfl s2
    | some b =>
      have hl := (s1 b).1 rfl
      exact ⟨⟨fun e => (by cases e), fun e => (by cases s3.2 e)⟩, ⟨fun _ => ⟨b, hl⟩, fun _ => rfl⟩, fun e => (by cases e), fun e => absurd hl (e _)⟩
  | err e =>
    rw [hr] at s1 s3
    have hno : ∀ r, ¬ LeadsFold fold h a keys r := fun r hl => by
      cases r with
      | none => cases s3.2 hl
      | some b => cases (s1 b).2 hl
    exact ⟨⟨fun e => (by cases e), fun e => absurd e (hno _)⟩, ⟨fun e => (by cases e), fun ⟨b, e⟩ => absurd e (hno _)⟩, fun _ => hno, fun _ => rfl⟩
  | panic =>
    rw [hr] at s1 s3
    have hl := s3.1 rfl
    exact ⟨⟨fun _ => hl, fun _ => rfl⟩, ⟨fun e => (by cases e), fun ⟨b, e⟩ => (by cases (s1 b).2 e)⟩, fun e => (by cases e), fun e => absurd hl (e _)⟩

/-- **C86, calls that look at one object.** On any memory `IsZero` and `Length` of an array or a dictionary count the entries, nil entries
included; `GetArray()` of an array is its very elements, `GetIgnoreCases()` of a dictionary is the dictionary; calls on nil panic. -/
theorem C86_shallow (fold : Bytes → Bytes) (h : Heap) (a : Addr) :
    (∀ xs, h[a]? = some (.arr xs) → (isZeroH h (some a) = .ok true ↔ xs = []) ∧ lengthH h a = some xs.length ∧ getArrayH h (some a) [] = .ok xs) ∧
    (∀ id kvs, h[a]? = some (.dict id kvs) → (isZeroH h (some a) = .ok true ↔ kvs = []) ∧ lengthH h a = some kvs.length ∧
      getFoldH fold h (some a) [] = .ok (some a) ∧ getArrayH h (some a) [] = .err .invalidArray) ∧
    (isZeroH h none = .panic ∧ (∀ keys, getFoldH fold h none keys = .panic ∧ getArrayH h none keys = .panic ∧
      ∀ f, intH f h none keys = .panic ∧ floatH f h none keys = .panic ∧ boolH f h none keys = .panic ∧ getStringH f h none keys = .panic ∧
        queryStringH f h none = .panic)) := by
  refine ⟨fun xs ho => ⟨?_, ?_, ?_⟩, fun id kvs ho => ⟨?_, ?_, ?_, ?_⟩, rfl, fun keys => ⟨by cases keys <;> rfl, rfl, fun f => ⟨?_, ?_, ?_, ?_, rfl⟩⟩⟩
  · simp only [isZeroH, ho]; cases xs <;> simp
  · simp only [lengthH, ho]
  · simp only [getArrayH, ho, array0H]
  · simp only [isZeroH, ho]; cases kvs <;> simp
  · simp only [lengthH, ho]
  · simp only [getFoldH, ho]
  · simp only [getArrayH, ho, getH, array0H]
  · cases f <;> rfl
  · cases f <;> rfl
  · cases f <;> rfl
  · cases keys <;> rfl

/-- Concrete memories: `{"a":nil,"s":"7","d":{"x":[nil]}}`. -/
theorem C86_cases :
    let h : Heap := Heap.base ++ [.str b!"7", .arr [none], .dict 0 [(b!"x", some 4)], .dict 0 [(b!"a", none), (b!"d", some 5), (b!"s", some 3)]]
    intH 9 h (some 6) [b!"s"] = .ok 7 ∧ intH 9 h (some 6) [b!"a"] = .panic ∧ intH 9 h (some 6) [b!"d"] = .fuel ∧
    getStringH 9 h (some 6) [b!"s"] = .ok b!"7" ∧ getStringH 9 h (some 6) [b!"d"] = .panic ∧
    getArrayH h (some 6) [b!"d", b!"x"] = .ok [none] ∧ getArrayH h (some 6) [b!"s"] = .ok [some 3] ∧ getArrayH h (some 6) [b!"a"] = .panic ∧
    isZeroH h (some 6) = .ok false ∧ getFoldH (fun s => s.map lowerByte) h (some 6) [b!"D", b!"X"] = .ok (some 4) ∧
    getFoldH (fun s => s.map lowerByte) h (some 6) [b!"A"] = .panic ∧ queryStringH 9 h (some 6) = .panic ∧ queryStringH 9 h (some 4) = .ok [] := by
  exact ⟨rfl, rfl, rfl, rfl, rfl, rfl, rfl, rfl, rfl, rfl, rfl, rfl, rfl⟩

end Jsonutils.Props
