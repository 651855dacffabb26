import Verif.Proofs.HeapRead
import Verif.Spec.HeapAccess

/-!
# Readers on memory
-/

namespace Jsonutils

variable {h : Heap}

/-! ### Reading -/

theorem seen_refs {v : J} {a : Addr} (hv : J.Seen h v a) : ∃ o, h[a]? = some o ∧ ∀ r ∈ o.refs, ∃ b w, r = some b ∧ J.Seen h w b := by
  cases v with
  | arr xs =>
    simp only [J.Seen, J.At] at hv
    obtain ⟨_, rs, h1, h2⟩ := hv
    refine ⟨_, h1, fun r hr => ?_⟩
    obtain ⟨b, x, _, h3, h4⟩ := Ats_of_mem h2 r hr
    exact ⟨b, x, h3, h4⟩
  | dict id kvs =>
    simp only [J.Seen, J.At] at hv
    obtain ⟨_, rs, h1, h2⟩ := hv
    refine ⟨_, h1, fun r hr => ?_⟩
    obtain ⟨e, he, rfl⟩ := List.mem_map.1 hr
    obtain ⟨b, x, _, h3, h4⟩ := Atf_of_mem h2 e he
    exact ⟨b, x, h3, h4⟩
  | _ =>
    simp only [J.Seen, J.At] at hv
    exact ⟨_, hv.2, fun r hr => by simp [Obj.refs] at hr⟩

theorem visit_noPanic : ∀ f a (v : J), J.Seen h v a → visitH f h (some a) ≠ .panic := by
  intro f
  induction f with
  | zero => intro a v _; simp [visitH]
  | succ f ih =>
    intro a v hv hp
    obtain ⟨o, h1, h2⟩ := seen_refs hv
    simp only [visitH, h1] at hp
    obtain ⟨r, hm, h3⟩ := seq_panic (shape_panic hp)
    obtain ⟨b, w, rfl, h4⟩ := h2 r hm
    exact ih b w h4 h3

theorem reads_doc {α} {a : Addr} {v : J} (hv : J.Seen h v a) {call : Nat → CRes α} {F : J → α}
    (hs : ∀ f, (call f).shape = visitH f h (some a)) (hc : ∀ v f out, J.Seen h v a → call f = .ok out → out = F v) : Eventually call (.ok (F v)) := by
  obtain ⟨f0, h0⟩ := visit_finite (seen_finite v a hv)
  refine ⟨f0, fun f hf => ?_⟩
  cases he : call f with
  | ok out => rw [hc v f out hv he]
  | panic => exact absurd (by rw [← hs f, he]; rfl) (visit_noPanic f a v hv)
  | fuel => exact absurd (by rw [← hs f, he]; rfl) (h0 f hf)

/-! ### Accessors on documents -/

theorem string0_seen {v : J} {a : Addr} (hv : J.Seen h v a) : ∃ f0, ∀ f, f0 ≤ f → string0H f h (some a) = .ok v.string0 := by
  obtain ⟨f0, h0⟩ := reads_doc hv (call := fun f => textH f h (some a)) (fun f => text_shape f h (some a)) fun v f out hv he => text_val v f a out hv he
  refine ⟨f0, fun f hf => ?_⟩
  have ht : textH f h (some a) = .ok v.toBytes := h0 f hf
  cases v with
  | arr xs => simp only [J.Seen, J.At] at hv; obtain ⟨_, rs, h1, _⟩ := hv; simp only [string0H, h1, ht, J.string0]
  | dict id kvs => simp only [J.Seen, J.At] at hv; obtain ⟨_, rs, h1, _⟩ := hv; simp only [string0H, h1, ht, J.string0]
  | str s => simp only [J.Seen, J.At] at hv; simp only [string0H, hv.2, J.string0]
  | ptr s => simp only [J.Seen, J.At] at hv; simp only [string0H, hv.2, J.string0]
  | _ => simp only [J.Seen, J.At] at hv; simp only [string0H, hv.2, ht, J.string0]

theorem getString_seen {v : J} {a : Addr} (hv : J.Seen h v a) (keys : List Bytes) :
    ∃ f0, ∀ f, f0 ≤ f → getStringH f h (some a) keys = (v.getString keys).inMemory := by
  cases keys with
  | nil =>
    obtain ⟨f0, h0⟩ := string0_seen hv
    exact ⟨f0, fun f hf => by simp only [getStringH, h0 f hf, J.getString, Res.inMemory]⟩
  | cons k ks =>
    cases v with
    | dict id kvs =>
      have hg := get_seen hv (k :: ks)
      simp only [J.Seen, J.At] at hv
      obtain ⟨_, rs, h1, _⟩ := hv
      simp only [J.get] at hg
      simp only [getStringH, h1, J.getString]
      cases hd : dictGet smGet id kvs (k :: ks) with
      | ok w =>
        rw [hd] at hg
        obtain ⟨b, hb, hw⟩ := hg
        obtain ⟨f0, h0⟩ := string0_seen hw
        exact ⟨f0, fun f hf => by simp only [hb, h0 f hf, Res.inMemory]⟩
      | err e => rw [hd] at hg; exact ⟨0, fun f _ => by simp only [hg, Res.inMemory]⟩
      | diverge => rw [hd] at hg; exact hg.elim
    | arr xs => simp only [J.Seen, J.At] at hv; obtain ⟨_, rs, h1, _⟩ := hv; exact ⟨0, fun f _ => by simp only [getStringH, h1, J.getString, Res.inMemory]⟩
    | _ => simp only [J.Seen, J.At] at hv; exact ⟨0, fun f _ => by simp only [getStringH, hv.2, J.getString, Res.inMemory]⟩

/-- The methods agree on a document and on its object. -/
def OwnSame {α} (own : J → Option (Res α)) (ownH : Obj → Option (Res α)) : Prop :=
  ∀ (h : Heap) (v : J) (a : Addr) (o : Obj), J.Seen h v a → h[a]? = some o → (∀ id kvs, v ≠ .dict id kvs) → ownH o = own v

theorem scalar_other {α} {own : J → Option (Res α)} {f : Nat} {v : J} (hd : ∀ id kvs, v ≠ .dict id kvs) {keys : List Bytes} :
    J.scalarAcc own (f + 1) v keys = (own v).elim (.err .unsupported) fun r => if keys = [] then r else .err .outOfKeyRange := by
  cases v with
  | dict id kvs => exact absurd rfl (hd _ _)
  | _ =>
    simp only [J.scalarAcc]
    generalize own _ = x
    cases x <;> cases keys <;> rfl

theorem scalarH_other {α} {ownH : Obj → Option (Res α)} {f : Nat} {a : Addr} {o : Obj} (ho : h[a]? = some o) (hd : ∀ id kvs, o ≠ .dict id kvs)
    {keys : List Bytes} :
    scalarAccH ownH (f + 1) h (some a) keys = (ownH o).elim (.err .unsupported) fun r => if keys = [] then r.inMemory else .err .outOfKeyRange := by
  cases o with
  | dict id kvs => exact absurd rfl (hd _ _)
  | _ =>
    simp only [scalarAccH, ho]
    generalize ownH _ = x
    cases x with
    | none => rfl
    | some r => cases r <;> cases keys <;> rfl

theorem scalarAcc_seen {α} {own : J → Option (Res α)} {ownH : Obj → Option (Res α)} (hs : OwnSame own ownH) : ∀ f (v : J) (a : Addr), J.Seen h v a →
    ∀ keys, scalarAccH ownH f h (some a) keys = (J.scalarAcc own f v keys).inMemory := by
  intro f
  induction f with
  | zero => intro v a _ keys; simp only [scalarAccH, J.scalarAcc, Res.inMemory]
  | succ f ih =>
    intro v a hv keys
    by_cases hd : ∃ id kvs, v = .dict id kvs
    · obtain ⟨id, kvs, rfl⟩ := hd
      have hg := get_seen hv keys
      simp only [J.Seen, J.At] at hv
      obtain ⟨_, rs, h1, _⟩ := hv
      simp only [J.get] at hg
      simp only [scalarAccH, h1, J.scalarAcc]
      cases hd : dictGet smGet id kvs keys with
      | ok w =>
        rw [hd] at hg
        obtain ⟨b, hb, hw⟩ := hg
        simp only [hb]; exact ih w b hw []
      | err e => rw [hd] at hg; simp only [hg, Res.inMemory]
      | diverge => rw [hd] at hg; exact hg.elim
    · have hd : ∀ id kvs, v ≠ .dict id kvs := fun id kvs e => hd ⟨id, kvs, e⟩
      obtain ⟨o, h1, _⟩ := seen_refs hv
      have ho := hs h v a o hv h1 hd
      have hnd : ∀ id rs, o ≠ .dict id rs := by
        intro id rs e
        subst e
        cases v with
        | dict id kvs => exact hd _ _ rfl
        | arr xs => simp only [J.Seen, J.At] at hv; obtain ⟨_, rs, h2, _⟩ := hv; rw [h1] at h2; cases h2
        | _ => simp only [J.Seen, J.At] at hv; rw [h1] at hv; cases hv.2
      rw [scalar_other hd, scalarH_other h1 hnd, ho]
      cases own v with
      | none => rfl
      | some r => cases keys <;> cases r <;> rfl

theorem own_of {α} {own : J → Option (Res α)} {ownH : Obj → Option (Res α)} (h1 : ownH .null = own .null) (h2 : ∀ b, ownH (.bool b) = own (.bool b))
    (h3 : ∀ n, ownH (.int n) = own (.int n)) (h4 : ∀ x b, ownH (.float x b) = own (.float x b)) (h5 : ∀ s, ownH (.str s) = own (.str s))
    (h6 : ∀ s, ownH (.ptr s) = own (.ptr s)) (h7 : ∀ xs rs, ownH (.arr rs) = own (.arr xs)) : OwnSame own ownH := by
  intro h v a o hv ho hd
  cases v with
  | dict id kvs => exact absurd rfl (hd _ _)
  | arr xs =>
    simp only [J.Seen, J.At] at hv; obtain ⟨_, rs, g, _⟩ := hv
    rw [ho] at g; cases g; exact h7 _ _
  | _ =>
    simp only [J.Seen, J.At] at hv; rw [ho] at hv; cases hv.2
    first | exact h1 | exact h2 _ | exact h3 _ | exact h4 _ _ | exact h5 _ | exact h6 _

theorem array0_seen {v : J} {a : Addr} (hv : J.Seen h v a) :
    match v.array0 with
    | .ok ws => ∃ rs, array0H h a = .ok rs ∧ J.Ats h (fun _ => True) ws rs
    | .err e => array0H h a = .err e
    | .diverge => False := by
  cases v with
  | arr xs => simp only [J.Seen, J.At] at hv; obtain ⟨_, rs, h1, h2⟩ := hv; simp only [J.array0, array0H, h1]; exact ⟨rs, rfl, h2⟩
  | dict id kvs => simp only [J.Seen, J.At] at hv; obtain ⟨_, rs, h1, h2⟩ := hv; simp only [J.array0, array0H, h1]
  | null => simp only [J.Seen, J.At] at hv; simp only [J.array0, array0H, hv.2]
  | ptr => simp only [J.Seen, J.At] at hv; simp only [J.array0, array0H, hv.2]
  | _ =>
    have hv' := hv
    simp only [J.Seen, J.At] at hv
    simp only [J.array0, array0H, hv.2]
    exact ⟨[some a], rfl, a, [], rfl, hv', rfl⟩

theorem getArray_seen {v : J} {a : Addr} (hv : J.Seen h v a) (keys : List Bytes) :
    match v.getArray keys with
    | .ok ws => ∃ rs, getArrayH h (some a) keys = .ok rs ∧ J.Ats h (fun _ => True) ws rs
    | .err e => getArrayH h (some a) keys = .err e
    | .diverge => False := by
  have ha := array0_seen hv
  cases v with
  | dict id kvs =>
    have hg := get_seen hv keys
    simp only [J.Seen, J.At] at hv
    obtain ⟨_, rs, h1, _⟩ := hv
    simp only [J.get] at hg
    simp only [getArrayH, h1, J.getArray]
    cases hd : dictGet smGet id kvs keys with
    | ok w =>
      rw [hd] at hg
      obtain ⟨b, hb, hw⟩ := hg
      simp only [hb]; exact array0_seen hw
    | err e => rw [hd] at hg; simp only [hg]
    | diverge => rw [hd] at hg; exact hg.elim
  | arr xs =>
    simp only [J.Seen, J.At] at hv; obtain ⟨_, rs, h1, _⟩ := hv
    simp only [J.getArray, getArrayH, h1]
    cases keys with
    | nil => exact ha
    | cons k ks => rfl
  | null => simp only [J.Seen, J.At] at hv; simp only [J.getArray, getArrayH, hv.2]
  | ptr => simp only [J.Seen, J.At] at hv; simp only [J.getArray, getArrayH, hv.2]
  | _ =>
    simp only [J.Seen, J.At] at hv
    simp only [J.getArray, getArrayH, hv.2]
    cases keys with
    | nil => exact ha
    | cons k ks => rfl

theorem timeOfText_ends {T : Type} (layouts : List (Bytes → Option T)) (s : Bytes) : timeOfText layouts s ≠ .diverge := by
  induction layouts with
  | nil => intro e; cases e
  | cons p ps ih =>
    simp only [timeOfText]
    cases p s with
    | none => exact ih
    | some t => intro e; cases e

theorem getTime_seen {T : Type} (layouts : List (Bytes → Option T)) {v : J} {a : Addr} (hv : J.Seen h v a) (keys : List Bytes) :
    (v.getTime layouts keys).ended (getTimeH layouts h (some a) keys) := by
  have ht : ∀ s, (timeOfText layouts s).ended (match timeOfText layouts s with
    | .ok t => GRes.ok t
    | .err e => .err e
    | .diverge => .err .unsupported) := by
    intro s
    cases hs : timeOfText layouts s with
    | ok t => rfl
    | err e => rfl
    | diverge => exact absurd hs (timeOfText_ends layouts s)
  cases v with
  | dict id kvs =>
    have hg := get_seen hv keys
    simp only [J.Seen, J.At] at hv
    obtain ⟨_, rs, h1, _⟩ := hv
    simp only [J.get] at hg
    simp only [getTimeH, h1, J.getTime]
    cases hd : dictGet smGet id kvs keys with
    | ok w =>
      rw [hd] at hg
      obtain ⟨b, hb, hw⟩ := hg
      simp only [hb]
      cases w with
      | str s => simp only [J.Seen, J.At] at hw; simp only [hw.2]; exact ht s
      | arr xs => simp only [J.Seen, J.At] at hw; obtain ⟨_, rs', h3, _⟩ := hw; simp only [h3]; rfl
      | dict j m => simp only [J.Seen, J.At] at hw; obtain ⟨_, rs', h3, _⟩ := hw; simp only [h3]; rfl
      | _ => simp only [J.Seen, J.At] at hw; simp only [hw.2]; rfl
    | err e => rw [hd] at hg; simp only [hg]; rfl
    | diverge => rw [hd] at hg; exact hg.elim
  | arr xs => simp only [J.Seen, J.At] at hv; obtain ⟨_, rs, h1, _⟩ := hv; simp only [J.getTime, getTimeH, h1]; rfl
  | str s =>
    simp only [J.Seen, J.At] at hv
    simp only [J.getTime, getTimeH, hv.2]
    cases keys with
    | nil => exact ht s
    | cons k ks => rfl
  | _ => simp only [J.Seen, J.At] at hv; simp only [J.getTime, getTimeH, hv.2]; rfl

theorem Atf_smGetFold (fold : Bytes → Bytes) {k : Bytes} : ∀ (kvs : SMap J) (rs : SMap Ref), J.Atf h (fun _ => True) kvs rs →
    match smGetFold fold kvs k with
    | none => smGetFold fold rs k = none
    | some x => ∃ b, smGetFold fold rs k = some (some b) ∧ J.Seen h x b
  | [], rs, hr => by simp only [J.Atf] at hr; subst hr; rfl
  | (k', x) :: kvs, rs, hr => by
    simp only [J.Atf] at hr
    obtain ⟨b, rs', rfl, h1, h2⟩ := hr
    simp only [smGetFold]
    by_cases hk : fold k' = fold k
    · simp only [if_pos hk]; exact ⟨b, rfl, h1⟩
    · simp only [if_neg hk]; exact Atf_smGetFold fold kvs rs' h2

theorem getFoldLoop_seen (fold : Bytes → Bytes) : ∀ (keys : List Bytes) (kvs : SMap J) (rs : SMap Ref), keys ≠ [] → J.Atf h (fun _ => True) kvs rs →
    match getLoop (smGetFold fold) kvs keys with
    | .ok w => ∃ b, getFoldLoopH fold h rs keys = .ok (some b) ∧ J.Seen h w b
    | .err e => getFoldLoopH fold h rs keys = .err e
    | .diverge => False
  | [], _, _, hn, _ => absurd rfl hn
  | [k], kvs, rs, _, hr => by
    have hg := Atf_smGetFold fold (k := k) kvs rs hr
    simp only [getLoop, getFoldLoopH]
    cases hx : smGetFold fold kvs k with
    | none => rw [hx] at hg; simp only [hg]
    | some x => rw [hx] at hg; obtain ⟨b, hb, hxb⟩ := hg; simp only [hb]; exact ⟨b, rfl, hxb⟩
  | k :: k2 :: ks, kvs, rs, _, hr => by
    have hg := Atf_smGetFold fold (k := k) kvs rs hr
    rw [getLoop, getFoldLoopH]
    cases hx : smGetFold fold kvs k with
    | none => rw [hx] at hg; simp only [hg]
    | some x =>
      rw [hx] at hg
      obtain ⟨b, hb, hxb⟩ := hg
      simp only [hb]
      cases x with
      | dict id kvs' =>
        simp only [J.Seen, J.At] at hxb
        obtain ⟨_, rs', h1, h2⟩ := hxb
        simp only [h1]
        exact getFoldLoop_seen fold (k2 :: ks) kvs' rs' (by simp) h2
      | arr xs => simp only [J.Seen, J.At] at hxb; obtain ⟨_, rs', h1, h2⟩ := hxb; simp only [h1]
      | _ => simp only [J.Seen, J.At] at hxb; simp only [hxb.2]

theorem getFold_seen (fold : Bytes → Bytes) {v : J} {a : Addr} (hv : J.Seen h v a) (keys : List Bytes) :
    match v.getIgnoreCases fold keys with
    | .ok w => ∃ b, getFoldH fold h (some a) keys = .ok (some b) ∧ J.Seen h w b
    | .err e => getFoldH fold h (some a) keys = .err e
    | .diverge => False := by
  cases v with
  | dict id kvs =>
    have hv' := hv
    simp only [J.Seen, J.At] at hv
    obtain ⟨_, rs, h1, h2⟩ := hv
    simp only [J.getIgnoreCases, dictGet, getFoldH, h1]
    cases keys with
    | nil => exact ⟨a, rfl, hv'⟩
    | cons k ks => exact getFoldLoop_seen fold (k :: ks) kvs rs (by simp) h2
  | arr xs => simp only [J.Seen, J.At] at hv; obtain ⟨_, rs', h1, h2⟩ := hv; simp only [J.getIgnoreCases, getFoldH, h1]
  | _ => simp only [J.Seen, J.At] at hv; simp only [J.getIgnoreCases, getFoldH, hv.2]

theorem atf_length : ∀ {kvs : List (Bytes × J)} {rs : SMap Ref}, J.Atf h (fun _ => True) kvs rs → rs.length = kvs.length
  | [], _, hr => by simp only [J.Atf] at hr; subst hr; rfl
  | (_, _) :: _, _, hr => by
    simp only [J.Atf] at hr
    obtain ⟨b, rs', rfl, _, h2⟩ := hr
    simp [atf_length h2]

theorem isZero_seen {v : J} {a : Addr} (hv : J.Seen h v a) : isZeroH h (some a) = .ok v.isZero := by
  cases v with
  | arr xs => simp only [J.Seen, J.At] at hv; obtain ⟨_, rs, h1, h2⟩ := hv; simp only [isZeroH, h1, J.isZero, ats_length h2]
  | dict id kvs => simp only [J.Seen, J.At] at hv; obtain ⟨_, rs, h1, h2⟩ := hv; simp only [isZeroH, h1, J.isZero, atf_length h2]
  | _ => simp only [J.Seen, J.At] at hv; simp only [isZeroH, hv.2, J.isZero]

theorem length_seen {v : J} {a : Addr} (hv : J.Seen h v a) : lengthH h a = v.length? := by
  cases v with
  | arr xs => simp only [J.Seen, J.At] at hv; obtain ⟨_, rs, h1, h2⟩ := hv; simp only [lengthH, h1, J.length?, ats_length h2]
  | dict id kvs => simp only [J.Seen, J.At] at hv; obtain ⟨_, rs, h1, h2⟩ := hv; simp only [lengthH, h1, J.length?, atf_length h2]
  | _ => simp only [J.Seen, J.At] at hv; simp only [lengthH, hv.2, J.length?]

/-! ### Query strings -/

theorem numbered_snd {α} : ∀ (xs : List α) i, (numbered xs i).map (·.2) = xs
  | [], _ => rfl
  | x :: xs, i => by simp [numbered, numbered_snd xs]

theorem query_shape : ∀ f h r key, (queryStrH f h r key).shape = visitH f h r := by
  intro f
  induction f with
  | zero => intro h r key; cases r <;> rfl
  | succ f ih =>
    intro h r key
    cases r with
    | none => rfl
    | some a =>
      simp only [queryStrH, visitH]
      cases ho : h[a]? with
      | none => rfl
      | some o =>
        cases o with
        | arr xs =>
          simp only [shape_map, Obj.refs]
          have := shape_seq_map (g := fun e : Nat × Ref => queryStrH f h e.2 (subKey key (intDec e.1))) (g' := visitH f h) (p := (·.2))
            (fun x => by rw [ih]; cases visitH f h x.2 <;> rfl) (numbered xs 0)
          rw [numbered_snd] at this
          exact this
        | dict id kvs =>
          simp only [shape_map, Obj.refs]
          exact shape_seq_map (fun x => by rw [ih]; cases visitH f h x.2 <;> rfl) kvs
        | _ => rfl

theorem query_val (v : J) : ∀ f a key out, J.Seen h v a → queryStrH f h (some a) key = .ok out → out = v.queryStr key := by
  induction v using J.ind with
  | arr xs ih =>
    intro f a key out hA ht
    cases f with
    | zero => simp [queryStrH] at ht
    | succ f =>
      simp only [J.Seen, J.At] at hA
      obtain ⟨_, rs, h2, h3⟩ := hA
      simp only [queryStrH, h2] at ht
      cases hs : seqH (fun e : Nat × Ref => queryStrH f h e.2 (subKey key (intDec e.1))) (numbered rs 0) with
      | ok ts =>
        rw [hs] at ht
        simp only [CRes.map, CRes.ok.injEq] at ht
        subst ht
        simp only [J.queryStr]
        have elems : ∀ (ys : List J) (rs : List Ref) (ts : List Bytes) (i : Nat), (∀ x ∈ ys, ∀ f a key out, J.Seen h x a → queryStrH f h (some a) key = .ok out → out = x.queryStr key) →
            J.Ats h (fun _ => True) ys rs → List.Forall₂ (fun (x : Nat × Ref) y => queryStrH f h x.2 (subKey key (intDec x.1)) = .ok y) (numbered rs i) ts →
            ts = J.queryStrs ys key i := by
          intro ys
          induction ys with
          | nil => intro rs ts i _ hr ht; simp only [J.Ats] at hr; subst hr; cases ht; simp [J.queryStrs]
          | cons x ys ih2 =>
            intro rs ts i hx hr ht
            simp only [J.Ats] at hr
            obtain ⟨b, rs', rfl, g1, g2⟩ := hr
            cases ht with
            | cons e1 e2 =>
              simp only [J.queryStrs]
              rw [hx x (by simp) f b _ _ g1 e1, ih2 rs' _ (i + 1) (fun y hy => hx y (by simp [hy])) g2 e2]
        rw [elems xs rs ts 0 (fun x hx => by obtain ⟨i, hi⟩ := List.getElem?_of_mem hx; exact ih i x hi) h3 (seq_ok.1 hs)]
      | panic => rw [hs] at ht; simp [CRes.map] at ht
      | fuel => rw [hs] at ht; simp [CRes.map] at ht
  | dict id kvs ih =>
    intro f a key out hA ht
    cases f with
    | zero => simp [queryStrH] at ht
    | succ f =>
      simp only [J.Seen, J.At] at hA
      obtain ⟨_, rs, h2, h3⟩ := hA
      simp only [queryStrH, h2] at ht
      cases hs : seqH (fun e : Bytes × Ref => queryStrH f h e.2 (subKey key e.1)) rs with
      | ok ts =>
        rw [hs] at ht
        simp only [CRes.map, CRes.ok.injEq] at ht
        subst ht
        simp only [J.queryStr]
        have elems : ∀ (ys : List (Bytes × J)) (rs : SMap Ref) (ts : List Bytes), (∀ k x, (k, x) ∈ ys → ∀ f a key out, J.Seen h x a → queryStrH f h (some a) key = .ok out → out = x.queryStr key) →
            J.Atf h (fun _ => True) ys rs → List.Forall₂ (fun (x : Bytes × Ref) y => queryStrH f h x.2 (subKey key x.1) = .ok y) rs ts →
            ts = J.queryStrf ys key := by
          intro ys
          induction ys with
          | nil => intro rs ts _ hr ht; simp only [J.Atf] at hr; subst hr; cases ht; simp [J.queryStrf]
          | cons x ys ih2 =>
            obtain ⟨k, x⟩ := x
            intro rs ts hx hr ht
            simp only [J.Atf] at hr
            obtain ⟨b, rs', rfl, g1, g2⟩ := hr
            cases ht with
            | cons e1 e2 =>
              simp only [J.queryStrf]
              rw [hx k x (by simp) f b _ _ g1 e1, ih2 rs' _ (fun k y hy => hx k y (by simp [hy])) g2 e2]
        rw [elems kvs rs ts ih h3 (seq_ok.1 hs)]
      | panic => rw [hs] at ht; simp [CRes.map] at ht
      | fuel => rw [hs] at ht; simp [CRes.map] at ht
  | _ =>
    intro f a key out hA ht
    cases f with
    | zero => simp [queryStrH] at ht
    | succ f =>
      simp only [J.Seen, J.At] at hA
      simp only [queryStrH, hA.2, CRes.ok.injEq] at ht
      subst ht; simp only [J.queryStr]

theorem queryString_seen {v : J} {a : Addr} (hv : J.Seen h v a) : Eventually (fun f => queryStringH f h (some a)) (.ok v.queryString) := by
  by_cases hd : ∃ id kvs, v = .dict id kvs
  · obtain ⟨id, kvs, rfl⟩ := hd
    obtain ⟨f0, h0⟩ := reads_doc hv (call := fun f => queryStrH f h (some a) []) (F := fun v => v.queryStr []) (fun f => query_shape f h (some a) [])
      fun v f out hv he => query_val v f a [] out hv he
    simp only [J.Seen, J.At] at hv
    obtain ⟨_, rs, h1, _⟩ := hv
    exact ⟨f0, fun f hf => by simp only [queryStringH, h1]; exact h0 f hf⟩
  · have hn : v.queryString = simpleQueryString [] [] := by cases v <;> first | rfl | exact absurd ⟨_, _, rfl⟩ hd
    rw [hn]
    refine ⟨0, fun f _ => ?_⟩
    cases v with
    | dict id kvs => exact absurd ⟨_, _, rfl⟩ hd
    | arr xs => simp only [J.Seen, J.At] at hv; obtain ⟨_, rs, h1, _⟩ := hv; simp only [queryStringH, h1]
    | _ => simp only [J.Seen, J.At] at hv; simp only [queryStringH, hv.2]

end Jsonutils
