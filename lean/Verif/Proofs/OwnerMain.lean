import Verif.Proofs.OwnerMake
import Verif.Proofs.HeapAccess

namespace Jsonutils

variable {N : Prop} {h : Heap}

/-! ### The two machines -/

inductive VarOk (N : Prop) (h : Heap) (S : Addr → Prop) : Option J → Option Addr → Prop where
  | none : VarOk N h S none none
  | some {v : J} {a : Addr} : Owned N h S v a → VarOk N h S (some v) (some a)

/-- The variables hold the same documents, and no two of them share a container. -/
structure Rel (N : Prop) (h : Heap) (S : Nat → Addr → Prop) (e : Env J) (eH : Env Addr) : Prop where
  base : HasBase h
  lt : ∀ x b, S x b → b < h.length
  dis : ∀ x y b, S x b → S y b → x = y
  var : ∀ x, VarOk N h (S x) (e x) (eH x)

theorem Rel.step {S : Nat → Addr → Prop} {e : Env J} {eH : Env Addr} (hr : Rel N h S e eH) {h' : Heap} {e' : Env J} {eH' : Env Addr} (X : Nat → Prop) (S' : Nat → Addr → Prop)
    (hsame : ∀ z, ¬ X z → e' z = e z ∧ eH' z = eH z ∧ Frame (S z) h h') (hX : ∀ z, X z → VarOk N h' (S' z) (e' z) (eH' z))
    (hnew : ∀ z b, X z → S' z b → b < h'.length ∧ ∀ z', ¬ X z' → ¬ S z' b) (hd : ∀ z z' b, X z → X z' → S' z b → S' z' b → z = z')
    (grow : h.length ≤ h'.length) (hb' : HasBase h') : ∃ S, Rel N h' S e' eH' := by
  classical
  refine ⟨fun z => if X z then S' z else S z, hb', fun z b hb => ?_, fun z z' b hb1 hb2 => ?_, fun z => ?_⟩
  · by_cases hz : X z
    · rw [if_pos hz] at hb; exact (hnew z b hz hb).1
    · rw [if_neg hz] at hb; exact Nat.lt_of_lt_of_le (hr.lt z b hb) grow
  · by_cases hz : X z <;> by_cases hz' : X z'
    · rw [if_pos hz] at hb1; rw [if_pos hz'] at hb2; exact hd z z' b hz hz' hb1 hb2
    · rw [if_pos hz] at hb1; rw [if_neg hz'] at hb2; exact absurd hb2 ((hnew z b hz hb1).2 z' hz')
    · rw [if_neg hz] at hb1; rw [if_pos hz'] at hb2; exact absurd hb1 ((hnew z' b hz' hb2).2 z hz)
    · rw [if_neg hz] at hb1; rw [if_neg hz'] at hb2; exact hr.dis z z' b hb1 hb2
  · by_cases hz : X z
    · rw [if_pos hz]; exact hX z hz
    · rw [if_neg hz]
      obtain ⟨e1, e2, e3⟩ := hsame z hz
      rw [e1, e2]
      have hv := hr.var z
      generalize e z = ov at hv ⊢
      generalize eH z = oa at hv ⊢
      cases hv with
      | none => exact .none
      | some ho => exact .some (ho.keep e3)

/-- Looking up a position. -/
theorem Rel.at {S : Nat → Addr → Prop} {e : Env J} {eH : Env Addr} (hr : Rel N h S e eH) (x : Nat) (p : List Move) :
    (e.at x p = none ∧ objAt h eH x p = none) ∨
    ∃ v a u d S1 S2, e x = some v ∧ eH x = some a ∧ v.pick p = some u ∧ e.at x p = some u ∧ objAt h eH x p = some d ∧ pickH h a p = some d ∧ Owned N h S1 u d ∧ (∀ b, S1 b → S x b) ∧ (∀ b, S2 b → S x b) ∧
      (∀ b, S1 b → ¬ S2 b) ∧
        ∀ h' u' S1', Frame S2 h h' → (∀ b, S1' b → ¬ S2 b) → Owned N h' S1' u' d → Owned N h' (fun b => S1' b ∨ S2 b) (J.putAt u' p v) a := by
  have hv := hr.var x
  simp only [Env.at, objAt]
  generalize he : e x = ov at hv
  generalize hh : eH x = oa at hv
  cases hv with
  | none => exact Or.inl ⟨rfl, rfl⟩
  | @some v a ho =>
    have hf := Owned.focus p (S x) v a ho
    simp only [Option.bind_some]
    cases hu : v.pick p with
    | none => rw [hu] at hf; exact Or.inl ⟨rfl, hf⟩
    | some u =>
      rw [hu] at hf
      obtain ⟨d, S1, S2, g1, g2⟩ := hf
      exact Or.inr ⟨v, a, u, d, S1, S2, rfl, rfl, hu, rfl, g1, g1, g2⟩

theorem Env.put_self {α} (e : Env α) (x : Nat) (o : Option α) : e.put x o x = o := by simp [Env.put]
theorem Env.put_ne {α} (e : Env α) {x z : Nat} (o : Option α) (hz : z ≠ x) : e.put x o z = e z := by simp [Env.put, hz]

theorem map_ok {α β} {r : CRes α} {a : α} (g : α → β) (hr : r = .ok a) : r.map g = .ok (g a) := by subst hr; rfl

/-- Questions. -/
theorem ask_seen {v : J} {a : Addr} (hv : J.Seen h v a) (q : Ask) : ∃ f0, ∀ f, f0 ≤ f → q.onMemory f h a = .ok (q.onValue v) := by
  cases q with
  | string keys =>
    obtain ⟨f0, h0⟩ := getString_seen hv keys
    refine ⟨f0, fun f hf => ?_⟩
    have hg := get_seen hv keys
    simp only [Ask.onMemory, Ask.onValue, h0 f hf]
    cases hr : v.getString keys with
    | ok s => rfl
    | err e => rfl
    | diverge =>
      exfalso
      cases keys with
      | nil => cases v <;> cases hr
      | cons k ks =>
        cases v with
        | dict id kvs =>
          simp only [J.getString] at hr
          simp only [J.get] at hg
          cases hd : dictGet smGet id kvs (k :: ks) with
          | ok o => rw [hd] at hr; cases hr
          | err o => rw [hd] at hr; cases hr
          | diverge => rw [hd] at hg; exact hg
        | _ => cases hr
  | contains keys =>
    refine ⟨0, fun f _ => ?_⟩
    have hg := get_seen hv keys
    simp only [Ask.onMemory, Ask.onValue, containsH, J.contains]
    cases hr : v.get keys with
    | ok w => rw [hr] at hg; obtain ⟨b, hb, _⟩ := hg; simp only [hb]
    | err e => rw [hr] at hg; simp only [hg]
    | diverge => rw [hr] at hg; exact hg.elim
  | isZero => exact ⟨0, fun f _ => by simp only [Ask.onMemory, Ask.onValue, isZero_seen hv]⟩
  | length => exact ⟨0, fun f _ => by simp only [Ask.onMemory, Ask.onValue, length_seen hv]; cases v.length? <;> rfl⟩
  | query =>
    obtain ⟨f0, h0⟩ := queryString_seen hv
    exact ⟨f0, fun f hf => map_ok _ (h0 f hf)⟩

/-- One statement. -/
theorem Rel.stmt {ord : SMap Ref → SMap Ref} (hord : ∀ l, (ord l).Perm l) {S : Nat → Addr → Prop} {e : Env J} {eH : Env Addr} (hr : Rel N h S e eH) (s : Stmt)
    (hfine : s.Fine) (hcl : N → s.NoClone) (hav : N ∨ s.AvoidsNull e) :
    ∃ f0 h' eH' S', (∀ f, f0 ≤ f → s.onMemory ord f h eH = .ok ((h', eH'), (s.onValue e).2)) ∧ Rel N h' S' (s.onValue e).1 eH' := by
  have skip : ∀ {s : Stmt}, (∀ f, s.onMemory ord f h eH = .ok ((h, eH), .skipped)) → s.onValue e = (e, .skipped) →
      ∃ f0 h' eH' S', (∀ f, f0 ≤ f → s.onMemory ord f h eH = .ok ((h', eH'), (s.onValue e).2)) ∧ Rel N h' S' (s.onValue e).1 eH' := by
    intro s h1 h2
    exact ⟨0, h, eH, S, fun f _ => by rw [h1, h2], by rw [h2]; exact hr⟩
  cases s with
  | doc x v =>
    obtain ⟨g1, g2⟩ := build_ok (N := N) v hfine.1 hfine.2 h hr.base
    obtain ⟨S', hS'⟩ := hr.step (h' := (v.build h).2) (e' := e.put x (some v)) (eH' := eH.put x (some (v.build h).1)) (fun z => z = x)
      (fun _ => Span h.length (v.build h).2.length) (fun z hz => ⟨Env.put_ne _ _ hz, Env.put_ne _ _ hz, Frame.of_prefix g1⟩)
      (fun z hz => by subst hz; rw [Env.put_self, Env.put_self]; exact .some g2)
      (fun z b _ hb => ⟨hb.2, fun z' _ hs => Nat.lt_irrefl _ (Nat.lt_of_lt_of_le (hr.lt z' b hs) hb.1)⟩)
      (fun z z' b hz hz' _ _ => hz.trans hz'.symm) g1.length_le (hr.base.frame (S := fun _ => False) (Frame.of_prefix g1))
    exact ⟨0, _, _, S', fun f _ => rfl, hS'⟩
  | act a x p y =>
    by_cases hxy : x = y
    · exact skip (fun f => by simp [Stmt.onMemory, hxy]) (by simp [Stmt.onValue, hxy])
    · rcases hr.at x p with ⟨g1, g2⟩ | ⟨v, ax, u, d, S1, S2, k1, k2, k3, k4, k5, k6, k7, k8, k9, k10, k11⟩
      · refine skip (fun f => ?_) ?_
        · simp only [Stmt.onMemory, if_neg hxy, g2]
        · simp only [Stmt.onValue, if_neg hxy, g1]
          cases e x <;> rfl
      · have hy := hr.var y
        generalize hey : e y = oy at hy
        generalize hhy : eH y = ay at hy
        cases hy with
        | none =>
          refine skip (fun f => ?_) ?_
          · simp only [Stmt.onMemory, if_neg hxy, k5, hhy]
          · simp only [Stmt.onValue, if_neg hxy, k1, k4, hey]
        | @some w o hw =>
          have hp := act_own a k7 hw (fun b hb hb2 => hxy (hr.dis x y b (k8 b hb) hb2)) (fun b hb => hr.lt x b (k8 b hb)) (fun b hb => hr.lt y b hb) hr.base.null
            (hav.imp (fun x => x) fun hav path ha q r hq hr => by
              subst ha
              have := hav q r hq hr
              simp only [Env.at, k1, Option.bind_some, pick_append, k3] at this
              exact this)
          cases hval : a.onValue u w with
          | none =>
            rw [hval] at hp
            refine skip (fun f => ?_) ?_
            · simp only [Stmt.onMemory, if_neg hxy, k5, hhy, hp]
            · simp only [Stmt.onValue, if_neg hxy, k1, k4, hey, hval]
          | some r =>
            obtain ⟨out, u'⟩ := r
            rw [hval] at hp
            obtain ⟨h', g1, g2, g3, S1', g4, g5, g6⟩ := hp
            have hdisj : ∀ b, S1' b → ¬ S2 b := by
              intro b hb hb2
              rcases g5 b hb with e1 | e1 | e1
              · exact k10 b e1 hb2
              · exact hxy (hr.dis x y b (k9 b hb2) e1)
              · exact Nat.lt_irrefl _ (Nat.lt_of_lt_of_le (hr.lt x b (k9 b hb2)) e1)
            have hown := k11 h' u' S1' (g2.mono fun b hb hb2 => k10 b hb2 hb) hdisj g4
            obtain ⟨S', hS'⟩ := hr.step (h' := h') (e' := (e.put y none).put x (some (J.putAt u' p v))) (eH' := eH.put y none) (fun z => z = x ∨ z = y)
              (fun z => if z = x then (fun b => S1' b ∨ S2 b) else fun _ => False)
              (fun z hz => by
                have hzx : z ≠ x := fun e => hz (Or.inl e)
                have hzy : z ≠ y := fun e => hz (Or.inr e)
                exact ⟨by rw [Env.put_ne _ _ hzx, Env.put_ne _ _ hzy], Env.put_ne _ _ hzy, g2.mono fun b hb hb2 => hzx (hr.dis z x b hb (k8 b hb2))⟩)
              (fun z hz => by
                by_cases hzx : z = x
                · subst hzx
                  rw [Env.put_self, Env.put_ne _ _ hxy, k2, if_pos rfl]; exact .some hown
                · have hzy : z = y := hz.resolve_left hzx
                  subst hzy
                  rw [Env.put_ne _ _ hzx, Env.put_self, Env.put_self]; exact .none)
              (fun z b hz hb => by
                by_cases hzx : z = x
                · rw [if_pos hzx] at hb
                  refine ⟨?_, fun z' hz' hs => ?_⟩
                  · rcases hb with hb | hb
                    · exact g6 b hb
                    · exact Nat.lt_of_lt_of_le (hr.lt x b (k9 b hb)) g3
                  · rcases hb with hb | hb
                    · rcases g5 b hb with e1 | e1 | e1
                      · exact hz' (Or.inl (hr.dis z' x b hs (k8 b e1)))
                      · exact hz' (Or.inr (hr.dis z' y b hs e1))
                      · exact Nat.lt_irrefl _ (Nat.lt_of_lt_of_le (hr.lt z' b hs) e1)
                    · exact hz' (Or.inl (hr.dis z' x b hs (k9 b hb)))
                · rw [if_neg hzx] at hb; exact hb.elim)
              (fun z z' b hz hz' hb hb' => by
                by_cases hzx : z = x
                · by_cases hzx' : z' = x
                  · rw [hzx, hzx']
                  · rw [if_neg hzx'] at hb'; exact hb'.elim
                · rw [if_neg hzx] at hb; exact hb.elim)
              g3 (hr.base.frame g2)
            refine ⟨0, h', eH.put y none, S', fun f _ => ?_, ?_⟩
            · simp only [Stmt.onMemory, if_neg hxy, k5, hhy, g1, Stmt.onValue, k1, k4, hey, hval]
            · simp only [Stmt.onValue, if_neg hxy, k1, k4, hey, hval]; exact hS'
  | remove x p k =>
    rcases hr.at x p with ⟨g1, g2⟩ | ⟨v, ax, u, d, S1, S2, k1, k2, k3, k4, k5, k6, k7, k8, k9, k10, k11⟩
    · refine skip (fun f => ?_) ?_
      · simp only [Stmt.onMemory, g2]
      · simp only [Stmt.onValue, g1]; cases e x <;> rfl
    · by_cases hd : ∃ id kvs, u = .dict id kvs
      · obtain ⟨id, kvs, rfl⟩ := hd
        obtain ⟨h', S1', Sw, g1, g2, g3, g4, g5, g6, g7, g8⟩ := remove_own k k7
        have hown := k11 h' _ S1' (g3.mono fun b hb hb2 => k10 b hb2 hb) (fun b hb hb2 => k10 b (g5 b hb) hb2) g4
        obtain ⟨S', hS'⟩ := hr.step (h' := h') (e' := e.put x (some (J.putAt (.dict id (smDelete kvs k).1) p v))) (eH' := eH) (fun z => z = x)
          (fun _ b => S1' b ∨ S2 b) (fun z hz => ⟨Env.put_ne _ _ hz, rfl, g3.mono fun b hb hb2 => hz (hr.dis z x b hb (k8 b hb2))⟩)
          (fun z hz => by subst hz; rw [Env.put_self, k2]; exact .some hown)
          (fun z b _ hb => by
            have hx : S x b := by
              rcases hb with hb | hb
              · exact k8 b (g5 b hb)
              · exact k9 b hb
            exact ⟨by rw [g2]; exact hr.lt x b hx, fun z' hz' hs => hz' (hr.dis z' x b hs hx)⟩)
          (fun z z' b hz hz' _ _ => hz.trans hz'.symm) (by omega) (hr.base.frame g3)
        refine ⟨0, h', eH, S', fun f _ => ?_, ?_⟩
        · simp only [Stmt.onMemory, k5, g1, Stmt.onValue, k1, k4, dictRemove]
        · simp only [Stmt.onValue, k1, k4, dictRemove]; exact hS'
      · refine skip (fun f => ?_) ?_
        · have : removeH h d k = none := by
            cases k7 with
            | leaf j1 j2 =>
              have := (leaf_not_arr j1).2.1
              simp only [removeH, j2]
              rename_i o _
              cases o <;> first | rfl | exact absurd rfl (this _ _)
            | arr B F j1 => simp only [removeH, j1]
            | dict => exact absurd ⟨_, _, rfl⟩ hd
          simp only [Stmt.onMemory, k5, this]
        · simp only [Stmt.onValue, k1, k4]
          cases u <;> first | rfl | exact absurd ⟨_, _, rfl⟩ hd
  | take z x p k =>
    rcases hr.at x p with ⟨g1, g2⟩ | ⟨v, ax, u, d, S1, S2, k1, k2, k3, k4, k5, k6, k7, k8, k9, k10, k11⟩
    · refine skip (fun f => ?_) ?_
      · simp only [Stmt.onMemory, g2]
      · simp only [Stmt.onValue, g1]; cases e x <;> rfl
    · have a1 : e.at x (p ++ [.key k]) = u.pick [.key k] := by
        simp only [Env.at, k1, Option.bind_some, pick_append, k3]
      have a2 : objAt h eH x (p ++ [.key k]) = pickH h d [.key k] := by
        simp only [objAt, k2, Option.bind_some, pickH_append, k6]
      by_cases hd : ∃ id kvs, u = .dict id kvs
      · obtain ⟨id, kvs, rfl⟩ := hd
        rw [pick_key_dict] at a1
        cases hw : smGet kvs k with
        | none =>
          have hno : pickH h d [.key k] = none := by
            cases k7 with
            | leaf j1 => simp [J.leafObj] at j1
            | dict B F j1 j2 j3 j4 j5 => rw [pickH_key_dict j1, j5, hw]; rfl
          refine skip (fun f => ?_) ?_
          · simp only [Stmt.onMemory, k5, a2, hno]
          · simp only [Stmt.onValue, k1, k4, a1, hw, Option.bind_none]
        | some w =>
          obtain ⟨h', S1', Sw, g1, g2, g3, g4, g5, g6, g7, g8⟩ := remove_own k k7
          obtain ⟨b0, g9, g10⟩ := g8 w hw
          have hown := k11 h' _ S1' (g3.mono fun b hb hb2 => k10 b hb2 hb) (fun b hb hb2 => k10 b (g5 b hb) hb2) g4
          rw [hw] at a1
          have a1 : e.at x (p ++ [.key k]) = some w := a1
          obtain ⟨S', hS'⟩ := hr.step (h' := h') (e' := (e.put x (some (J.putAt (.dict id (smDelete kvs k).1) p v))).put z (some w)) (eH' := eH.put z (some b0))
            (fun t => t = x ∨ t = z) (fun t => if t = z then Sw else fun b => S1' b ∨ S2 b)
            (fun t ht => by
              have htx : t ≠ x := fun e => ht (Or.inl e)
              have htz : t ≠ z := fun e => ht (Or.inr e)
              exact ⟨by rw [Env.put_ne _ _ htz, Env.put_ne _ _ htx], Env.put_ne _ _ htz, g3.mono fun b hb hb2 => htx (hr.dis t x b hb (k8 b hb2))⟩)
            (fun t ht => by
              by_cases htz : t = z
              · subst htz; rw [Env.put_self, Env.put_self, if_pos rfl]; exact .some g10
              · have htx : t = x := ht.resolve_right htz
                subst htx
                rw [Env.put_ne _ _ htz, Env.put_ne _ _ htz, Env.put_self, k2, if_neg htz]; exact .some hown)
            (fun t b _ hb => by
              have hx : S x b := by
                by_cases htz : t = z
                · rw [if_pos htz] at hb; exact k8 b (g6 b hb)
                · rw [if_neg htz] at hb
                  rcases hb with hb | hb
                  · exact k8 b (g5 b hb)
                  · exact k9 b hb
              exact ⟨by rw [g2]; exact hr.lt x b hx, fun z' hz' hs => hz' (Or.inl (hr.dis z' x b hs hx))⟩)
            (fun t t' b ht ht' hb hb' => by
              have sep : ∀ b, Sw b → ¬ (S1' b ∨ S2 b) := by
                rintro b hs (hb | hb)
                · exact g7 b hb hs
                · exact k10 b (g6 b hs) hb
              by_cases htz : t = z <;> by_cases htz' : t' = z
              · rw [htz, htz']
              · rw [if_pos htz] at hb; rw [if_neg htz'] at hb'; exact absurd hb' (sep b hb)
              · rw [if_neg htz] at hb; rw [if_pos htz'] at hb'; exact absurd hb (sep b hb')
              · rw [ht.resolve_right htz, ht'.resolve_right htz'])
            (by omega) (hr.base.frame g3)
          refine ⟨0, h', eH.put z (some b0), S', fun f _ => ?_, ?_⟩
          · simp only [Stmt.onMemory, k5, a2, g9, g1, Stmt.onValue, k1, k4, a1]
          · simp only [Stmt.onValue, k1, k4, a1, dictRemove]; exact hS'
      · have a3 : u.pick [.key k] = none := pick_key_other fun id kvs e => hd ⟨id, kvs, e⟩
        refine skip (fun f => ?_) ?_
        · have : pickH h d [.key k] = none := by
            cases k7 with
            | leaf j1 j2 => exact pickH_key_other j2 (leaf_not_arr j1).2.1
            | arr B F j1 => exact pickH_key_other j1 (by intro _ _ e; cases e)
            | dict => exact absurd ⟨_, _, rfl⟩ hd
          simp only [Stmt.onMemory, k5, a2, this]
        · simp only [Stmt.onValue, k1, k4, a1, a3]
  | clone z x p =>
    have hN : ¬ N := fun hN => hcl hN
    rcases hr.at x p with ⟨g1, g2⟩ | ⟨v, ax, u, d, S1, S2, k1, k2, k3, k4, k5, k6, k7, k8, k9, k10, k11⟩
    · refine skip (fun f => ?_) ?_
      · simp only [Stmt.onMemory, g2]
      · simp only [Stmt.onValue, g1]
    · obtain ⟨f0, a', h', g1, g2, g3⟩ := copy_own hord k7 h (List.prefix_refl _)
      have g2 : Owned N h' (Span h.length h'.length) u.dropIds a' := by
        have : N = False := eq_false hN
        rw [this]; exact g2
      obtain ⟨S', hS'⟩ := hr.step (h' := h') (e' := e.put z (some u.dropIds)) (eH' := eH.put z (some a')) (fun t => t = z)
        (fun _ => Span h.length h'.length) (fun t hz => ⟨Env.put_ne _ _ hz, Env.put_ne _ _ hz, Frame.of_prefix g1⟩)
        (fun t hz => by subst hz; rw [Env.put_self, Env.put_self]; exact .some g2)
        (fun t b _ hb => ⟨hb.2, fun z' _ hs => Nat.lt_irrefl _ (Nat.lt_of_lt_of_le (hr.lt z' b hs) hb.1)⟩)
        (fun t z' b hz hz' _ _ => hz.trans hz'.symm) g1.length_le (hr.base.frame (S := fun _ => False) (Frame.of_prefix g1))
      refine ⟨f0, h', eH.put z (some a'), S', fun f hf => ?_, ?_⟩
      · simp only [Stmt.onMemory, k5, g3 f hf, Stmt.onValue, k4]
      · simp only [Stmt.onValue, k4]; exact hS'
  | text x p =>
    rcases hr.at x p with ⟨g1, g2⟩ | ⟨v, ax, u, d, S1, S2, k1, k2, k3, k4, k5, k6, k7, _⟩
    · refine skip (fun f => ?_) ?_
      · simp only [Stmt.onMemory, g2]
      · simp only [Stmt.onValue, g1]
    · obtain ⟨f0, h0⟩ := reads_doc k7.seen (call := fun f => textH f h (some d)) (fun f => text_shape f h (some d)) fun v f out hv he => text_val v f d out hv he
      refine ⟨f0, h, eH, S, fun f hf => ?_, ?_⟩
      · simp only [Stmt.onMemory, k5, Stmt.onValue, k4]; exact map_ok _ (h0 f hf)
      · simp only [Stmt.onValue, k4]; exact hr
  | pretty x p =>
    rcases hr.at x p with ⟨g1, g2⟩ | ⟨v, ax, u, d, S1, S2, k1, k2, k3, k4, k5, k6, k7, _⟩
    · refine skip (fun f => ?_) ?_
      · simp only [Stmt.onMemory, g2]
      · simp only [Stmt.onValue, g1]
    · obtain ⟨f0, h0⟩ := reads_doc k7.seen (call := fun f => prettyH f h 0 (some d)) (F := J.prettyString) (fun f => pretty_shape f h 0 (some d))
        fun v f out hv he => pretty_val v f 0 d out hv he
      refine ⟨f0, h, eH, S, fun f hf => ?_, ?_⟩
      · simp only [Stmt.onMemory, k5, Stmt.onValue, k4]; exact map_ok _ (h0 f hf)
      · simp only [Stmt.onValue, k4]; exact hr
  | equal x p y q =>
    rcases hr.at x p with ⟨g1, g2⟩ | ⟨v, ax, u, d, S1, S2, k1, k2, k3, k4, k5, k6, k7, _⟩
    · refine skip (fun f => ?_) ?_
      · simp only [Stmt.onMemory, g2]
      · simp only [Stmt.onValue, g1]
    · rcases hr.at y q with ⟨g1, g2⟩ | ⟨v', ax', u', d', S1', S2', l1, l2, l3, l4, l5, l6, l7, _⟩
      · refine skip (fun f => ?_) ?_
        · simp only [Stmt.onMemory, g2, k5]
        · simp only [Stmt.onValue, g1, k4]
      · obtain ⟨f0, h0⟩ := equals_val u (h := h)
        refine ⟨f0, h, eH, S, fun f hf => ?_, ?_⟩
        · simp only [Stmt.onMemory, k5, l5, Stmt.onValue, k4, l4]; exact map_ok _ (h0 f hf u' d d' k7.seen l7.seen)
        · simp only [Stmt.onValue, k4, l4]; exact hr
  | ask q x p =>
    rcases hr.at x p with ⟨g1, g2⟩ | ⟨v, ax, u, d, S1, S2, k1, k2, k3, k4, k5, k6, k7, _⟩
    · refine skip (fun f => ?_) ?_
      · simp only [Stmt.onMemory, g2]
      · simp only [Stmt.onValue, g1]
    · obtain ⟨f0, h0⟩ := ask_seen k7.seen q
      refine ⟨f0, h, eH, S, fun f hf => ?_, ?_⟩
      · simp only [Stmt.onMemory, k5, Stmt.onValue, k4]; exact map_ok _ (h0 f hf)
      · simp only [Stmt.onValue, k4]; exact hr

/-- A whole program. -/
theorem Rel.run {ord : SMap Ref → SMap Ref} (hord : ∀ l, (ord l).Perm l) : ∀ (ss : List Stmt) (h : Heap) (S : Nat → Addr → Prop) (e : Env J) (eH : Env Addr), Rel N h S e eH →
    (∀ s ∈ ss, s.Fine) → (N → ∀ s ∈ ss, s.NoClone) → (N ∨ Throughout (fun e s => s.AvoidsNull e) e ss) →
    ∃ f0 h' eH' S', (∀ f, f0 ≤ f → runMemory ord f h eH ss = .ok ((h', eH'), (runValues e ss).2)) ∧ Rel N h' S' (runValues e ss).1 eH' := by
  intro ss
  induction ss with
  | nil => intro h S e eH hr _ _ _; exact ⟨0, h, eH, S, fun f _ => rfl, hr⟩
  | cons s ss ih =>
    intro h S e eH hr hf hc ha
    obtain ⟨f1, h1, eH1, S1, g1, g2⟩ := hr.stmt hord s (hf s (by simp)) (fun n => hc n s (by simp)) (ha.imp (fun x => x) fun ha => ha.1)
    obtain ⟨f2, h2, eH2, S2, g3, g4⟩ := ih h1 S1 _ eH1 g2 (fun s hs => hf s (by simp [hs])) (fun n s hs => hc n s (by simp [hs])) (ha.imp (fun x => x) fun ha => ha.2)
    refine ⟨max f1 f2, h2, eH2, S2, fun f hle => ?_, g4⟩
    simp only [runMemory, g1 f (by omega), g3 f (by omega), runValues, CRes.map]

theorem Rel.start : Rel N Heap.base (fun _ _ => False) (fun _ => none) (fun _ => none) :=
  ⟨⟨rfl, rfl, rfl⟩, fun _ _ hb => hb.elim, fun _ _ _ hb => hb.elim, fun _ => .none⟩

theorem Rel.same {S : Nat → Addr → Prop} {e : Env J} {eH : Env Addr} (hr : Rel N h S e eH) : SameDocs h eH e := by
  intro x
  have := hr.var x
  generalize e x = ov at *
  generalize eH x = oa at *
  cases this with
  | none => trivial
  | some ho => exact ho.seen

end Jsonutils
