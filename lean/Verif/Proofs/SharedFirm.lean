import Verif.Proofs.SharedMain

/-!
# `Unmarshal` on memory: struct types without `*JSONString`, `*JSONInt`, `*JSONBool`, any keys
-/

namespace Jsonutils

variable {D : DEnv} {S : Prop}

theorem var_part {t t' : DTy} {x y : DV} (h : x.Var D t t' y) : t.Part D t' := by
  induction h with
  | here => exact .here _
  | ptr _ ih => exact .ptr ih
  | elem _ _ ih => exact .elem ih
  | field h1 h2 _ _ ih => exact .field h1 (List.mem_of_getElem? h2) ih

theorem Firm.blank {t : DTy} (h : t.Firm D) (x : DV) : x.Blank D t := fun k _ hv => h k (var_part hv)

/-- The assignment of one value to variables of the types `tys`, from the memory `h0` on. -/
def AssignMatches (D : DEnv) (tys : List (FInfo × DTy)) (h0 : Heap) (g : DTy → Heap → DV → DOut) (gE : Ty → UV → URes) : Prop :=
  ∀ info t h v u, (info, t) ∈ tys → h0 <+: h → u.HasTy D.env.defs t.ty → v.Is h u →
    match gE t.ty u with
    | none => g t h v = .panic
    | some (w, e) => w.HasTy D.env.defs t.ty ∧ ∃ v' h', g t h v = .ok ((v', e), h') ∧ h <+: h' ∧ v'.Is h' w

/-- What is shown of keys and fields. -/
def KeyMatches (D : DEnv) (tys : List (FInfo × DTy)) (h : Heap) (res : KRes) : Option (List UV × List Bytes × Option UErr) → Prop
  | none => res = .panic
  | some (us, vis, e) => ∃ vs' h', res = .ok ((vs', vis, e), h') ∧ h <+: h' ∧ DV.Iss h' vs' us ∧ UV.HasTyf D.env.defs us (tys.map fun f => (f.1, f.2.ty))

theorem KeyMatches.mono {tys : List (FInfo × DTy)} {h h1 : Heap} (hp : h <+: h1) {res : KRes} {r : Option (List UV × List Bytes × Option UErr)}
    (hA : KeyMatches D tys h1 res r) : KeyMatches D tys h res r := by
  cases r with
  | none => exact hA
  | some q =>
    obtain ⟨us, vis, e⟩ := q
    obtain ⟨vs', h', g1, g2, g3⟩ := hA
    exact ⟨vs', h', g1, hp.trans g2, g3⟩

theorem hasTyf_at {Ds : Defs} : ∀ {us : List UV} {fs : List (FInfo × Ty)}, UV.HasTyf Ds us fs → ∀ (i : Nat) {u : UV} {info : FInfo} {t : Ty}, us[i]? = some u →
    fs[i]? = some (info, t) → u.HasTy Ds t
  | [], fs, h, i, u, info, t, h1, h2 => by simp at h1
  | u :: us, fs, h, i, w, info, t, h1, h2 => by
    obtain ⟨i', t', r, rfl, h3, h4⟩ := h
    cases i with
    | zero => simp at h1 h2; obtain ⟨rfl, rfl⟩ := h2; subst h1; exact h3
    | succ i => exact hasTyf_at h4 i (by simpa using h1) (by simpa using h2)

theorem setLoop_matches {tys : List (FInfo × DTy)} {h0 : Heap} {g : DTy → Heap → DV → DOut} {gE : Ty → UV → URes} (hg : AssignMatches D tys h0 g gE)
    {again : Bytes → List Bytes → Heap → List DV → KRes} {againE : Bytes → List Bytes → List UV → Option (List UV × List Bytes × Option UErr)}
    (ha : ∀ k vis h vs us, h0 <+: h → DV.Iss h vs us → UV.HasTyf D.env.defs us (tys.map fun f => (f.1, f.2.ty)) →
      KeyMatches D tys h (again k vis h vs) (againE k vis us)) :
    ∀ (is : List Nat) vis h vs us, h0 <+: h → DV.Iss h vs us → UV.HasTyf D.env.defs us (tys.map fun f => (f.1, f.2.ty)) →
      KeyMatches D tys h (setLoopD tys g again is vis h vs) (setLoop (tys.map fun f => (f.1, f.2.ty)) gE againE is vis us)
  | [], vis, h, vs, us, _, hi, hf => ⟨vs, h, rfl, List.prefix_refl _, hi, hf⟩
  | i :: is, vis, h, vs, us, hp, hi, hf => by
    have hlen : us.length = vs.length := Iss_length hi
    simp only [setLoop, setLoopD, List.getElem?_map]
    cases ht : tys[i]? with
    | none => simp only [Option.map_none, KeyMatches]
    | some q =>
      obtain ⟨info, t⟩ := q
      simp only [Option.map_some]
      cases hv : vs[i]? with
      | none =>
        have : us[i]? = none := by
          rw [List.getElem?_eq_none_iff] at hv ⊢
          omega
        rw [this]
        simp only [KeyMatches]
      | some v =>
        have hlt : i < us.length := by rw [hlen]; exact (List.getElem?_eq_some_iff.1 hv).1
        have hu : us[i]? = some us[i] := List.getElem?_eq_getElem hlt
        have hte : (tys.map fun f => (f.1, f.2.ty))[i]? = some (info, t.ty) := by rw [List.getElem?_map, ht]; rfl
        have hA := hg info t h v us[i] (List.mem_of_getElem? ht) hp (hasTyf_at hf i hu hte) (Iss_get hi i hv hu)
        rw [hu]
        simp only
        cases hr : gE t.ty us[i] with
        | none =>
          rw [hr] at hA
          simp only at hA
          simp only [hA, KeyMatches]
        | some q =>
          obtain ⟨w, e⟩ := q
          rw [hr] at hA
          obtain ⟨hw, v', h1, g1, g2, g3⟩ := hA
          have hi1 := Iss_set (Iss_mono g2 _ _ hi) i g3
          have hf1 := hasTyf_set hf hte hw
          simp only [g1]
          cases e with
          | some e => exact ⟨_, _, rfl, g2, hi1, hf1⟩
          | none =>
            simp only
            cases hd : info.deprecatedBy with
            | none => exact (setLoop_matches hg ha is vis h1 _ _ (hp.trans g2) hi1 hf1).mono g2
            | some k =>
              simp only
              have hB := ha k vis h1 _ _ (hp.trans g2) hi1 hf1
              cases hr2 : againE k vis (us.set i w) with
              | none =>
                rw [hr2] at hB
                simp only [KeyMatches] at hB
                simp only [hB, KeyMatches]
              | some q2 =>
                obtain ⟨us2, vis2, e2⟩ := q2
                rw [hr2] at hB
                obtain ⟨vs2, h2, k1, k2, k3, k4⟩ := hB
                simp only [k1]
                cases e2 with
                | some e2 => exact ⟨_, _, rfl, g2.trans k2, k3, k4⟩
                | none => exact (setLoop_matches hg ha is vis2 h2 _ _ ((hp.trans g2).trans k2) k3 k4).mono (g2.trans k2)

theorem setKey_matches {idx : Bytes → List Nat} {tys : List (FInfo × DTy)} {h0 : Heap} {g : DTy → Heap → DV → DOut} {gE : Ty → UV → URes}
    (hg : AssignMatches D tys h0 g gE) : ∀ (f : Nat) k vis h vs us, h0 <+: h → DV.Iss h vs us → UV.HasTyf D.env.defs us (tys.map fun f => (f.1, f.2.ty)) →
      KeyMatches D tys h (setKeyD idx tys g f k vis h vs) (setKey idx (tys.map fun f => (f.1, f.2.ty)) gE f k vis us)
  | 0, _, _, _, _, _, _, _, _ => rfl
  | f + 1, k, vis, h, vs, us, hp, hi, hf => by
    simp only [setKey, setKeyD]
    split
    · exact ⟨vs, h, rfl, List.prefix_refl _, hi, hf⟩
    · exact setLoop_matches hg (fun k vis h vs us => setKey_matches hg f k vis h vs us) _ _ h vs us hp hi hf

/-- As `fields_match`, for struct types without `*JSONString`, `*JSONInt`, `*JSONBool` in them, whatever the keys. -/
theorem fields_firm (hP : D.env.Ok) {n : Nat} {tys : List (FInfo × DTy)} (hn : D.defs[n]? = some tys) (hfirm : (DTy.struct n).Firm D) (f : Nat) :
    ∀ (xs : List (Bytes × J)), (∀ k x, (k, x) ∈ xs → Lands D S x) → (∀ k x, (k, x) ∈ xs → x.WF) →
    ∀ (h : Heap) (rs : SMap Ref) (vs : List DV) (us : List UV),
    J.Atf h (fun _ => True) xs rs → J.sizef xs ≤ f → DV.Iss h vs us → UV.HasTyf D.env.defs us (tys.map fun f => (f.1, f.2.ty)) →
    match J.unmf D.env xs n us with
    | none => fieldsD D n (fun r t h v => unmD D f t h r v) h rs vs = .panic
    | some (us', es) => ∃ vs' h', fieldsD D n (fun r t h v => unmD D f t h r v) h rs vs = .ok ((vs', es), h') ∧ h <+: h' ∧ DV.Iss h' vs' us'
  | [], _, _, h, rs, vs, us, hat, _, hi, _ => by
    simp only [J.Atf] at hat
    subst hat
    simp only [J.unmf, fieldsD]
    exact ⟨vs, h, rfl, List.prefix_refl _, hi⟩
  | (k, x) :: xs, hx, hw, h, rs, vs, us, hat, hsz, hi, hf => by
    obtain ⟨b, rs', rfl, hxb, hat'⟩ := hat
    simp only [J.sizef] at hsz
    have hnE : D.env.defs[n]? = some (tys.map fun f => (f.1, f.2.ty)) := by simp [DEnv.env, hn]
    have hgD : D.defs.getD n [] = tys := by simp [List.getD_eq_getElem?_getD, hn]
    have hgE : D.env.defs.getD n [] = tys.map fun f => (f.1, f.2.ty) := by simp [List.getD_eq_getElem?_getD, hnE]
    simp only [J.unmf, fieldsD, hgD, hgE, Option.isNone_some, Bool.false_eq_true, if_false, List.length_map]
    have hg : AssignMatches D tys h (fun t h v => unmD D f t h (some b) v) (fun t v => J.unm D.env x t v) := by
      intro info t h1 v u hm hp hu hv
      have hval : t.ty.Valid D.env.defs := hP.2.1 n _ hnE info t.ty (List.mem_map.2 ⟨_, hm, rfl⟩)
      have hbl : v.Blank D t := Firm.blank (fun k hk => hfirm k (.field hn hm hk)) v
      have hA := hx k x (List.mem_cons_self ..) f h1 b t v u (At_agree (fun _ h => h) (fun _ _ _ h => prefix_get hp h) x b hxb) (by omega) hval hu hv hbl
      have hfine := (unm_fine (S := False) hP x (hw k x (List.mem_cons_self ..)) t.ty u hval hu (fun h => h.elim)).2
      show match x.unm D.env t.ty u with
        | none => unmD D f t h1 (some b) v = .panic
        | some (w, e) => w.HasTy D.env.defs t.ty ∧ ∃ v' h', unmD D f t h1 (some b) v = .ok ((v', e), h') ∧ h1 <+: h' ∧ v'.Is h' w
      cases hr : x.unm D.env t.ty u with
      | none => rw [hr] at hA; exact hA
      | some q =>
        obtain ⟨w, e⟩ := q
        rw [hr] at hA
        obtain ⟨v', h', g1, g2, g3, _⟩ := hA
        exact ⟨hfine _ hr, v', h', g1, g2, g3⟩
    have hK := setKey_matches (idx := D.idx n) hg (tys.length + 2) k [] h vs us (List.prefix_refl _) hi hf
    have hidx : D.env.idx n = D.idx n := rfl
    rw [hidx]
    cases hr : setKey (D.idx n) (tys.map fun f => (f.1, f.2.ty)) (fun t v => J.unm D.env x t v) (tys.length + 2) k [] us with
    | none =>
      rw [hr] at hK
      simp only [KeyMatches] at hK
      simp only [hK]
    | some q =>
      obtain ⟨us1, vis, e⟩ := q
      rw [hr] at hK
      obtain ⟨vs1, h1, g1, g2, g3, g4⟩ := hK
      simp only [g1]
      have ih := fields_firm hP hn hfirm f xs (fun k' y hy => hx k' y (List.mem_cons_of_mem _ hy)) (fun k' y hy => hw k' y (List.mem_cons_of_mem _ hy))
        h1 rs' vs1 us1 (Atf_agree (fun _ h => h) (fun _ _ _ h => prefix_get g2 h) xs rs' hat') (by omega) g3 g4
      cases hr2 : J.unmf D.env xs n us1 with
      | none => rw [hr2] at ih; simp only at ih; simp only [ih, CRes.map, Option.map_none]
      | some q2 =>
        obtain ⟨us2, e2⟩ := q2
        rw [hr2] at ih
        obtain ⟨vs2, h2, k1, k2, k3⟩ := ih
        simp only [k1, CRes.map, Option.map_some]
        exact ⟨_, _, rfl, g2.trans k2, k3⟩

end Jsonutils
