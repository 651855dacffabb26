import Verif.Proofs.SharedUnm
import Verif.Proofs.UnmarshalIdem

/-!
# `Unmarshal` on memory: arrays and dictionaries
-/

namespace Jsonutils

variable {D : DEnv} {S : Prop}

/-- What is proved of every document. -/
def Lands (D : DEnv) (S : Prop) (v : J) : Prop := ∀ (f : Nat) (h : Heap) (a : Addr) (t : DTy) (x : DV) (u : UV), v.Seen h a → v.size ≤ f → t.ty.Valid D.env.defs →
  u.HasTy D.env.defs t.ty → x.Is h u → x.Blank D t → Matches D S h a t (unmD D f t h (some a) x) (v.unm D.env t.ty u)

theorem elems_match (t : DTy) (hv : t.ty.Valid D.env.defs) (f : Nat) : ∀ (xs : List J), (∀ x ∈ xs, Lands D S x) → ∀ (h : Heap) (rs : List Ref) (vs : List DV) (us : List UV),
    J.Ats h (fun _ => True) xs rs → J.sizes xs ≤ f → vs.length = xs.length → UV.HasTys D.env.defs us t.ty → DV.Iss h vs us → (∀ y ∈ vs, y.Blank D t) →
    match J.unms D.env xs t.ty us with
    | none => elemsD (unmD D f t) h rs vs = .panic
    | some (us', e) => ∃ vs' h', elemsD (unmD D f t) h rs vs = .ok ((vs', e), h') ∧ h <+: h' ∧ DV.Iss h' vs' us' ∧
        (e = none → S → vs'.length = rs.length ∧ ∀ (i : Nat) b y, rs[i]? = some (some b) → vs'[i]? = some y → Shares D h b t y)
  | [], _, h, rs, vs, us, hat, _, hl, _, hi, _ => by
    simp only [J.Ats] at hat
    subst hat
    simp only [J.unms, elemsD]
    exact ⟨vs, h, rfl, List.prefix_refl _, hi, fun _ _ => ⟨by simpa using hl, fun i b y h => by simp at h⟩⟩
  | x :: xs, hx, h, rs, vs, us, hat, hsz, hl, hty, hi, hb => by
    obtain ⟨b, rs', rfl, hxb, hat'⟩ := hat
    cases vs with
    | nil => simp at hl
    | cons v vs =>
      obtain ⟨u, us', rfl, hiv, hi'⟩ := hi
      simp only [J.sizes] at hsz
      have hA := hx x (List.mem_cons_self ..) f h b t v u hxb (by omega) hv hty.1 hiv (hb v (List.mem_cons_self ..))
      simp only [J.unms, elemsD]
      cases hr : x.unm D.env t.ty u with
      | none => rw [hr] at hA; simp only [Matches] at hA; simp only [hA]
      | some q =>
        obtain ⟨w, e⟩ := q
        rw [hr] at hA
        obtain ⟨v', h1, g1, g2, g3, g4⟩ := hA
        cases e with
        | some e =>
          simp only [g1]
          exact ⟨_, _, rfl, g2, ⟨w, us', rfl, g3, Iss_mono g2 _ _ hi'⟩, (by intro he; cases he)⟩
        | none =>
          have ih := elems_match t hv f xs (fun y hy => hx y (List.mem_cons_of_mem _ hy)) h1 rs' vs us'
            (Ats_agree (fun _ h => h) (fun _ _ _ h => prefix_get g2 h) xs rs' hat') (by omega) (by simpa using hl) hty.2 (Iss_mono g2 _ _ hi')
            fun y hy => hb y (List.mem_cons_of_mem _ hy)
          simp only [g1]
          cases hr2 : J.unms D.env xs t.ty us' with
          | none => rw [hr2] at ih; simp only at ih; simp only [ih, CRes.map, Option.map_none]
          | some q2 =>
            obtain ⟨us2, e2⟩ := q2
            rw [hr2] at ih
            obtain ⟨vs2, h2, k1, k2, k3, k4⟩ := ih
            simp only [k1, CRes.map, Option.map_some]
            refine ⟨_, _, rfl, g2.trans k2, ⟨w, us2, rfl, Is_mono k2 _ _ g3, k3⟩, fun he hS => ?_⟩
            obtain ⟨m1, m2⟩ := k4 he hS
            refine ⟨by simp [m1], fun i c y hc hy => ?_⟩
            cases i with
            | zero => simp at hc hy; subst hc; subst hy; exact g4 rfl hS
            | succ i => exact (m2 i c y (by simpa using hc) (by simpa using hy)).mono g2

theorem shares_slice {h : Heap} {a : Addr} {rs : List Ref} (ho : h[a]? = some (.arr rs)) {t : DTy} {vs sp : List DV} (hl : vs.length = rs.length)
    (hs : ∀ (i : Nat) b y, rs[i]? = some (some b) → vs[i]? = some y → Shares D h b t y) : Shares D h a (.slice t) (.seq vs sp) := by
  refine ⟨fun p b o t' y hw ho' hy => ?_, fun p b o t' hw ho' hn hr hd => ?_⟩
  · cases hy with
    | here => exact ⟨(by intro h; cases h), (by intro k h; cases h)⟩
    | elem hx hy =>
      cases hw with
      | elem h1 h2 h3 =>
        rw [ho] at h1; cases h1
        exact (hs _ _ _ h2 hx).held _ b o t' y h3 ho' hy
  · cases hr with
    | here => rcases hd with h | ⟨k, h⟩ <;> cases h
    | elem hr =>
      cases hw with
      | elem h1 h2 h3 =>
        rw [ho] at h1; cases h1
        have hlt := (List.getElem?_eq_some_iff.1 h2).1
        have hx := List.getElem?_eq_getElem (hl ▸ hlt : _ < vs.length)
        obtain ⟨y, hy⟩ := (hs _ _ _ h2 hx).there _ b o t' h3 ho' hn hr hd
        exact ⟨y, .elem hx hy⟩

theorem entries_match (hP : D.env.Ok) (t : DTy) (hv : t.ty.Valid D.env.defs) (f : Nat) : ∀ (xs : List (Bytes × J)), (∀ k x, (k, x) ∈ xs → Lands D S x) → SMap.Sorted xs →
    ∀ (h : Heap) (rs : SMap Ref) (m : SMap DV) (us : SMap UV),
    J.Atf h (fun _ => True) xs rs → J.sizef xs ≤ f → SMap.Sorted m → DV.Ism h m us →
    match J.unmm D.env xs t.ty us with
    | none => entriesD (fun h r => unmD D f t h r (D.zero t)) h rs m = .panic
    | some (us', e) => ∃ m' h', entriesD (fun h r => unmD D f t h r (D.zero t)) h rs m = .ok ((m', e), h') ∧ h <+: h' ∧ DV.Ism h' m' us' ∧ SMap.Sorted m' ∧
        (∀ k, (∀ x, (k, x) ∉ xs) → smGet m' k = smGet m k) ∧
        (e = none → S → ∀ k b, (k, some b) ∈ rs → ∃ y, smGet m' k = some y ∧ Shares D h b t y)
  | [], _, _, h, rs, m, us, hat, _, hm, hi => by
    simp only [J.Atf] at hat
    subst hat
    simp only [J.unmm, entriesD]
    exact ⟨m, h, rfl, List.prefix_refl _, hi, hm, fun _ _ => rfl, fun _ _ k b h => by cases h⟩
  | (k, x) :: xs, hx, hso, h, rs, m, us, hat, hsz, hm, hi => by
    obtain ⟨b, rs', rfl, hxb, hat'⟩ := hat
    simp only [J.sizef] at hsz
    have hA := hx k x (List.mem_cons_self ..) f h b t (D.zero t) _ hxb (by omega) hv (zero_hasTy hP t.ty hv) (zero_is h t) (zero_blank t t)
    simp only [J.unmm, entriesD]
    cases hr : x.unm D.env t.ty (D.env.zero t.ty) with
    | none => rw [hr] at hA; simp only [Matches] at hA; simp only [hA]
    | some q =>
      obtain ⟨w, e⟩ := q
      rw [hr] at hA
      obtain ⟨v', h1, g1, g2, g3, g4⟩ := hA
      cases e with
      | some e =>
        simp only [g1]
        exact ⟨_, _, rfl, g2, Ism_mono g2 _ _ hi, hm, fun _ _ => rfl, (by intro he; cases he)⟩
      | none =>
        have hso' : SMap.Sorted xs := (List.pairwise_cons.1 hso).2
        have hlt := (List.pairwise_cons.1 hso).1
        have hnk : ∀ y, (k, y) ∉ xs := fun y hy => by have := hlt _ hy; simp [blt_irrefl] at this
        have ih := entries_match hP t hv f xs (fun k' y hy => hx k' y (List.mem_cons_of_mem _ hy)) hso' h1 rs' (smAdd m k v') (smAdd us k w)
          (Atf_agree (fun _ h => h) (fun _ _ _ h => prefix_get g2 h) xs rs' hat') (by omega) (sorted_smAdd hm _ _) (Ism_smAdd g3 k (Ism_mono g2 _ _ hi))
        simp only [g1]
        cases hr2 : J.unmm D.env xs t.ty (smAdd us k w) with
        | none => rw [hr2] at ih; simp only at ih; exact ih
        | some q2 =>
          obtain ⟨us2, e2⟩ := q2
          rw [hr2] at ih
          obtain ⟨m2, h2, k1, k2, k3, k4, k5, k6⟩ := ih
          refine ⟨m2, h2, k1, g2.trans k2, k3, k4, fun k' hk' => ?_, fun he hS k' b' hb' => ?_⟩
          · rw [k5 k' fun y hy => hk' y (List.mem_cons_of_mem _ hy), smGet_smAdd _ hm]
            have : k' ≠ k := fun e => hk' x (e ▸ List.mem_cons_self ..)
            simp [this]
          · rcases List.mem_cons.1 hb' with hb' | hb'
            · cases hb'
              refine ⟨v', ?_, g4 rfl hS⟩
              rw [k5 k hnk, smGet_smAdd _ hm]; simp
            · obtain ⟨y, y1, y2⟩ := k6 he hS k' b' hb'
              exact ⟨y, y1, y2.mono g2⟩

theorem shares_map {h : Heap} {a : Addr} {id : Int} {rs : SMap Ref} (ho : h[a]? = some (.dict id rs)) {t : DTy} {m : SMap DV} (hm : SMap.Sorted m)
    (hs : ∀ k b, (k, some b) ∈ rs → ∃ y, smGet m k = some y ∧ Shares D h b t y) : Shares D h a (.map t) (.map m) := by
  refine ⟨fun p b o t' y hw ho' hy => ?_, fun p b o t' hw ho' hn hr hd => ?_⟩
  · cases hy with
    | here => exact ⟨(by intro h; cases h), (by intro k h; cases h)⟩
    | entry hx hy =>
      cases hw with
      | key h1 h2 h3 =>
        rw [ho] at h1; cases h1
        obtain ⟨z, z1, z2⟩ := hs _ _ h2
        rw [(smGet_mem_iff hm).2 hx] at z1
        cases z1
        exact z2.held _ b o t' y h3 ho' hy
  · cases hr with
    | here => rcases hd with h | ⟨k, h⟩ <;> cases h
    | entry hr =>
      cases hw with
      | key h1 h2 h3 =>
        rw [ho] at h1; cases h1
        obtain ⟨z, z1, z2⟩ := hs _ _ h2
        obtain ⟨y, hy⟩ := z2.there _ b o t' h3 ho' hn hr hd
        exact ⟨y, .entry ((smGet_mem_iff hm).1 z1) hy⟩

theorem setKeyD_none {idx : Bytes → List Nat} {tys : List (FInfo × DTy)} {assign : DTy → Heap → DV → DOut} {f : Nat} {k : Bytes} {h : Heap} {vs : List DV}
    (hi : idx k = []) : setKeyD idx tys assign (f + 1) k [] h vs = .ok ((vs, [k], none), h) := by
  simp only [setKeyD, List.not_mem_nil, if_false, hi, setLoopD]

theorem setKeyD_one {idx : Bytes → List Nat} {tys : List (FInfo × DTy)} {assign : DTy → Heap → DV → DOut} {f : Nat} {k : Bytes} {h h1 : Heap} {vs : List DV}
    {i : Nat} {info : FInfo} {t : DTy} {v w : DV} {e : Option UErr} (hi : idx k = [i]) (ht : tys[i]? = some (info, t)) (hv : vs[i]? = some v)
    (hd : info.deprecatedBy = none) (ha : assign t h v = .ok ((w, e), h1)) : setKeyD idx tys assign (f + 1) k [] h vs = .ok ((vs.set i w, [k], e), h1) := by
  cases e <;> simp only [setKeyD, List.not_mem_nil, if_false, hi, setLoopD, ht, hv, ha, hd]

theorem fields_match {n : Nat} {tys : List (FInfo × DTy)} (hn : D.defs[n]? = some tys) (hval : ∀ info t, (info, t) ∈ tys → t.ty.Valid D.env.defs) (f : Nat) :
    ∀ (xs : List (Bytes × J)), (∀ k x, (k, x) ∈ xs → Lands D S x) → PlainKeys (D.idx n) (tys.map fun f => (f.1, f.2.ty)) xs →
    ∀ (h : Heap) (rs : SMap Ref) (vs : List DV) (us : List UV),
    J.Atf h (fun _ => True) xs rs → J.sizef xs ≤ f → vs.length = tys.length → DV.Iss h vs us →
    (∀ k j, (k, j) ∈ xs → ∀ (i : Nat) info t u x, D.idx n k = [i] → tys[i]? = some (info, t) → us[i]? = some u → vs[i]? = some x → u.HasTy D.env.defs t.ty ∧ x.Blank D t) →
    match J.unmf D.env xs n us with
    | none => fieldsD D n (fun r t h v => unmD D f t h r v) h rs vs = .panic
    | some (us', es) => ∃ vs' h', fieldsD D n (fun r t h v => unmD D f t h r v) h rs vs = .ok ((vs', es), h') ∧ h <+: h' ∧ DV.Iss h' vs' us' ∧
        (∀ i : Nat, (∀ k j, (k, j) ∈ xs → D.idx n k ≠ [i]) → vs'[i]? = vs[i]?) ∧
        (es = [] → S → ∀ k b (i : Nat) info t, (k, some b) ∈ rs → D.idx n k = [i] → tys[i]? = some (info, t) → ∃ y, vs'[i]? = some y ∧ Shares D h b t y)
  | [], _, _, h, rs, vs, us, hat, _, _, hi, _ => by
    simp only [J.Atf] at hat
    subst hat
    simp only [J.unmf, fieldsD]
    exact ⟨vs, h, rfl, List.prefix_refl _, hi, fun _ _ => rfl, fun _ _ k b i info t h => by cases h⟩
  | (k, x) :: xs, hx, hpl, h, rs, vs, us, hat, hsz, hl, hi, hb => by
    obtain ⟨b, rs', rfl, hxb, hat'⟩ := hat
    simp only [J.sizef] at hsz
    have hpl' : PlainKeys (D.idx n) (tys.map fun f => (f.1, f.2.ty)) xs :=
      ⟨fun k' j' hm => hpl.1 k' j' (List.mem_cons_of_mem _ hm), (List.pairwise_cons.1 hpl.2).2⟩
    have hne := (List.pairwise_cons.1 hpl.2).1
    have hx' : ∀ k' y, (k', y) ∈ xs → Lands D S y := fun k' y hy => hx k' y (List.mem_cons_of_mem _ hy)
    have hgD : D.defs.getD n [] = tys := by simp [List.getD_eq_getElem?_getD, hn]
    have hgE : D.env.defs.getD n [] = tys.map fun f => (f.1, f.2.ty) := by simp [List.getD_eq_getElem?_getD, DEnv.env, hn]
    simp only [J.unmf, fieldsD, hgD, hgE, Option.isNone_some, Bool.false_eq_true, if_false, List.length_map]
    rcases hpl.1 k x (List.mem_cons_self ..) with hk | ⟨i, info, t', hk, hty, hd⟩
    · rw [show setKey (D.env.idx n) (tys.map fun f => (f.1, f.2.ty)) (fun t v => J.unm D.env x t v) (tys.length + 2) k [] us = some (us, [k], none) from
        setKey_none (idx := D.env.idx n) (f := tys.length + 1) hk, setKeyD_none (f := tys.length + 1) hk]
      have ih := fields_match hn hval f xs hx' hpl' h rs' vs us hat' (by omega) hl hi fun k' j hm => hb k' j (List.mem_cons_of_mem _ hm)
      simp only
      cases hr2 : J.unmf D.env xs n us with
      | none => rw [hr2] at ih; simp only at ih; simp only [ih, CRes.map, Option.map_none]
      | some q2 =>
        obtain ⟨us2, e2⟩ := q2
        rw [hr2] at ih
        obtain ⟨vs2, h2, k1, k2, k3, k4, k5⟩ := ih
        simp only [k1, CRes.map, Option.map_some]
        refine ⟨vs2, h2, rfl, k2, k3, fun i hi => k4 i fun k' j hm => hi k' j (List.mem_cons_of_mem _ hm), fun he hS k' b' i info t hm e1 e2 => ?_⟩
        rcases List.mem_cons.1 hm with hm | hm
        · cases hm; rw [hk] at e1; cases e1
        · exact k5 he hS k' b' i info t hm e1 e2
    · rw [List.getElem?_map] at hty
      cases htyi : tys[i]? with
      | none => rw [htyi] at hty; cases hty
      | some q =>
        obtain ⟨info', t⟩ := q
        have hty0 := hty
        rw [htyi] at hty
        simp only [Option.map_some, Option.some.injEq, Prod.mk.injEq] at hty
        obtain ⟨rfl, rfl⟩ := hty
        have hlt : i < vs.length := by rw [hl]; exact (List.getElem?_eq_some_iff.1 htyi).1
        have hvi : vs[i]? = some vs[i] := List.getElem?_eq_getElem hlt
        have hlt' : i < us.length := by rw [Iss_length hi]; exact hlt
        have hui : us[i]? = some us[i] := List.getElem?_eq_getElem hlt'
        obtain ⟨hut, hvb⟩ := hb k x (List.mem_cons_self ..) i info' t _ _ hk htyi hui hvi
        have hA := hx k x (List.mem_cons_self ..) f h b t vs[i] us[i] hxb (by omega) (hval info' t (List.mem_of_getElem? htyi)) hut (Iss_get hi i hvi hui) hvb
        have hty1 : (tys.map fun f => (f.1, f.2.ty))[i]? = some (info', t.ty) := by rw [List.getElem?_map, htyi]; rfl
        cases hr : x.unm D.env t.ty us[i] with
        | none =>
          rw [hr] at hA
          simp only [Matches] at hA
          have e1 : setKey (D.env.idx n) (tys.map fun f => (f.1, f.2.ty)) (fun t v => J.unm D.env x t v) (tys.length + 2) k [] us = none := by
            have hk' : D.env.idx n k = [i] := hk
            simp only [setKey, List.not_mem_nil, if_false, hk', setLoop, hty1, hui, hr]
          have e2 : setKeyD (D.idx n) tys (fun t h v => unmD D f t h (some b) v) (tys.length + 2) k [] h vs = .panic := by
            simp only [setKeyD, List.not_mem_nil, if_false, hk, setLoopD, htyi, hvi, hA]
          rw [e1, e2]
        | some q =>
          obtain ⟨w, e⟩ := q
          rw [hr] at hA
          obtain ⟨v', h1, g1, g2, g3, g4⟩ := hA
          rw [setKey_one' (idx := D.env.idx n) (f := tys.length + 1) hk hty1 hui hd hr,
            setKeyD_one (assign := fun t h v => unmD D f t h (some b) v) (f := tys.length + 1) hk htyi hvi hd g1]
          have hnei : ∀ k' j, (k', j) ∈ xs → D.idx n k' ≠ [i] := fun k' j hm => hne (k', j) hm i hk
          have ih := fields_match hn hval f xs hx' hpl' h1 rs' (vs.set i v') (us.set i w)
            (Atf_agree (fun _ h => h) (fun _ _ _ h => prefix_get g2 h) xs rs' hat') (by omega) (by simpa using hl) (Iss_set (Iss_mono g2 _ _ hi) i g3) (by
              intro k' j hm i' info2 t2 u2 x2 e1 e2 e3 e4
              have hii : i ≠ i' := by rintro rfl; exact hnei k' j hm e1
              rw [List.getElem?_set_ne hii] at e3 e4
              exact hb k' j (List.mem_cons_of_mem _ hm) i' info2 t2 u2 x2 e1 e2 e3 e4)
          simp only
          cases hr2 : J.unmf D.env xs n (us.set i w) with
          | none => rw [hr2] at ih; simp only at ih; simp only [ih, CRes.map, Option.map_none]
          | some q2 =>
            obtain ⟨us2, e2⟩ := q2
            rw [hr2] at ih
            obtain ⟨vs2, h2, k1, k2, k3, k4, k5⟩ := ih
            simp only [k1, CRes.map, Option.map_some]
            refine ⟨vs2, h2, rfl, g2.trans k2, k3, fun i2 hi2 => ?_, fun he hS k' b' i2 info2 t2 hm f1 f2 => ?_⟩
            · rw [k4 i2 fun k' j hm => hi2 k' j (List.mem_cons_of_mem _ hm)]
              have : i ≠ i2 := by rintro rfl; exact hi2 k x (List.mem_cons_self ..) hk
              rw [List.getElem?_set_ne this]
            · have hen : e = none := by cases e with
                | none => rfl
                | some e => simp at he
              subst hen
              rcases List.mem_cons.1 hm with hm | hm
              · cases hm
                rw [hk] at f1; cases f1
                rw [htyi] at f2; cases f2
                refine ⟨v', ?_, g4 rfl hS⟩
                rw [k4 i hnei, List.getElem?_set_self hlt]
              · obtain ⟨y, y1, y2⟩ := k5 he hS k' b' i2 info2 t2 hm f1 f2
                exact ⟨y, y1, y2.mono g2⟩

theorem shares_struct {h : Heap} {a : Addr} {id : Int} {rs : SMap Ref} (ho : h[a]? = some (.dict id rs)) {n : Nat} {tys : List (FInfo × DTy)}
    (hn : D.defs[n]? = some tys) {xs : List (Bytes × J)} (hpl : PlainKeys (D.idx n) (tys.map fun f => (f.1, f.2.ty)) xs)
    (hk : ∀ k b, (k, some b) ∈ rs → ∃ x, (k, x) ∈ xs) {vs : List DV}
    (hs : ∀ k b (i : Nat) info t, (k, some b) ∈ rs → D.idx n k = [i] → tys[i]? = some (info, t) → ∃ y, vs[i]? = some y ∧ Shares D h b t y) :
    Shares D h a (.struct n) (.struct vs) := by
  have one : ∀ k b (i : Nat), (k, some b) ∈ rs → i ∈ D.idx n k → D.idx n k = [i] := by
    intro k b i hm hi
    obtain ⟨x, hx⟩ := hk k b hm
    rcases hpl.1 k x hx with h | ⟨j, _, _, h, _⟩
    · rw [h] at hi; cases hi
    · rw [h] at hi ⊢
      rw [List.mem_singleton] at hi
      subst hi; rfl
  refine ⟨fun p b o t' y hw ho' hy => ?_, fun p b o t' hw ho' hd hr hdt => ?_⟩
  · cases hy with
    | here => exact ⟨(by intro h; cases h), (by intro k h; cases h)⟩
    | field e1 e2 e3 e4 hy =>
      cases hw with
      | key h1 h2 h3 =>
        rw [ho] at h1; cases h1
        rw [hn] at e2; cases e2
        obtain ⟨z, z1, z2⟩ := hs _ _ _ _ _ h2 (one _ _ _ h2 e1) e3
        rw [e4] at z1; cases z1
        exact z2.held _ b o t' y h3 ho' hy
  · cases hr with
    | here => rcases hdt with h | ⟨k, h⟩ <;> cases h
    | field e1 e2 e3 hr =>
      cases hw with
      | key h1 h2 h3 =>
        rw [ho] at h1; cases h1
        rw [hn] at e2; cases e2
        obtain ⟨z, z1, z2⟩ := hs _ _ _ _ _ h2 (one _ _ _ h2 e1) e3
        obtain ⟨y, hy⟩ := z2.there _ b o t' h3 ho' hd hr hdt
        exact ⟨y, .field e1 hn e3 z1 hy⟩

end Jsonutils
