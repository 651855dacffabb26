import Verif.Proofs.SharedFirm

/-!
# `Unmarshal` on memory: every document
-/

namespace Jsonutils

variable {D : DEnv} {S : Prop}

theorem visit_seen {h : Heap} (v : J) : ∀ (f : Nat) (a : Addr), v.Seen h a → v.size ≤ f → visitH f h (some a) = .ok () := by
  have all : ∀ (g : Ref → CRes Unit) (rs : List Ref), (∀ r ∈ rs, g r = .ok ()) → (seqH g rs).shape = .ok () := by
    intro g rs
    induction rs with
    | nil => intro _; rfl
    | cons r rs ih =>
      intro hg
      simp only [seqH, hg r (List.mem_cons_self ..), shape_map]
      exact ih fun r hr => hg r (List.mem_cons_of_mem _ hr)
  induction v using J.ind with
  | null => intro f a hs hz; obtain ⟨f, rfl⟩ : ∃ g, f = g + 1 := ⟨f - 1, by simp only [J.size] at hz; omega⟩; simp only [visitH, hs.2]; rfl
  | bool => intro f a hs hz; obtain ⟨f, rfl⟩ : ∃ g, f = g + 1 := ⟨f - 1, by simp only [J.size] at hz; omega⟩; simp only [visitH, hs.2]; rfl
  | int => intro f a hs hz; obtain ⟨f, rfl⟩ : ∃ g, f = g + 1 := ⟨f - 1, by simp only [J.size] at hz; omega⟩; simp only [visitH, hs.2]; rfl
  | float => intro f a hs hz; obtain ⟨f, rfl⟩ : ∃ g, f = g + 1 := ⟨f - 1, by simp only [J.size] at hz; omega⟩; simp only [visitH, hs.2]; rfl
  | str => intro f a hs hz; obtain ⟨f, rfl⟩ : ∃ g, f = g + 1 := ⟨f - 1, by simp only [J.size] at hz; omega⟩; simp only [visitH, hs.2]; rfl
  | ptr => intro f a hs hz; obtain ⟨f, rfl⟩ : ∃ g, f = g + 1 := ⟨f - 1, by simp only [J.size] at hz; omega⟩; simp only [visitH, hs.2]; rfl
  | arr xs ih =>
    intro f a hs hz
    obtain ⟨f, rfl⟩ : ∃ g, f = g + 1 := ⟨f - 1, by simp only [J.size] at hz; omega⟩
    obtain ⟨_, rs, ho, hr⟩ := hs
    simp only [visitH, ho]
    refine all _ _ fun r hm => ?_
    obtain ⟨b, x, hx, rfl, hb⟩ := Ats_of_mem hr r hm
    obtain ⟨i, hi⟩ := List.getElem?_of_mem hx
    have := size_get hi
    simp only [J.size] at hz
    exact ih i x hi f b hb (by omega)
  | dict id xs ih =>
    intro f a hs hz
    obtain ⟨f, rfl⟩ : ∃ g, f = g + 1 := ⟨f - 1, by simp only [J.size] at hz; omega⟩
    obtain ⟨_, rs, ho, hr⟩ := hs
    simp only [visitH, ho]
    refine all _ _ fun r hm => ?_
    simp only [Obj.refs] at hm
    obtain ⟨e, he, rfl⟩ := List.mem_map.1 hm
    obtain ⟨b, x, hx, e2, hb⟩ := Atf_of_mem hr e he
    rw [e2]
    have := size_mem hx
    simp only [J.size] at hz
    exact ih _ x hx f b hb (by omega)

theorem text_seen {h : Heap} {v : J} {f : Nat} {a : Addr} (hs : v.Seen h a) (hz : v.size ≤ f) : textH f h (some a) = .ok v.toBytes := by
  obtain ⟨out, ho⟩ := shape_ok ((text_shape f h (some a)).trans (visit_seen v f a hs hz))
  rw [ho, text_val v f a out hs ho]

theorem resize_is {h : Heap} {t : DTy} {n : Nat} {v : DV} {u : UV} (hi : v.Is h u) :
    DV.Iss h (D.resize t n v).1 (D.env.resize t.ty n u).1 ∧ DV.Iss h (D.resize t n v).2 (D.env.resize t.ty n u).2 := by
  have hrep : DV.Iss h (List.replicate n (D.zero t)) (List.replicate n (D.env.zero t.ty)) ∧ DV.Iss h [] [] := ⟨Iss_replicate (zero_is h t) n, rfl⟩
  cases v with
  | seq xs sp =>
    obtain ⟨us, ss, rfl, h1, h2⟩ := hi
    simp only [DEnv.resize, UEnv.resize, Iss_length h1, Iss_length h2]
    split
    · exact hrep
    · exact Iss_take (Iss_append h1 h2) n
  | nil => simp only [DV.Is] at hi; subst hi; exact hrep
  | sc x => obtain ⟨rfl, hp⟩ := hi; cases u <;> first | exact hp.elim | exact hrep
  | ref a => obtain ⟨_, rfl, _⟩ := hi; exact hrep
  | map m => obtain ⟨_, rfl, _⟩ := hi; exact hrep
  | ptr m => obtain ⟨_, rfl, _⟩ := hi; exact hrep
  | struct m => obtain ⟨_, rfl, _⟩ := hi; exact hrep

theorem zeroObj_seen (k : JKind) (h : Heap) : k.zero.Seen (h ++ [k.zeroObj]) h.length := by
  cases k <;> simp [J.Seen, JKind.zero, JKind.zeroObj, J.At, J.Ats, J.Atf]

theorem alloc_is (hP : D.env.Ok) : ∀ (t : DTy) (h : Heap) (x : DV) (u : UV), t.ty.Valid D.env.defs → u.HasTy D.env.defs t.ty → x.Is h u →
    h <+: (D.alloc t h x).2 ∧ (D.alloc t h x).1.Is (D.alloc t h x).2 (D.env.alloc t.ty u)
  | .sc s, h, x, u, hv, hu, hx => by
    have e : D.env.alloc s.ty u = u := by cases s <;> rfl
    simp only [DEnv.alloc, DTy.ty, e]; exact ⟨List.prefix_refl _, hx⟩
  | .obj, h, x, u, hv, hu, hx => ⟨List.prefix_refl _, hx⟩
  | .slice t, h, x, u, hv, hu, hx => ⟨List.prefix_refl _, hx⟩
  | .map t, h, x, u, hv, hu, hx => ⟨List.prefix_refl _, hx⟩
  | .struct n, h, x, u, hv, hu, hx => ⟨List.prefix_refl _, hx⟩
  | .jptr k, h, x, u, hv, hu, hx => by
    rcases ty_jptr hu with rfl | ⟨j, rfl, _⟩
    · have := is_nil hx
      subst this
      exact ⟨⟨_, rfl⟩, _, rfl, zeroObj_seen k h⟩
    · obtain ⟨c, rfl, hs⟩ := is_json hx
      exact ⟨List.prefix_refl _, hx⟩
  | .ptr t, h, x, u, hv, hu, hx => by
    rcases ty_ptr hu with rfl | ⟨w, rfl, hw⟩
    · have := is_nil hx
      subst this
      have := alloc_is hP t h (D.zero t) _ hv (zero_hasTy hP t.ty hv) (zero_is h t)
      exact ⟨this.1, _, rfl, this.2⟩
    · obtain ⟨y, rfl, hy⟩ := is_pointer hx
      have := alloc_is hP t h y w hv hw hy
      exact ⟨this.1, _, rfl, this.2⟩

/-- A text variable has no places for parts of the document. -/
theorem shares_sc {h : Heap} {a : Addr} {s : Sc} {x : DV} : Shares D h a (.sc s) x := by
  refine ⟨fun p b o t' y hw ho' hy => ?_, fun p b o t' hw ho' hn hr hd => ?_⟩
  · cases hy with
    | here => exact ⟨(by intro h; cases h), (by intro k h; cases h)⟩
  · cases hr with
    | here => rcases hd with h | ⟨k, h⟩ <;> cases h

theorem resize_blank {t : DTy} {n : Nat} {x : DV} (hb : x.Blank D (.slice t)) : ∀ y ∈ (D.resize t n x).1, y.Blank D t := by
  intro y hy
  have hrep : y ∈ List.replicate n (D.zero t) → y.Blank D t := fun h => by rw [List.eq_of_mem_replicate h]; exact zero_blank t t
  cases x with
  | seq xs sp =>
    simp only [DEnv.resize] at hy
    split at hy
    · exact hrep hy
    · exact blank_elem hb (List.mem_of_mem_take hy)
  | _ => exact hrep hy

theorem arr_match (hP : D.env.Ok) {xs : List J} (hL : ∀ x ∈ xs, Lands D S x) (f : Nat) {a : Addr} {rs : List Ref} : ∀ (t : DTy) (h : Heap) (x : DV) (u : UV), (∀ t', t ≠ .ptr t') →
    h[a]? = some (.arr rs) → J.Ats h (fun _ => True) xs rs → J.sizes xs ≤ f → t.ty.Valid D.env.defs → u.HasTy D.env.defs t.ty → x.Is h u → x.Blank D t →
    Matches D S h a t (arrD D a rs (fun h => textH (f + 1) h (some a)) (unmD D f) t (D.alloc t h x).2 (D.alloc t h x).1)
      (arrInto D.env xs (fun t vs => J.unms D.env xs t vs) t.ty (D.env.alloc t.ty u)) := by
  intro t h x u hnp ho hat hz hv hu hx hb
  have hseen : (J.arr xs).Seen h a := ⟨trivial, rs, ho, hat⟩
  cases t with
  | ptr t => exact absurd rfl (hnp t)
  | sc s =>
    have hup : u.IsPlain := ty_plain hu
    have := is_plain hup hx
    subst this
    have e : D.env.alloc s.ty u = u := by cases s <;> rfl
    have htx : textH (f + 1) h (some a) = .ok (J.arr xs).toBytes := text_seen hseen (by simp only [J.size]; omega)
    simp only [DEnv.alloc, DTy.ty, e]
    cases s <;> simp only [arrD, arrInto, Sc.ty] <;> first
      | exact .err (List.prefix_refl _) ⟨rfl, hup⟩
      | skip
    simp only [htx, CRes.map]
    exact .ok (List.prefix_refl _) ⟨rfl, trivial⟩ shares_sc
  | obj => exact .ok (List.prefix_refl _) ⟨_, rfl, hseen⟩ (shares_obj ho (by intro h; cases h))
  | jptr k =>
    simp only [arrD]
    refine putPtr_agrees ho hseen (by intro h; cases h) k hu hx hb _ ?_
    cases k <;> simp only [convert, Obj.IsKind, DTy.ty, arrInto, true_and]
  | map t => exact .err (List.prefix_refl _) hx
  | struct n => exact .err (List.prefix_refl _) hx
  | slice t =>
    simp only [DEnv.alloc, DTy.ty, UEnv.alloc, arrD, arrInto]
    have hl : rs.length = xs.length := ats_length hat
    rw [hl]
    obtain ⟨h1, h2⟩ := resize_is (D := D) (t := t) (n := xs.length) hx
    obtain ⟨g1, g2, g3⟩ := resize_hasTy (t := t.ty) hP hv hu xs.length
    have hlen := Iss_length h1
    have hA := elems_match t hv f xs hL h rs _ _ hat hz (by omega) ((hasTys_iff _).2 g2) h1 (resize_blank hb)
    cases hr : J.unms D.env xs t.ty (D.env.resize t.ty xs.length u).1 with
    | none => rw [hr] at hA; simp only at hA; simp only [hA, CRes.map, Option.map_none, Matches]
    | some q =>
      obtain ⟨us', e⟩ := q
      rw [hr] at hA
      obtain ⟨vs', h', k1, k2, k3, k4⟩ := hA
      simp only [k1, CRes.map, Option.map_some, Matches]
      exact ⟨_, _, rfl, k2, ⟨_, _, rfl, k3, Iss_mono k2 _ _ h2⟩, fun he hS => shares_slice ho (k4 he hS).1 (k4 he hS).2⟩

theorem Ism_keys {h : Heap} : ∀ {m : List (Bytes × DV)} {us : List (Bytes × UV)}, DV.Ism h m us → us.map (·.1) = m.map (·.1)
  | [], us, hm => by simp only [DV.Ism] at hm; subst hm; rfl
  | (k, x) :: m, us, hm => by
    obtain ⟨u, r, rfl, _, h2⟩ := hm
    simp only [List.map_cons, Ism_keys h2]

theorem hasTyf_length {Ds : Defs} : ∀ {us : List UV} {fs : List (FInfo × Ty)}, UV.HasTyf Ds us fs → us.length = fs.length
  | [], fs, h => by simp only [UV.HasTyf] at h; subst h; rfl
  | u :: us, fs, h => by
    obtain ⟨i, t, r, rfl, _, h2⟩ := h
    simp only [List.length_cons, hasTyf_length h2]

theorem dict_match (hP : D.env.Ok) {id : Int} {xs : List (Bytes × J)} (hso : SMap.Sorted xs) (hpl : ∀ n fs, D.env.defs[n]? = some fs → PlainKeys (D.env.idx n) fs xs ∨ (DTy.struct n).Firm D)
    (hpS : S → ∀ n fs, D.env.defs[n]? = some fs → PlainKeys (D.env.idx n) fs xs) (hwf : ∀ k x, (k, x) ∈ xs → x.WF)
    (hL : ∀ k x, (k, x) ∈ xs → Lands D S x) (f : Nat) {a : Addr} {rs : SMap Ref} : ∀ (t : DTy) (h : Heap) (x : DV) (u : UV), (∀ t', t ≠ .ptr t') →
    h[a]? = some (.dict id rs) → J.Atf h (fun _ => True) xs rs → J.sizef xs ≤ f → t.ty.Valid D.env.defs → u.HasTy D.env.defs t.ty → x.Is h u → x.Blank D t →
    Matches D S h a t (dictD D a id rs (fun h => textH (f + 1) h (some a)) (unmD D f) t (D.alloc t h x).2 (D.alloc t h x).1)
      (dictInto id xs (fun t m => J.unmm D.env xs t m) (fun n vs => J.unmf D.env xs n vs) t.ty (D.env.alloc t.ty u)) := by
  intro t h x u hnp ho hat hz hv hu hx hb
  have hseen : (J.dict id xs).Seen h a := ⟨trivial, rs, ho, hat⟩
  cases t with
  | ptr t => exact absurd rfl (hnp t)
  | sc s =>
    have hup : u.IsPlain := ty_plain hu
    have := is_plain hup hx
    subst this
    have e : D.env.alloc s.ty u = u := by cases s <;> rfl
    have htx : textH (f + 1) h (some a) = .ok (J.dict id xs).toBytes := text_seen hseen (by simp only [J.size]; omega)
    simp only [DEnv.alloc, DTy.ty, e]
    cases s <;> simp only [dictD, dictInto, Sc.ty] <;> first
      | exact .err (List.prefix_refl _) ⟨rfl, hup⟩
      | skip
    simp only [htx, CRes.map]
    exact .ok (List.prefix_refl _) ⟨rfl, trivial⟩ shares_sc
  | obj => exact .ok (List.prefix_refl _) ⟨_, rfl, hseen⟩ (shares_obj ho (by intro h; cases h))
  | jptr k =>
    simp only [dictD]
    refine putPtr_agrees ho hseen (by intro h; cases h) k hu hx hb _ ?_
    cases k <;> simp only [convert, Obj.IsKind, DTy.ty, dictInto, true_and]
  | slice t => exact .err (List.prefix_refl _) hx
  | map t =>
    simp only [DEnv.alloc, DTy.ty, UEnv.alloc, dictD, dictInto]
    have hm : DV.Ism h x.entries u.entries ∧ SMap.Sorted u.entries := by
      rcases ty_map hu with rfl | ⟨m, rfl⟩
      · have := is_nil hx
        subst this
        exact ⟨rfl, List.Pairwise.nil⟩
      · obtain ⟨m', rfl, hm⟩ := is_map hx
        exact ⟨hm, hu.1⟩
    have hA := entries_match hP t hv f xs hL hso h rs x.entries u.entries hat hz (sorted_of_keys (Ism_keys hm.1).symm hm.2) hm.1
    cases hr : J.unmm D.env xs t.ty u.entries with
    | none => rw [hr] at hA; simp only at hA; simp only [hA, CRes.map, Option.map_none, Matches]
    | some q =>
      obtain ⟨us', e⟩ := q
      rw [hr] at hA
      obtain ⟨m', h', k1, k2, k3, k4, k5, k6⟩ := hA
      simp only [k1, CRes.map, Option.map_some, Matches]
      exact ⟨_, _, rfl, k2, ⟨_, rfl, k3⟩, fun he hS => shares_map ho k4 (k6 he hS)⟩
  | struct n =>
    obtain ⟨us, fs, rfl, hn, hf⟩ := ty_struct hu
    obtain ⟨vs, rfl, hi⟩ := is_struct hx
    simp only [DEnv.alloc, DTy.ty, UEnv.alloc, dictD, dictInto]
    have hn' : ∃ tys, D.defs[n]? = some tys ∧ fs = tys.map fun f => (f.1, f.2.ty) := by
      simp only [DEnv.env, List.getElem?_map] at hn
      cases hd : D.defs[n]? with
      | none => rw [hd] at hn; cases hn
      | some tys => rw [hd] at hn; cases hn; exact ⟨tys, rfl, rfl⟩
    obtain ⟨tys, hd, rfl⟩ := hn'
    by_cases hplain : PlainKeys (D.idx n) (tys.map fun f => (f.1, f.2.ty)) xs
    · have hlen : vs.length = tys.length := by rw [← Iss_length hi, hasTyf_length hf, List.length_map]
      have hA := fields_match hd (fun info t hm => hP.2.1 n _ hn info t.ty (List.mem_map.2 ⟨_, hm, rfl⟩)) f xs hL hplain h rs vs us hat hz hlen hi (by
        intro k j hm i info t u y _ e2 e3 e4
        exact ⟨hasTyf_at hf i e3 (by rw [List.getElem?_map, e2]; rfl), blank_field hb hd e2 e4⟩)
      cases hr : J.unmf D.env xs n us with
      | none => rw [hr] at hA; simp only at hA; simp only [hA, CRes.map, Option.map_none, Matches]
      | some q =>
        obtain ⟨us', es⟩ := q
        rw [hr] at hA
        obtain ⟨vs', h', k1, k2, k3, k4, k5⟩ := hA
        simp only [k1, CRes.map, Option.map_some, Matches]
        refine ⟨_, _, rfl, k2, ⟨_, rfl, k3⟩, fun he hS => ?_⟩
        have he' : es = [] := by cases es with
          | nil => rfl
          | cons => simp at he
        refine shares_struct ho hd hplain (fun k b hm => ?_) (k5 he' hS)
        obtain ⟨_, x, hx, _⟩ := Atf_of_mem hat _ hm
        exact ⟨x, hx⟩
    · have hfirm : (DTy.struct n).Firm D := (hpl n _ hn).resolve_left hplain
      have hA := fields_firm hP hd hfirm f xs hL hwf h rs vs us hat hz hi hf
      cases hr : J.unmf D.env xs n us with
      | none => rw [hr] at hA; simp only at hA; simp only [hA, CRes.map, Option.map_none, Matches]
      | some q =>
        obtain ⟨us', es⟩ := q
        rw [hr] at hA
        obtain ⟨vs', h', k1, k2, k3⟩ := hA
        simp only [k1, CRes.map, Option.map_some, Matches]
        exact ⟨_, _, rfl, k2, ⟨_, rfl, k3⟩, fun _ hS => absurd (hpS hS n _ hn) hplain⟩

theorem orderlyFors_get : ∀ {xs : List J}, J.OrderlyFors D xs → ∀ x ∈ xs, x.OrderlyFor D
  | [], _, x, hx => by cases hx
  | y :: ys, h, x, hx => by
    rcases List.mem_cons.1 hx with rfl | hx
    · exact h.1
    · exact orderlyFors_get h.2 x hx
theorem orderlyForf_get : ∀ {xs : List (Bytes × J)}, J.OrderlyForf D xs → ∀ k x, (k, x) ∈ xs → x.OrderlyFor D
  | [], _, k, x, hx => by cases hx
  | y :: ys, h, k, x, hx => by
    rcases List.mem_cons.1 hx with rfl | hx
    · exact h.1
    · exact orderlyForf_get h.2 k x hx
mutual
theorem plain_orderly : ∀ v : J, v.PlainFor D.env → v.OrderlyFor D
  | .arr xs, h => plain_orderlys xs h
  | .dict _ kvs, h => ⟨fun n fs hn => .inl (h.1 n fs hn), plain_orderlyf kvs h.2⟩
  | .null, _ => trivial
  | .bool _, _ => trivial
  | .int _, _ => trivial
  | .float _ _, _ => trivial
  | .str _, _ => trivial
  | .ptr _, _ => trivial
theorem plain_orderlys : ∀ xs : List J, J.PlainFors D.env xs → J.OrderlyFors D xs
  | [], _ => trivial
  | x :: xs, h => ⟨plain_orderly x h.1, plain_orderlys xs h.2⟩
theorem plain_orderlyf : ∀ xs : List (Bytes × J), J.PlainForf D.env xs → J.OrderlyForf D xs
  | [], _ => trivial
  | (_, x) :: xs, h => ⟨plain_orderly x h.1, plain_orderlyf xs h.2⟩
end

theorem plainFors_get {P : UEnv} : ∀ {xs : List J}, J.PlainFors P xs → ∀ x ∈ xs, x.PlainFor P
  | [], _, x, hx => by cases hx
  | y :: ys, h, x, hx => by
    rcases List.mem_cons.1 hx with rfl | hx
    · exact h.1
    · exact plainFors_get h.2 x hx
theorem plainForf_get {P : UEnv} : ∀ {xs : List (Bytes × J)}, J.PlainForf P xs → ∀ k x, (k, x) ∈ xs → x.PlainFor P
  | [], _, k, x, hx => by cases hx
  | y :: ys, h, k, x, hx => by
    rcases List.mem_cons.1 hx with rfl | hx
    · exact h.1
    · exact plainForf_get h.2 k x hx
theorem isSeq_ty (t : DTy) : t.ty.isSeq = t.isSeq := by
  cases t with
  | sc s => cases s <;> rfl
  | _ => rfl
theorem isStructOrMap_ty (t : DTy) : t.ty.isStructOrMap = t.isStructOrMap := by
  cases t with
  | sc s => cases s <;> rfl
  | _ => rfl

theorem lands_scalar (hP : D.env.Ok) {v : J} {o : Obj} (ho : o.IsScalar) (hv : o.scalar = v) (hw : v.WF) (hat : ∀ h a, v.Seen h a → h[a]? = some o)
    (hun : ∀ f t h a x, h[a]? = some o → unmD D (f + 1) t h (some a) x = putScalar D a o t (D.alloc t h x).2 (D.alloc t h x).1) : Lands D S v := by
  intro f h a t x u hs hz hval hu hx hb
  obtain ⟨f, rfl⟩ : ∃ g, f = g + 1 := ⟨f - 1, by have : 0 < v.size := (by cases v <;> simp only [J.size] <;> omega); omega⟩
  rw [hun f t h a x (hat h a hs)]
  subst hv
  exact scalar_agrees hP ho hw t h x u (hat h a hs) hval hu hx hb

theorem lands (hP : D.env.Ok) (v : J) : v.WF → v.OrderlyFor D → (S → v.PlainFor D.env) → v.NoPtr → Lands D S v := by
  induction v using J.ind with
  | null =>
    intro _ _ _ _ f h a t x u hs hz hval hu hx hb
    obtain ⟨f, rfl⟩ : ∃ g, f = g + 1 := ⟨f - 1, by simp only [J.size] at hz; omega⟩
    simp only [unmD, hs.2, J.unm]
    exact .ok (List.prefix_refl _) (zero_is h t) (shares_null hs.2 t)
  | bool b => intro hw _ _ _; exact lands_scalar (o := .bool b) hP trivial rfl hw (fun h a hs => hs.2) fun f t h a x ha => by simp only [unmD, ha]
  | int n => intro hw _ _ _; exact lands_scalar (o := .int n) hP trivial rfl hw (fun h a hs => hs.2) fun f t h a x ha => by simp only [unmD, ha]
  | float x b => intro hw _ _ _; exact lands_scalar (o := .float x b) hP trivial rfl hw (fun h a hs => hs.2) fun f t h a x ha => by simp only [unmD, ha]
  | str s => intro hw _ _ _; exact lands_scalar (o := .str s) hP trivial rfl hw (fun h a hs => hs.2) fun f t h a x ha => by simp only [unmD, ha]
  | ptr => intro _ _ _ hn; exact hn.elim
  | arr xs ih =>
    intro hw ho' hp hn f h a t x u hs hz hval hu hx hb
    obtain ⟨f, rfl⟩ : ∃ g, f = g + 1 := ⟨f - 1, by simp only [J.size] at hz; omega⟩
    have hL : ∀ x ∈ xs, Lands D S x := fun x hx => by
      obtain ⟨i, hi⟩ := List.getElem?_of_mem hx
      exact ih i x hi (wfs_get hw hi) (orderlyFors_get ho' x hx) (fun hS => plainFors_get (hp hS) x hx) (noPtrs_get hn hi)
    obtain ⟨_, rs, ho, hat⟩ := hs
    simp only [J.size] at hz
    simp only [unmD, ho, J.unm]
    have base := arr_match hP hL f (a := a) (rs := rs)
    cases t with
    | ptr t =>
      have main : ∀ (y : DV) (w : UV), w.HasTy D.env.defs t.ty → y.Is h w → y.Blank D t →
          Matches D S h a (.ptr t) (if t.isSeq = true then dptr (arrD D a rs (fun h => textH (f + 1) h (some a)) (unmD D f) t (D.alloc t h y).2 (D.alloc t h y).1)
              else derr (.ptr (D.alloc t h y).1) .mismatch (D.alloc t h y).2)
            (if t.ty.isSeq = true then uptr (arrInto D.env xs (fun t vs => J.unms D.env xs t vs) t.ty (D.env.alloc t.ty w)) else uerr (.ptr (D.env.alloc t.ty w)) .mismatch) := by
        intro y w hw hy hb
        rw [isSeq_ty]
        split
        · rename_i hseq
          exact (base t h y w (by rintro t' rfl; cases hseq) ho hat (by omega) hval hw hy hb).ptr
        · obtain ⟨h1, h2⟩ := alloc_is hP t h y w hval hw hy
          exact .err h1 ⟨_, rfl, h2⟩
      rcases ty_ptr hu with rfl | ⟨w, rfl, hwt⟩
      · have := is_nil hx
        subst this
        exact main (D.zero t) _ (zero_hasTy hP t.ty hval) (zero_is h t) (zero_blank t t)
      · obtain ⟨y, rfl, hy⟩ := is_pointer hx
        exact main y w hwt hy (blank_ptr hb)
    | sc s => have := base (.sc s) h x u (by intro t h; cases h) ho hat (by omega) hval hu hx hb; cases s <;> exact this
    | obj => exact base .obj h x u (by intro t h; cases h) ho hat (by omega) hval hu hx hb
    | jptr k => exact base (.jptr k) h x u (by intro t h; cases h) ho hat (by omega) hval hu hx hb
    | slice t => exact base (.slice t) h x u (by intro t h; cases h) ho hat (by omega) hval hu hx hb
    | map t => exact base (.map t) h x u (by intro t h; cases h) ho hat (by omega) hval hu hx hb
    | struct n => exact base (.struct n) h x u (by intro t h; cases h) ho hat (by omega) hval hu hx hb
  | dict id xs ih =>
    intro hw ho' hp hn f h a t x u hs hz hval hu hx hb
    obtain ⟨f, rfl⟩ : ∃ g, f = g + 1 := ⟨f - 1, by simp only [J.size] at hz; omega⟩
    have hL : ∀ k x, (k, x) ∈ xs → Lands D S x := fun k x hx => ih k x hx (wff_mem hw.2 hx) (orderlyForf_get ho'.2 k x hx) (fun hS => plainForf_get (hp hS).2 k x hx) (noPtrf_get hn hx)
    obtain ⟨_, rs, ho, hat⟩ := hs
    simp only [J.size] at hz
    simp only [unmD, ho, J.unm]
    have base := dict_match hP hw.1 ho'.1 (fun hS => (hp hS).1) (fun k x hx => wff_mem hw.2 hx) hL f (a := a) (rs := rs) (id := id)
    cases t with
    | ptr t =>
      have main : ∀ (y : DV) (w : UV), w.HasTy D.env.defs t.ty → y.Is h w → y.Blank D t →
          Matches D S h a (.ptr t) (if t.isStructOrMap = true then dptr (dictD D a id rs (fun h => textH (f + 1) h (some a)) (unmD D f) t (D.alloc t h y).2 (D.alloc t h y).1)
              else derr (.ptr (D.alloc t h y).1) .mismatch (D.alloc t h y).2)
            (if t.ty.isStructOrMap = true then uptr (dictInto id xs (fun t m => J.unmm D.env xs t m) (fun n vs => J.unmf D.env xs n vs) t.ty (D.env.alloc t.ty w))
              else uerr (.ptr (D.env.alloc t.ty w)) .mismatch) := by
        intro y w hw hy hb
        rw [isStructOrMap_ty]
        split
        · rename_i hseq
          exact (base t h y w (by rintro t' rfl; cases hseq) ho hat (by omega) hval hw hy hb).ptr
        · obtain ⟨h1, h2⟩ := alloc_is hP t h y w hval hw hy
          exact .err h1 ⟨_, rfl, h2⟩
      rcases ty_ptr hu with rfl | ⟨w, rfl, hwt⟩
      · have := is_nil hx
        subst this
        exact main (D.zero t) _ (zero_hasTy hP t.ty hval) (zero_is h t) (zero_blank t t)
      · obtain ⟨y, rfl, hy⟩ := is_pointer hx
        exact main y w hwt hy (blank_ptr hb)
    | sc s => have := base (.sc s) h x u (by intro t h; cases h) ho hat (by omega) hval hu hx hb; cases s <;> exact this
    | obj => exact base .obj h x u (by intro t h; cases h) ho hat (by omega) hval hu hx hb
    | jptr k => exact base (.jptr k) h x u (by intro t h; cases h) ho hat (by omega) hval hu hx hb
    | slice t => exact base (.slice t) h x u (by intro t h; cases h) ho hat (by omega) hval hu hx hb
    | map t => exact base (.map t) h x u (by intro t h; cases h) ho hat (by omega) hval hu hx hb
    | struct n => exact base (.struct n) h x u (by intro t h; cases h) ho hat (by omega) hval hu hx hb

end Jsonutils
