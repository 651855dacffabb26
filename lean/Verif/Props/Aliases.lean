import Verif.Proofs.Aliases
import Verif.Props.UnmarshalMore

/-!
# C90: fields under several names

`d.unm P (.struct n) (.struct vs)`: the document `d` meets a struct of type `n` with the fields `vs`.  `Touches idx tys k q`: the key `k`
stands for field `q`, directly or through deprecated-by options.
-/

namespace Jsonutils.Props

variable {P : UEnv}

/-- **C90.** A dictionary is unmarshalled into a struct without errors, and no field is matched by two of the keys that one key leads to.
Then into every field go the documents of all keys that stand for it, under old names and new ones, one after the other in the order in
which the dictionary holds its keys, and nothing else. -/
theorem C90_fed {id : Int} {kvs : SMap J} {n : Nat} {vs : List UV} {r : UV} (ho : ∀ k j, (k, j) ∈ kvs → OneName (P.idx n) (P.defs.getD n []) k)
    (h : (J.dict id kvs).unm P (.struct n) (.struct vs) = some (r, none)) :
    ∃ ws, r = .struct ws ∧ ws.length = vs.length ∧
      ∀ (q : Nat) (info : FInfo) (t : Ty) (v : UV), (P.defs.getD n [])[q]? = some (info, t) → vs[q]? = some v →
        ∃ w, ws[q]? = some w ∧ Fed P t (fun k => Touches (P.idx n) (P.defs.getD n []) k q) kvs v w := by
  obtain ⟨ws, es, hu, rfl, he⟩ := unm_struct h
  cases es with
  | cons => cases he
  | nil => exact ⟨ws, rfl, unmf_length _ _ _ hu, fun q info t v h1 h2 => unmf_fed h1 kvs vs ws v ho hu h2⟩

theorem overwritten_same {j : J} (hj : ∀ id, j ≠ .ptr id) {t : Ty} (ht : t.Overwritten) (he : j = .str [] → t = .string ∨ t = .bool) {v w : UV}
    (h : j.unm P t v = uok w) (v' : UV) : j.unm P t v' = uok w := by
  cases j with
  | null => simpa only [J.unm] using h
  | ptr id => exact absurd rfl (hj id)
  | int n => cases t <;> first | exact ht.elim | exact h
  | bool b => cases t <;> first | exact ht.elim | exact h
  | float x b => cases t <;> first | exact ht.elim | exact h
  | arr xs => cases t <;> first | exact ht.elim | exact h | exact (uerr_ok h).elim
  | dict id kvs => cases t <;> first | exact ht.elim | exact h | exact (uerr_ok h).elim
  | str s =>
    have hs : t ≠ .string → t ≠ .bool → s.isEmpty = false := by
      intro h1 h2
      cases s with
      | nil => rcases he rfl with h | h
               · exact absurd h h1
               · exact absurd h h2
      | cons => rfl
    cases t with
    | bool => exact h
    | string => exact h
    | int b =>
      simp only [J.unm, UEnv.alloc, unmStr, hs (by simp) (by simp), Bool.false_eq_true, if_false] at h ⊢
      split at h
      · exact h
      · exact (uerr_ok h).elim
    | uint b =>
      simp only [J.unm, UEnv.alloc, unmStr, hs (by simp) (by simp), Bool.false_eq_true, if_false] at h ⊢
      split at h
      · exact h
      · exact (uerr_ok h).elim
    | float32 =>
      simp only [J.unm, UEnv.alloc, unmStr, hs (by simp) (by simp), Bool.false_eq_true, if_false] at h ⊢
      split at h
      · exact h
      · exact (uerr_ok h).elim
    | float64 =>
      simp only [J.unm, UEnv.alloc, unmStr, hs (by simp) (by simp), Bool.false_eq_true, if_false] at h ⊢
      split at h
      · exact h
      · exact (uerr_ok h).elim
    | _ => exact ht.elim

theorem fed_skip {t : Ty} {sel : Bytes → Prop} : ∀ {l : List (Bytes × J)} {v w : UV}, (∀ k j, (k, j) ∈ l → ¬ sel k) → Fed P t sel l v w → w = v
  | _, _, _, _, .nil _ => rfl
  | _, _, _, h, .skip _ h2 => fed_skip (fun k j hm => h k j (List.mem_cons_of_mem _ hm)) h2
  | _, _, _, h, .feed h1 _ _ => absurd h1 (h _ _ (List.mem_cons_self ..))

theorem fed_last {t : Ty} {sel : Bytes → Prop} {k : Bytes} {j : J} {b : List (Bytes × J)} (hk : sel k) (hb : ∀ k' j', (k', j') ∈ b → ¬ sel k') :
    ∀ (a : List (Bytes × J)) {v w : UV}, Fed P t sel (a ++ (k, j) :: b) v w → ∃ v', j.unm P t v' = uok w
  | [], _, _, .skip h _ => absurd hk h
  | [], v, _, .feed _ h1 h2 => by rw [fed_skip hb h2]; exact ⟨v, h1⟩
  | _ :: a, _, _, .skip _ h => fed_last hk hb a h
  | _ :: a, _, _, .feed _ _ h => fed_last hk hb a h

/-- **C90, the last key wins.** A boolean, number or text ends as what the last of these keys holds; whatever it was, and whatever the other
keys hold. -/
theorem C90_last {id : Int} {a b : SMap J} {k : Bytes} {j : J} {n : Nat} {vs : List UV} {r : UV}
    (ho : ∀ k' j', (k', j') ∈ a ++ (k, j) :: b → OneName (P.idx n) (P.defs.getD n []) k')
    (h : (J.dict id (a ++ (k, j) :: b)).unm P (.struct n) (.struct vs) = some (r, none))
    {q : Nat} {info : FInfo} {t : Ty} (hq : (P.defs.getD n [])[q]? = some (info, t)) (hv : q < vs.length) (ht : t.Overwritten)
    (hk : Touches (P.idx n) (P.defs.getD n []) k q) (hb : ∀ k' j', (k', j') ∈ b → ¬ Touches (P.idx n) (P.defs.getD n []) k' q)
    (hj : ∀ id, j ≠ .ptr id) (he : j = .str [] → t = .string ∨ t = .bool) :
    ∃ ws w, r = .struct ws ∧ ws[q]? = some w ∧ ∀ v, j.unm P t v = uok w := by
  obtain ⟨ws, rfl, _, g⟩ := C90_fed ho h
  obtain ⟨w, h1, h2⟩ := g q info t _ hq (List.getElem?_eq_getElem hv)
  obtain ⟨v', h3⟩ := fed_last hk hb a h2
  exact ⟨ws, w, rfl, h1, overwritten_same hj ht he h3⟩

/-- **C90, one name.** A key that is the only one in the dictionary to stand for the field fills it as if it were the field's own name. -/
theorem C90_alone {id : Int} {a b : SMap J} {k : Bytes} {j : J} {n : Nat} {vs : List UV} {r : UV}
    (ho : ∀ k' j', (k', j') ∈ a ++ (k, j) :: b → OneName (P.idx n) (P.defs.getD n []) k')
    (h : (J.dict id (a ++ (k, j) :: b)).unm P (.struct n) (.struct vs) = some (r, none))
    {q : Nat} {info : FInfo} {t : Ty} {v : UV} (hq : (P.defs.getD n [])[q]? = some (info, t)) (hv : vs[q]? = some v)
    (hk : Touches (P.idx n) (P.defs.getD n []) k q) (hab : ∀ k' j', (k', j') ∈ a ++ b → ¬ Touches (P.idx n) (P.defs.getD n []) k' q) :
    ∃ ws w, r = .struct ws ∧ ws[q]? = some w ∧ j.unm P t v = uok w := by
  obtain ⟨ws, rfl, _, g⟩ := C90_fed ho h
  obtain ⟨w, h1, h2⟩ := g q info t v hq hv
  refine ⟨ws, w, rfl, h1, ?_⟩
  clear h ho g h1
  induction a with
  | nil =>
    cases h2 with
    | skip h _ => exact absurd hk h
    | feed _ h3 h4 => rw [fed_skip (fun k' j' hm => hab k' j' hm) h4]; exact h3
  | cons p a ih =>
    cases h2 with
    | skip _ h => exact ih (fun k' j' hm => hab k' j' (List.mem_cons_of_mem _ hm)) h
    | feed h3 _ _ => exact absurd h3 (hab _ _ (List.mem_cons_self ..))

/-! ### An example -/

/-- `struct { Project string; ProjectId string "deprecated-by:project"; Tenant string "deprecated-by:project_id" }`. -/
def exNames : UEnv where
  defs := [[({ name := b!"project" }, .string), ({ name := b!"project_id", deprecatedBy := some b!"project" }, .string),
    ({ name := b!"tenant", deprecatedBy := some b!"project_id" }, .string)]]
  idx := fun _ k => if k = b!"project" then [0] else if k = b!"project_id" then [1] else if k = b!"tenant" then [2] else []
  toBool := fun _ => false
  us := fun _ => false
  eu := fun _ => false
  trunc := fun _ => 0

theorem exNames_idx {k : Bytes} {i : Nat} (h : i ∈ exNames.idx 0 k) :
    (k = b!"project" ∧ i = 0) ∨ (k = b!"project_id" ∧ i = 1) ∨ (k = b!"tenant" ∧ i = 2) := by
  simp only [exNames] at h
  split at h
  · simp at h; exact .inl ⟨by assumption, h⟩
  · split at h
    · simp at h; exact .inr (.inl ⟨by assumption, h⟩)
    · split at h
      · simp at h; exact .inr (.inr ⟨by assumption, h⟩)
      · cases h

theorem exNames_one (k : Bytes) : OneName (exNames.idx 0) (exNames.defs.getD 0 []) k := by
  refine ⟨fun k1 _ => ?_, fun k1 k2 i _ _ h1 h2 => ?_⟩
  · simp only [exNames]; split
    · simp
    · split
      · simp
      · split <;> simp
  · rcases exNames_idx h1 with ⟨rfl, rfl⟩ | ⟨rfl, rfl⟩ | ⟨rfl, rfl⟩ <;> rcases exNames_idx h2 with ⟨rfl, h⟩ | ⟨rfl, h⟩ | ⟨rfl, h⟩ <;> first | rfl | cases h

/-- A document of a program that knows the oldest name only fills all three fields. -/
example : (J.dict 0 [(b!"tenant", .str b!"t")]).unm exNames (.struct 0) (.struct [.str b!"x", .str b!"y", .str b!"z"]) =
    some (.struct [.str b!"t", .str b!"t", .str b!"t"], none) := rfl

/-- **C90, an old name can win over the new one.** In this document the key `tenant` comes last: its value replaces that of `project`. -/
theorem C90_old_wins : (J.dict 0 [(b!"project", .str b!"new"), (b!"tenant", .str b!"old")]).unm exNames (.struct 0) (.struct [.str [], .str [], .str []]) =
    some (.struct [.str b!"old", .str b!"old", .str b!"old"], none) := rfl

example : (∀ k j, (k, j) ∈ [(b!"project", J.str b!"new"), (b!"tenant", J.str b!"old")] → OneName (exNames.idx 0) (exNames.defs.getD 0 []) k) ∧
    Touches (exNames.idx 0) (exNames.defs.getD 0 []) b!"tenant" 0 ∧ Ty.string.Overwritten :=
  ⟨fun k _ _ => exNames_one k, .there (i' := 2) (by simp [exNames]) rfl rfl (.there (i' := 1) (by simp [exNames]) rfl rfl (.here (by simp [exNames]))), trivial⟩

end Jsonutils.Props
