import Verif.Model.SharedText
import Verif.Spec.Heap
import Verif.Proofs.FloatRace

/-! # Lemmas about concurrent `String()` on shared documents -/

namespace Jsonutils

/-- The memory differs from `h0` in settled width fields only. -/
def Settled (h0 h : Heap) : Prop :=
  h.length = h0.length ∧ ∀ a : Nat, h[a]? = h0[a]? ∨ ∃ x bit, h0[a]? = some (.float x bit) ∧ h[a]? = some (.float x (floatBits bit))

mutual
/-- Bound on the steps of a goroutine on a document. -/
def J.textSteps : J → Nat
  | .float _ _ => 4
  | .arr xs => 3 + J.textStepss xs
  | .dict _ kvs => 3 + J.textStepsf kvs
  | _ => 2
def J.textStepss : List J → Nat
  | [] => 0
  | x :: xs => 1 + x.textSteps + J.textStepss xs
def J.textStepsf : List (Bytes × J) → Nat
  | [] => 0
  | (_, x) :: xs => 1 + x.textSteps + J.textStepsf xs
end

/-- `Does h0 h todo t n`: from the memory `h` (originally `h0`) the work `todo` writes `t` in at most `n` steps. -/
inductive Does (h0 h : Heap) : List Todo → Bytes → Nat → Prop where
  | nil : Does h0 h [] [] 0
  | text {b r t n} : Does h0 h r t n → Does h0 h (.text b :: r) (b ++ t) (n + 1)
  | node {a : Addr} {v : J} {r t n} : v.Seen h0 a → Does h0 h r t n → Does h0 h (.node (some a) :: r) (v.toBytes ++ t) (n + v.textSteps)
  | second {a : Addr} {x : GoFloat} {bit : Nat} {r t n} : h0[a]? = some (.float x bit) → bit ≠ 32 → Does h0 h r t n →
      Does h0 h (.second a :: r) (formatFloat x (floatBits bit) ++ t) (n + 3)
  | store {a : Addr} {x : GoFloat} {bit : Nat} {r t n} : h0[a]? = some (.float x bit) → bit ≠ 32 → bit ≠ 64 → Does h0 h r t n →
      Does h0 h (.store a :: r) (formatFloat x (floatBits bit) ++ t) (n + 2)
  | format {a : Addr} {x : GoFloat} {bit : Nat} {r t n} : h0[a]? = some (.float x bit) → h[a]? = some (.float x (floatBits bit)) → Does h0 h r t n →
      Does h0 h (.format a :: r) (formatFloat x (floatBits bit) ++ t) (n + 1)

theorem Does.mono {h0 h h' : Heap} (hs : ∀ (a : Nat) x bit, h0[a]? = some (.float x bit) → h[a]? = some (.float x (floatBits bit)) →
    h'[a]? = some (.float x (floatBits bit))) {l t n} (d : Does h0 h l t n) : Does h0 h' l t n := by
  induction d with
  | nil => exact .nil
  | text _ ih => exact .text ih
  | node hv _ ih => exact .node hv ih
  | second h1 h2 _ ih => exact .second h1 h2 ih
  | store h1 h2 h3 _ ih => exact .store h1 h2 h3 ih
  | format h1 h2 _ ih => exact .format h1 (hs _ _ _ h1 h2) ih

theorem does_arr {h0 h : Heap} : ∀ {xs : List J} {rs : List Ref} (first : Bool) {r t n}, J.Ats h0 (fun _ => True) xs rs → Does h0 h r t n →
    Does h0 h (arrTodo rs first ++ r) (J.arrBytes xs first ++ t) (n + J.textStepss xs)
  | [], rs, first, r, t, n, hx, d => by
    have : rs = [] := hx
    subst this
    simpa [arrTodo, J.arrBytes, J.textStepss] using d
  | x :: xs, rs, first, r, t, n, hx, d => by
    obtain ⟨b, rs', rfl, h1, h2⟩ := hx
    have := Does.text (b := if first then [] else [44]) (Does.node h1 (does_arr false h2 d))
    simp only [arrTodo, J.arrBytes, J.textStepss, List.cons_append, List.append_assoc]
    have e : n + (1 + x.textSteps + J.textStepss xs) = n + J.textStepss xs + x.textSteps + 1 := by omega
    rw [e]; exact this

theorem does_dict {h0 h : Heap} : ∀ {xs : List (Bytes × J)} {rs : SMap Ref} (first : Bool) {r t n}, J.Atf h0 (fun _ => True) xs rs → Does h0 h r t n →
    Does h0 h (dictTodo rs first ++ r) (J.dictBytes xs first ++ t) (n + J.textStepsf xs)
  | [], rs, first, r, t, n, hx, d => by
    have : rs = [] := hx
    subst this
    simpa [dictTodo, J.dictBytes, J.textStepsf] using d
  | (k, x) :: xs, rs, first, r, t, n, hx, d => by
    obtain ⟨b, rs', rfl, h1, h2⟩ := hx
    have := Does.text (b := (if first then [] else [44]) ++ quoteString k ++ [58]) (Does.node h1 (does_dict false h2 d))
    simp only [dictTodo, J.dictBytes, J.textStepsf, List.cons_append, List.append_assoc]
    have e : n + (1 + x.textSteps + J.textStepsf xs) = n + J.textStepsf xs + x.textSteps + 1 := by omega
    rw [e]
    simpa using this

theorem same_settled {h0 h : Heap} (hs : Settled h0 h) {a : Addr} {o : Obj} (ho : h0[a]? = some o) (hn : ∀ x bit, o ≠ .float x bit) :
    h[a]? = some o := by
  rcases hs.2 a with e | ⟨x, bit, e, _⟩
  · rw [e, ho]
  · rw [ho] at e; cases e; exact absurd rfl (hn x bit)

/-- The visit of an object. -/
theorem does_visit {h0 h : Heap} (hs : Settled h0 h) {v : J} {a : Addr} (hv : v.Seen h0 a) {r t n} (d : Does h0 h r t n) :
    ∃ o m, h[a]? = some o ∧ Does h0 h (o.todo a ++ r) (v.toBytes ++ t) m ∧ m + 1 ≤ n + v.textSteps := by
  have same : ∀ o, h0[a]? = some o → (∀ x bit, o ≠ .float x bit) → h[a]? = some o := by
    intro o ho hn
    rcases hs.2 a with e | ⟨x, bit, e, _⟩
    · rw [e, ho]
    · rw [ho] at e; cases e; exact absurd rfl (hn x bit)
  have one : ∀ o b, h0[a]? = some o → (∀ x bit, o ≠ .float x bit) → o.todo a = [.text b] → v.toBytes = b → v.textSteps = 2 →
      ∃ o m, h[a]? = some o ∧ Does h0 h (o.todo a ++ r) (v.toBytes ++ t) m ∧ m + 1 ≤ n + v.textSteps := by
    intro o b ho hn ht hb h2
    refine ⟨o, n + 1, same o ho hn, ?_, by omega⟩
    rw [ht, hb]; exact .text d
  cases v with
  | null => exact one _ _ hv.2 (by simp) rfl rfl rfl
  | bool b => cases b <;> exact one _ _ hv.2 (by simp) rfl rfl rfl
  | int n => exact one _ _ hv.2 (by simp) rfl rfl rfl
  | str n => exact one _ _ hv.2 (by simp) rfl rfl rfl
  | ptr n => exact one _ _ hv.2 (by simp) rfl rfl rfl
  | float x bit =>
    have h0a : h0[a]? = some (.float x bit) := hv.2
    have : ∃ b, h[a]? = some (.float x b) ∧ (b = bit ∨ b = floatBits bit) := by
      rcases hs.2 a with e | ⟨y, c, e, e2⟩
      · exact ⟨bit, by rw [e, h0a], Or.inl rfl⟩
      · rw [h0a] at e; cases e; exact ⟨_, e2, Or.inr rfl⟩
    obtain ⟨b, hb, hbb⟩ := this
    by_cases h32 : b = 32
    · have hfb : b = floatBits bit := by
        rcases hbb with e | e
        · rw [← e, h32]; rfl
        · exact e
      refine ⟨_, n + 1, hb, ?_, by simp [J.textSteps]⟩
      simp only [Obj.todo, h32, ne_eq, not_true, if_false, J.toBytes]
      exact .format h0a (by rw [hb, hfb]) d
    · refine ⟨_, n + 3, hb, ?_, by simp [J.textSteps]⟩
      simp only [Obj.todo, ne_eq, h32, not_false_iff, if_true, J.toBytes]
      refine .second h0a ?_ d
      rintro rfl
      rcases hbb with e | e
      · exact h32 e
      · exact h32 (by rw [e]; rfl)
  | arr xs =>
    obtain ⟨_, rs, ho, hr⟩ := hv
    refine ⟨_, n + 1 + J.textStepss xs + 1, same _ ho (by simp), ?_, ?_⟩
    · have := Does.text (b := [91]) (does_arr true hr (Does.text (b := [93]) d))
      simpa [Obj.todo, J.toBytes] using this
    · simp [J.textSteps]; omega
  | dict id kvs =>
    obtain ⟨_, rs, ho, hr⟩ := hv
    refine ⟨_, n + 1 + J.textStepsf kvs + 1, same _ ho (by simp), ?_, ?_⟩
    · simp only [Obj.todo, J.toBytes]
      split
      · have := Does.text (b := 123 :: (quoteString jsonPointerKey ++ 58 :: intDec id)) (does_dict false hr (Does.text (b := [125]) d))
        simpa using this
      · have := Does.text (b := [123]) (does_dict true hr (Does.text (b := [125]) d))
        simpa using this
    · simp [J.textSteps]; omega

/-- One step of a goroutine: memory stays settled, nobody else's work is disturbed, and the goroutine itself gets closer. -/
theorem step_does {h0 h : Heap} (hs : Settled h0 h) {w : Writer} {t : Bytes} {n : Nat} (d : Does h0 h w.todo t n) :
    Settled h0 (w.step h).1 ∧
    (∀ (a : Nat) x bit, h0[a]? = some (.float x bit) → h[a]? = some (.float x (floatBits bit)) →
      (w.step h).1[a]? = some (.float x (floatBits bit))) ∧
    ∃ t' m, Does h0 (w.step h).1 (w.step h).2.todo t' m ∧ (w.step h).2.out ++ t' = w.out ++ t ∧ m ≤ n - 1 := by
  obtain ⟨out, todo⟩ := w
  have idm : ∀ (a : Nat) x bit, h0[a]? = some (.float x bit) → h[a]? = some (.float x (floatBits bit)) → h[a]? = some (.float x (floatBits bit)) :=
    fun _ _ _ _ h => h
  cases d with
  | nil => exact ⟨hs, idm, [], 0, .nil, by simp [Writer.step], by simp⟩
  | text d => exact ⟨hs, idm, _, _, d, by simp [Writer.step], by simp⟩
  | @node a v r t' n' hv d =>
    obtain ⟨o, m, h1, h2, h3⟩ := does_visit hs hv d
    have e : Writer.step h ⟨out, .node (some a) :: r⟩ = (h, ⟨out, o.todo a ++ r⟩) := by simp only [Writer.step, h1]
    rw [e]
    exact ⟨hs, idm, _, m, h2, rfl, by omega⟩
  | @second a x bit r t' n' h1 h2 d =>
    rcases hs.2 a with e | ⟨y, c, e, e2⟩
    · rw [h1] at e
      by_cases h64 : bit = 64
      · have e' : Writer.step h ⟨out, .second a :: r⟩ = (h, ⟨out, .format a :: r⟩) := by simp [Writer.step, e, h64]
        rw [e']
        exact ⟨hs, idm, _, _, .format h1 (by rw [e, h64]; rfl) d, rfl, by omega⟩
      · have e' : Writer.step h ⟨out, .second a :: r⟩ = (h, ⟨out, .store a :: r⟩) := by simp [Writer.step, e, h64]
        rw [e']
        exact ⟨hs, idm, _, _, .store h1 h2 h64 d, rfl, by omega⟩
    · rw [h1] at e; cases e
      have h64 : floatBits bit = 64 := by unfold floatBits; split <;> simp_all
      have e' : Writer.step h ⟨out, .second a :: r⟩ = (h, ⟨out, .format a :: r⟩) := by simp [Writer.step, e2, h64]
      rw [e']
      exact ⟨hs, idm, _, _, .format h1 e2 d, rfl, by omega⟩
  | @store a x bit r t' n' h1 h2 h3 d =>
    have hf : floatBits bit = 64 := by simp [floatBits, h2, h3]
    have hx : ∃ b, h[a]? = some (.float x b) := by
      rcases hs.2 a with e | ⟨y, c, e, e2⟩
      · exact ⟨bit, by rw [e, h1]⟩
      · rw [h1] at e; cases e; exact ⟨_, e2⟩
    obtain ⟨b, hb⟩ := hx
    have ha : a < h.length := by
      obtain ⟨h', _⟩ := List.getElem?_eq_some_iff.1 hb; exact h'
    have e' : Writer.step h ⟨out, .store a :: r⟩ = (h.set a (.float x 64), ⟨out, .format a :: r⟩) := by simp only [Writer.step, hb]
    have get : ∀ c : Nat, (h.set a (.float x 64))[c]? = if a = c then some (.float x 64) else h[c]? := by
      intro c
      rw [List.getElem?_set]
      split
      · simp
      · rfl
    have keep : ∀ (c : Nat) y bit', h0[c]? = some (.float y bit') → h[c]? = some (.float y (floatBits bit')) →
        (h.set a (.float x 64))[c]? = some (.float y (floatBits bit')) := by
      intro c y bit' g1 g2
      rw [get]
      split
      · rename_i ec; subst ec
        rw [h1] at g1; cases g1
        rw [hf]
      · exact g2
    rw [e']
    refine ⟨⟨by simpa using hs.1, fun c => ?_⟩, keep, _, _, .format (bit := bit) h1 ?_ (d.mono keep), rfl, by omega⟩
    · rw [get]
      split
      · rename_i ec; subst ec
        exact Or.inr ⟨x, bit, h1, by rw [hf]⟩
      · exact hs.2 c
    · show (h.set a (.float x 64))[a]? = _
      rw [get, hf]; simp
  | @format a x bit r t' n' h1 h2 d =>
    have e' : Writer.step h ⟨out, .format a :: r⟩ = (h, ⟨out ++ formatFloat x (floatBits bit), r⟩) := by simp only [Writer.step, h2]
    rw [e']
    exact ⟨hs, idm, _, _, d, by simp, by simp⟩

/-- Every goroutine is on its way to its own text. -/
def ReadersInv (h0 : Heap) (goal : Nat → Bytes) (fuel : Nat → Nat) (s : Readers) : Prop :=
  Settled h0 s.mem ∧ ∀ i w, s.ws[i]? = some w → ∃ t n, Does h0 s.mem w.todo t n ∧ w.out ++ t = goal i ∧ n ≤ fuel i

theorem run1_inv {h0 : Heap} {goal : Nat → Bytes} {fuel : Nat → Nat} {s : Readers} (hi : ReadersInv h0 goal fuel s) (i : Nat) :
    ReadersInv h0 goal (fun j => if j = i then fuel j - 1 else fuel j) (s.run1 i) := by
  unfold Readers.run1
  cases hw : s.ws[i]? with
  | none =>
    refine ⟨hi.1, fun j w hj => ?_⟩
    have : j ≠ i := by rintro rfl; rw [hw] at hj; cases hj
    simpa [this] using hi.2 j w hj
  | some w =>
    obtain ⟨t, n, hd, he, hn⟩ := hi.2 i w hw
    obtain ⟨h1, h2, t', m, h3, h4, h5⟩ := step_does hi.1 hd
    refine ⟨h1, fun j w' hj => ?_⟩
    have hj' : (s.ws.set i (w.step s.mem).2)[j]? = some w' := hj
    rw [List.getElem?_set] at hj'
    by_cases e : i = j
    · subst e
      have hl : i < s.ws.length := (List.getElem?_eq_some_iff.1 hw).1
      simp [hl] at hj'
      subst hj'
      exact ⟨t', m, h3, by rw [h4, he], by simp only [if_true]; omega⟩
    · rw [if_neg e] at hj'
      obtain ⟨t2, n2, g1, g2, g3⟩ := hi.2 j w' hj'
      refine ⟨t2, n2, g1.mono h2, g2, ?_⟩
      have : j ≠ i := fun h => e h.symm
      simpa [this] using g3

theorem run_inv {h0 : Heap} {goal : Nat → Bytes} : ∀ (sched : List Nat) {fuel : Nat → Nat} {s : Readers}, ReadersInv h0 goal fuel s →
    ReadersInv h0 goal (fun j => fuel j - sched.count j) (s.run sched)
  | [], fuel, s, h => by simpa [Readers.run] using h
  | i :: sched, fuel, s, h => by
    have := run_inv sched (run1_inv h i)
    have e : (s.run (i :: sched)) = (s.run1 i).run sched := rfl
    rw [e]
    refine ⟨this.1, fun j w hj => ?_⟩
    obtain ⟨t, n, h1, h2, h3⟩ := this.2 j w hj
    refine ⟨t, n, h1, h2, ?_⟩
    by_cases ej : j = i
    · subst ej; simp at h3 ⊢; omega
    · have : i ≠ j := fun h => ej h.symm
      simp [ej] at h3; simp [this]; omega

theorem init_inv {h : Heap} {roots : List Addr} {docs : List J} (hl : docs.length = roots.length)
    (hd : ∀ (i : Nat) v a, docs[i]? = some v → roots[i]? = some a → v.Seen h a) :
    ReadersInv h (fun i => match docs[i]? with | some v => v.toBytes | none => []) (fun i => match docs[i]? with | some v => v.textSteps | none => 0)
      (Readers.init h roots) := by
  refine ⟨⟨rfl, fun a => Or.inl rfl⟩, fun i w hw => ?_⟩
  simp only [Readers.init, List.getElem?_map] at hw
  cases hr : roots[i]? with
  | none => rw [hr] at hw; cases hw
  | some a =>
    rw [hr] at hw
    simp at hw
    subst hw
    have hi : i < docs.length := by rw [hl]; exact (List.getElem?_eq_some_iff.1 hr).1
    have hv : docs[i]? = some docs[i] := List.getElem?_eq_getElem hi
    have := Does.node (h := h) (hd i _ a hv hr) .nil
    refine ⟨_, _, this, ?_, ?_⟩
    · simp [hv]
    · simp [hv]

mutual
/-- Documents in a memory whose widths have been settled: the same text. -/
theorem seen_settled {h0 h : Heap} (hs : Settled h0 h) : ∀ (v : J) (a : Addr), v.Seen h0 a → ∃ v' : J, v'.Seen h a ∧ v'.toBytes = v.toBytes
  | .null, a, hv => ⟨.null, ⟨trivial, same_settled hs hv.2 (by simp)⟩, rfl⟩
  | .bool b, a, hv => ⟨.bool b, ⟨trivial, same_settled hs hv.2 (by simp)⟩, rfl⟩
  | .int n, a, hv => ⟨.int n, ⟨trivial, same_settled hs hv.2 (by simp)⟩, rfl⟩
  | .str s, a, hv => ⟨.str s, ⟨trivial, same_settled hs hv.2 (by simp)⟩, rfl⟩
  | .ptr n, a, hv => ⟨.ptr n, ⟨trivial, same_settled hs hv.2 (by simp)⟩, rfl⟩
  | .float x bit, a, hv => by
    rcases hs.2 a with e | ⟨y, c, e, e2⟩
    · exact ⟨.float x bit, ⟨trivial, by rw [e]; exact hv.2⟩, rfl⟩
    · have := hv.2
      rw [e] at this; cases this
      exact ⟨.float x (floatBits bit), ⟨trivial, e2⟩, by simp only [J.toBytes, floatBits_idem]⟩
  | .arr xs, a, hv => by
    obtain ⟨_, rs, h1, h2⟩ := hv
    obtain ⟨xs', h3, h4⟩ := seens_settled hs xs rs h2
    exact ⟨.arr xs', ⟨trivial, rs, same_settled hs h1 (by simp), h3⟩, by simp only [J.toBytes, h4]⟩
  | .dict id kvs, a, hv => by
    obtain ⟨_, rs, h1, h2⟩ := hv
    obtain ⟨xs', h3, h4⟩ := seenf_settled hs kvs rs h2
    exact ⟨.dict id xs', ⟨trivial, rs, same_settled hs h1 (by simp), h3⟩, by simp only [J.toBytes, h4]⟩
theorem seens_settled {h0 h : Heap} (hs : Settled h0 h) : ∀ (xs : List J) (rs : List Ref), J.Ats h0 (fun _ => True) xs rs →
    ∃ xs', J.Ats h (fun _ => True) xs' rs ∧ ∀ first, J.arrBytes xs' first = J.arrBytes xs first
  | [], rs, hx => ⟨[], hx, fun _ => rfl⟩
  | x :: xs, rs, hx => by
    obtain ⟨b, rs', rfl, h1, h2⟩ := hx
    obtain ⟨x', g1, g2⟩ := seen_settled hs x b h1
    obtain ⟨xs', g3, g4⟩ := seens_settled hs xs rs' h2
    exact ⟨x' :: xs', ⟨b, rs', rfl, g1, g3⟩, fun first => by simp only [J.arrBytes, g2, g4]⟩
theorem seenf_settled {h0 h : Heap} (hs : Settled h0 h) : ∀ (xs : List (Bytes × J)) (rs : SMap Ref), J.Atf h0 (fun _ => True) xs rs →
    ∃ xs', J.Atf h (fun _ => True) xs' rs ∧ ∀ first, J.dictBytes xs' first = J.dictBytes xs first
  | [], rs, hx => ⟨[], hx, fun _ => rfl⟩
  | (k, x) :: xs, rs, hx => by
    obtain ⟨b, rs', rfl, h1, h2⟩ := hx
    obtain ⟨x', g1, g2⟩ := seen_settled hs x b h1
    obtain ⟨xs', g3, g4⟩ := seenf_settled hs xs rs' h2
    exact ⟨(k, x') :: xs', ⟨b, rs', rfl, g1, g3⟩, fun first => by simp only [J.dictBytes, g2, g4]⟩
end

theorem does_done {h0 h : Heap} {t n} (d : Does h0 h [] t n) : t = [] := by cases d; rfl

theorem does_zero {h0 h : Heap} {l t n} (d : Does h0 h l t n) (hn : n = 0) : l = [] := by
  cases d with
  | nil => rfl
  | @node a v r t' n' hv d =>
    have : 0 < v.textSteps := by cases v <;> simp [J.textSteps] <;> omega
    omega
  | _ => omega

end Jsonutils
