import Verif.Spec.Parse
import Verif.Proofs.Pretty

/-! `ParseStream` offsets and `ParseJsonStreams`. -/

set_option linter.unusedSimpArgs false

namespace Jsonutils

theorem parseStream_ok_bounds {str : Bytes} {offset off : Nat} {v : J} (h : parseStream str offset = .ok v off) :
    offset < off ∧ off ≤ str.length := by
  unfold parseStream at h
  cases hs : skipEmpty (str.drop offset) with
  | nil => rw [hs] at h; simp at h
  | cons c t =>
    rw [hs] at h
    simp only at h
    have hst := parseVal_strict {} (c :: t)
    have hle := (skipEmpty_suffix (str.drop offset)).length_le
    rw [hs] at hle
    cases hp : parseVal (parseFuel (c :: t)) {} (c :: t) with
    | ok a r =>
      obtain ⟨v', s'⟩ := a
      rw [hp] at h hst
      simp only [SR.ok.injEq] at h
      obtain ⟨hsuf, hlt⟩ := hst
      simp at hle hlt
      omega
    | err e r => rw [hp] at h; simp at h
    | panic p => rw [hp] at h; simp at h
    | fuel => rw [hp] at h; simp at h

theorem parseStream_err_bounds {str : Bytes} {offset off : Nat} {e : PErr} (h0 : offset ≤ str.length)
    (h : parseStream str offset = .err e off) : offset ≤ off ∧ off ≤ str.length := by
  unfold parseStream at h
  cases hs : skipEmpty (str.drop offset) with
  | nil => rw [hs] at h; simp at h; omega
  | cons c t =>
    rw [hs] at h
    simp only at h
    have hst := parseVal_strict {} (c :: t)
    have hle := (skipEmpty_suffix (str.drop offset)).length_le
    rw [hs] at hle
    cases hp : parseVal (parseFuel (c :: t)) {} (c :: t) with
    | ok a r => rw [hp] at h; simp at h
    | err e' r =>
      rw [hp] at h hst
      simp only [SR.err.injEq] at h
      have := List.IsSuffix.length_le hst
      simp at hle this
      omega
    | panic p => rw [hp] at h; simp at h
    | fuel => rw [hp] at h; simp at h

theorem parseStream_ne_diverge (str : Bytes) (offset : Nat) : parseStream str offset ≠ .diverge := by
  unfold parseStream
  cases hs : skipEmpty (str.drop offset) with
  | nil => simp
  | cons c t =>
    simp only
    have := parseVal_ne_fuel {} (c :: t)
    cases hp : parseVal (parseFuel (c :: t)) {} (c :: t) with
    | ok a r => simp
    | err e' r => simp
    | panic p => simp
    | fuel => exact absurd hp this

theorem dropWhile_length_le (p : UInt8 → Bool) (l : Bytes) : (l.dropWhile p).length ≤ l.length :=
  (List.dropWhile_suffix p).length_le

theorem streamsLoop_terminates (f : Nat) (stream : Bytes) (ret : List J) (errs : Nat) (h : stream.length < f) :
    (∀ (_ : streamsLoop f stream ret errs = .diverge), False) := by
  induction f generalizing stream ret errs with
  | zero => omega
  | succ f ih =>
    intro hd
    rw [streamsLoop] at hd
    have hle := dropWhile_length_le (fun c => c != 91 && c != 123) stream
    cases hs : stream.dropWhile (fun c => c != 91 && c != 123) with
    | nil => rw [hs] at hd; simp only at hd; split at hd <;> simp at hd
    | cons c cs =>
      rw [hs] at hd hle
      simp only at hd
      cases hp : parseStream (c :: cs) 0 with
      | ok v off =>
        rw [hp] at hd
        have := parseStream_ok_bounds hp
        refine ih _ _ _ ?_ hd
        simp at hle ⊢; omega
      | err e off =>
        rw [hp] at hd
        refine ih _ _ _ ?_ hd
        simp at hle; omega
      | panic p => rw [hp] at hd; simp at hd
      | diverge => exact parseStream_ne_diverge _ _ hp

/-- Fuel beyond the stream length is irrelevant. -/
theorem streamsLoop_mono (f g : Nat) (hfg : f ≤ g) (stream : Bytes) (ret : List J) (errs : Nat)
    (h : streamsLoop f stream ret errs ≠ .diverge) : streamsLoop g stream ret errs = streamsLoop f stream ret errs := by
  induction f generalizing g stream ret errs with
  | zero => simp [streamsLoop] at h
  | succ f ih =>
    obtain ⟨g, rfl⟩ : ∃ g', g = g' + 1 := ⟨g - 1, by omega⟩
    rw [streamsLoop] at h
    rw [streamsLoop, streamsLoop]
    cases hs : stream.dropWhile (fun c => c != 91 && c != 123) with
    | nil => rfl
    | cons c cs =>
      rw [hs] at h
      simp only at h ⊢
      cases hp : parseStream (c :: cs) 0 with
      | ok v off => rw [hp] at h; exact ih g (by omega) _ _ _ h
      | err e off => rw [hp] at h; exact ih g (by omega) _ _ _ h
      | panic p => rfl
      | diverge => rfl

theorem dropWhile_sep (sep t : Bytes) (h : ∀ c ∈ sep, c ≠ 91 ∧ c ≠ 123) (ht : ∃ c u, t = c :: u ∧ (c = 91 ∨ c = 123)) :
    (sep ++ t).dropWhile (fun c => c != 91 && c != 123) = t := by
  induction sep with
  | nil => obtain ⟨c, u, rfl, rfl | rfl⟩ := ht <;> simp
  | cons c sep ih =>
    have := h c (by simp)
    simp [this, ih (fun d hd => h d (by simp [hd]))]

theorem dropWhile_all (sep : Bytes) (h : ∀ c ∈ sep, c ≠ 91 ∧ c ≠ 123) :
    sep.dropWhile (fun c => c != 91 && c != 123) = [] := by
  induction sep with
  | nil => rfl
  | cons c sep ih =>
    have := h c (by simp)
    simp [this, ih (fun d hd => h d (by simp [hd]))]

theorem toBytes_container (v : J) (h : v.isDictOrArr = true) :
    ∃ c u, v.toBytes = c :: u ∧ (c = 91 ∨ c = 123) := by
  cases v <;> simp [J.isDictOrArr] at h
  · exact ⟨91, _, by rw [J.toBytes], Or.inl rfl⟩
  · rw [J.toBytes]; split
    · exact ⟨123, _, rfl, Or.inr rfl⟩
    · exact ⟨123, _, rfl, Or.inr rfl⟩

theorem closed_of_container {v : J} (h : v.isDictOrArr = true) : v.closed = true := by
  cases v <;> simp_all [J.isDictOrArr, J.closed]

theorem streams_concat (items : List (Bytes × J)) (tail : Bytes) (ret : List J)
    (hdocs : ∀ it ∈ items, it.2.isDictOrArr = true ∧ it.2.WF ∧ it.2.Refable ∧ it.2.nodeIds.Nodup)
    (hsep : ∀ it ∈ items, ∀ c ∈ it.1, c ≠ 91 ∧ c ≠ 123) (htail : ∀ c ∈ tail, c ≠ 91 ∧ c ≠ 123) :
    ∃ f, streamsLoop f (items.flatMap (fun it => it.1 ++ it.2.toBytes) ++ tail) ret 0 =
      .ok (ret ++ items.map (fun it => it.2.reread)) := by
  induction items generalizing ret with
  | nil =>
    refine ⟨1, ?_⟩
    rw [streamsLoop]
    simp only [List.flatMap_nil, List.nil_append, dropWhile_all tail htail]
    simp
  | cons it items ih =>
    obtain ⟨sep, v⟩ := it
    obtain ⟨h1, h2, h3, h4⟩ := hdocs (sep, v) (by simp)
    obtain ⟨f, h⟩ := ih (ret ++ [v.reread]) (fun it h => hdocs it (by simp [h])) (fun it h => hsep it (by simp [h]))
    refine ⟨f + 1, ?_⟩
    rw [streamsLoop]
    obtain ⟨c, u, hcu, hc⟩ := toBytes_container v h1
    simp only [List.flatMap_cons, List.append_assoc]
    rw [dropWhile_sep sep _ (hsep (sep, v) (by simp)) ⟨c, u ++ (items.flatMap (fun it => it.1 ++ it.2.toBytes) ++ tail),
      by rw [hcu]; rfl, hc⟩]
    have hp := parseStream_toBytes v (items.flatMap (fun it => it.1 ++ it.2.toBytes) ++ tail)
      (Or.inl (closed_of_container h1)) h2 h3 h4
    rw [hcu] at hp
    simp only [hcu, List.cons_append] at hp ⊢
    rw [hp]
    simp only
    have hdrop : (c :: (u ++ (items.flatMap (fun it => it.1 ++ it.2.toBytes) ++ tail))).drop (c :: u).length =
        items.flatMap (fun it => it.1 ++ it.2.toBytes) ++ tail := by
      rw [← List.cons_append, List.drop_left]
    rw [hdrop, h]
    simp

theorem parseJsonStreams_concat (items : List (Bytes × J)) (tail : Bytes)
    (hdocs : ∀ it ∈ items, it.2.isDictOrArr = true ∧ it.2.WF ∧ it.2.Refable ∧ it.2.nodeIds.Nodup)
    (hsep : ∀ it ∈ items, ∀ c ∈ it.1, c ≠ 91 ∧ c ≠ 123) (htail : ∀ c ∈ tail, c ≠ 91 ∧ c ≠ 123) :
    parseJsonStreams (items.flatMap (fun it => it.1 ++ it.2.toBytes) ++ tail) =
      .ok (items.map (fun it => it.2.reread)) := by
  obtain ⟨f, h⟩ := streams_concat items tail [] hdocs hsep htail
  rw [List.nil_append] at h
  unfold parseJsonStreams
  generalize items.flatMap (fun it => it.1 ++ it.2.toBytes) ++ tail = stream at *
  by_cases hf : f ≤ stream.length + 1
  · rw [streamsLoop_mono f _ hf _ _ _ (by rw [h]; simp), h]
  · rw [← h, streamsLoop_mono (stream.length + 1) f (by omega) _ _ _ ?_]
    exact fun hd => streamsLoop_terminates _ _ _ _ (by omega) hd

/-- How a scan ends. -/
def scanOut (vs : List J) (n : Nat) : StreamsOut := if n > 0 ∧ vs = [] then .err n else .ok vs

theorem streamsLoop_of_scan {stream : Bytes} {vs : List J} {n : Nat} (h : Scan stream vs n) :
    ∀ (f : Nat) (ret : List J) (errs : Nat), stream.length < f → streamsLoop f stream ret errs = scanOut (ret ++ vs) (errs + n) := by
  induction h with
  | done hj =>
    intro f ret errs hf
    obtain ⟨f, rfl⟩ : ∃ g, f = g + 1 := ⟨f - 1, by omega⟩
    rw [streamsLoop, dropWhile_all _ hj]; simp [scanOut]
  | @found junk text v off vs n hj ht hp _ ih =>
    intro f ret errs hf
    obtain ⟨f, rfl⟩ : ∃ g, f = g + 1 := ⟨f - 1, by omega⟩
    cases text with
    | nil => simp at ht
    | cons c cs =>
      have hc : c = 91 ∨ c = 123 := by simpa using ht
      rw [streamsLoop, dropWhile_sep junk (c :: cs) hj ⟨c, cs, rfl, hc⟩]
      have hb := parseStream_ok_bounds hp
      simp only [hp]
      rw [ih f _ _ (by simp at hf ⊢; omega)]
      simp
  | @failed junk text c e off vs n hj hc hp _ ih =>
    intro f ret errs hf
    obtain ⟨f, rfl⟩ : ∃ g, f = g + 1 := ⟨f - 1, by omega⟩
    rw [streamsLoop, dropWhile_sep junk (c :: text) hj ⟨c, text, rfl, hc⟩]
    simp only [hp]
    rw [ih f _ _ (by simp at hf ⊢; omega)]
    congr 1; omega

theorem span_junk (s : Bytes) : ∃ junk rest, s = junk ++ rest ∧ (∀ c ∈ junk, c ≠ 91 ∧ c ≠ 123) ∧
    (rest = [] ∨ ∃ c cs, rest = c :: cs ∧ (c = 91 ∨ c = 123)) := by
  induction s with
  | nil => exact ⟨[], [], rfl, by simp, Or.inl rfl⟩
  | cons c cs ih =>
    by_cases hc : c = 91 ∨ c = 123
    · exact ⟨[], c :: cs, rfl, by simp, Or.inr ⟨c, cs, rfl, hc⟩⟩
    · obtain ⟨j, r, he, hj, hr⟩ := ih
      refine ⟨c :: j, r, by rw [he]; rfl, ?_, hr⟩
      intro d hd
      rcases List.mem_cons.1 hd with rfl | hd
      · exact not_or.1 hc
      · exact hj d hd

theorem scan_or_panic : ∀ (m : Nat) (stream : Bytes), stream.length < m →
    (∃ vs n, Scan stream vs n) ∨ (∃ p, ∀ f ret errs, stream.length < f → streamsLoop f stream ret errs = .panic p) := by
  intro m
  induction m with
  | zero => intro s h; omega
  | succ m ih =>
    intro s h
    obtain ⟨j, r, rfl, hj, rfl | ⟨c, cs, rfl, hc⟩⟩ := span_junk s
    · left; exact ⟨[], 0, by simpa using Scan.done hj⟩
    · have step : ∀ f ret errs, streamsLoop (f + 1) (j ++ c :: cs) ret errs = match parseStream (c :: cs) 0 with
          | .ok v off => streamsLoop f ((c :: cs).drop off) (ret ++ [v]) errs
          | .err _ _ => streamsLoop f cs ret (errs + 1)
          | .panic p => .panic p
          | .diverge => .diverge := by
        intro f ret errs
        rw [streamsLoop, dropWhile_sep j (c :: cs) hj ⟨c, cs, rfl, hc⟩]
        simp only
        cases parseStream (c :: cs) 0 <;> simp only
      cases hp : parseStream (c :: cs) 0 with
      | ok v off =>
        have hb := parseStream_ok_bounds hp
        rcases ih ((c :: cs).drop off) (by simp at h ⊢; omega) with ⟨vs, n, hs⟩ | ⟨p, hpn⟩
        · left; exact ⟨_, _, Scan.found hj (by simpa using hc) hp hs⟩
        · right
          refine ⟨p, fun f ret errs hf => ?_⟩
          obtain ⟨f, rfl⟩ : ∃ g, f = g + 1 := ⟨f - 1, by omega⟩
          rw [step, hp]
          exact hpn f _ _ (by simp at hf ⊢; omega)
      | err e off =>
        rcases ih cs (by simp at h; omega) with ⟨vs, n, hs⟩ | ⟨p, hpn⟩
        · left; exact ⟨_, _, Scan.failed hj hc hp hs⟩
        · right
          refine ⟨p, fun f ret errs hf => ?_⟩
          obtain ⟨f, rfl⟩ : ∃ g, f = g + 1 := ⟨f - 1, by omega⟩
          rw [step, hp]
          exact hpn f _ _ (by simp at hf; omega)
      | panic p =>
        right
        refine ⟨p, fun f ret errs hf => ?_⟩
        obtain ⟨f, rfl⟩ : ∃ g, f = g + 1 := ⟨f - 1, by omega⟩
        rw [step, hp]
      | diverge => exact absurd hp (parseStream_ne_diverge _ _)

theorem scan_det {s : Bytes} {vs : List J} {n : Nat} (h : Scan s vs n) : parseJsonStreams s = scanOut vs n := by
  have := streamsLoop_of_scan h (s.length + 1) [] 0 (by omega)
  simpa [parseJsonStreams] using this

theorem parseJsonStreams_scan (s : Bytes) :
    (∀ vs, parseJsonStreams s = .ok vs ↔ ∃ n, Scan s vs n ∧ (vs ≠ [] ∨ n = 0)) ∧
    (∀ n, parseJsonStreams s = .err n ↔ Scan s [] n ∧ 0 < n) := by
  have key : ∀ vs n, Scan s vs n → parseJsonStreams s = scanOut vs n := fun vs n => scan_det
  rcases scan_or_panic (s.length + 1) s (by omega) with ⟨vs0, n0, h0⟩ | ⟨p, hp⟩
  · refine ⟨fun vs => ⟨fun h => ?_, fun ⟨n, h, hn⟩ => ?_⟩, fun n => ⟨fun h => ?_, fun ⟨h, hn⟩ => ?_⟩⟩
    · rw [key _ _ h0, scanOut] at h
      split at h
      · cases h
      · rename_i hc; cases h; refine ⟨n0, h0, ?_⟩
        by_cases hv : vs0 = []
        · right; have : ¬ n0 > 0 := fun h => hc ⟨h, hv⟩; omega
        · left; exact hv
    · rw [key _ _ h, scanOut, if_neg]
      rintro ⟨h1, h2⟩; rcases hn with hn | hn
      · exact hn h2
      · omega
    · rw [key _ _ h0, scanOut] at h
      split at h
      · rename_i hc; cases h; rw [hc.2] at h0; exact ⟨h0, hc.1⟩
      · cases h
    · rw [key _ _ h, scanOut, if_pos ⟨hn, rfl⟩]
  · have hp' : parseJsonStreams s = .panic p := hp _ [] 0 (by omega)
    refine ⟨fun vs => ⟨fun h => ?_, fun ⟨n, h, hn⟩ => ?_⟩, fun n => ⟨fun h => ?_, fun ⟨h, hn⟩ => ?_⟩⟩
    · rw [hp'] at h; cases h
    · have := key _ _ h; rw [hp', scanOut] at this; split at this <;> cases this
    · rw [hp'] at h; cases h
    · have := key _ _ h; rw [hp', scanOut] at this; split at this <;> cases this

end Jsonutils
