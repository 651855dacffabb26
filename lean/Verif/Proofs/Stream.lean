import Verif.Proofs.Reread

/-! From `parseVal` to `ParseStream`, `Parse`, `ParseJsonStreams`. -/

set_option linter.unusedSimpArgs false

namespace Jsonutils

theorem parseStream_of {str t : Bytes} {offset f : Nat} {v : J} {s : Sess} {r : Bytes}
    (h : skipEmpty (str.drop offset) = t) (hp : parseVal f {} t = .ok (v, s) r) :
    parseStream str offset = .ok v (str.length - r.length) := by
  have h1 := parseVal_of_fuel (by simp) hp
  unfold parseStream
  rw [h]
  cases t with
  | nil =>
    rw [parseVal.eq_def] at h1
    simp [parseFuel, parseJSONValue, parseString] at h1
  | cons c u => simp only [h1]

theorem skipEmpty_starts {t : Bytes} (h : StartsValue t) : skipEmpty t = t := by
  obtain ⟨c, u, rfl, h1, _⟩ := h
  exact skipEmpty_cons h1

/-- Serialised document followed by anything that does not extend it. -/
theorem parseStream_toBytes (v : J) (rest : Bytes) (hd : v.closed = true ∨ Delimited rest) (hw : v.WF)
    (hr : v.Refable) (hn : v.nodeIds.Nodup) :
    parseStream (v.toBytes ++ rest) 0 = .ok v.reread v.toBytes.length := by
  obtain ⟨f, h⟩ := roundTrip v {} rest hd hw hr (by simpa using hn)
  rw [parseStream_of (str := v.toBytes ++ rest) (offset := 0) (t := v.toBytes ++ rest) (skipEmpty_starts ((toBytes_starts v).append rest)) h]
  simp

theorem delimited_nil : Delimited [] := by intro c t h; simp at h

theorem parse_toBytes (v : J) (hw : v.WF) (hr : v.Refable) (hn : v.nodeIds.Nodup) :
    parse v.toBytes = .ok v.reread := by
  have := parseStream_toBytes v [] (Or.inr delimited_nil) hw hr hn
  rw [List.append_nil] at this
  unfold parse; rw [this]

end Jsonutils
