import Verif.Model.Shortcuts
import Verif.Props.Dict

/-!
# Shortcuts: more of C26, C33 and C36
-/

namespace Jsonutils.Props

/-- **C26, arrays of texts.** `GetStringArray(o, keys...)` lists, in order, `GetString()` of every element of the array found at the
path, and fails exactly if there is no array at the path; an array made by `NewStringArray(ss)` gives back `ss`. -/
theorem C26_string_array (o : J) (keys : List Bytes) :
    (∀ xs, o.getArray keys = .ok xs → ∃ ss, getStringArray o keys = .ok ss ∧ ss.length = xs.length ∧
      ∀ (i : Nat) x, xs[i]? = some x → ∃ s, x.getString [] = .ok s ∧ ss[i]? = some s) ∧
    (∀ e, o.getArray keys = .err e ↔ getStringArray o keys = .err e) ∧
    (∀ ss, o.get keys = .ok (newStringArray ss) → o.IsDict → getStringArray o keys = .ok ss) ∧
    ∀ ss, getStringArray (newStringArray ss) [] = .ok ss := by
  have back : ∀ ss, stringArray (ss.map J.str) = ss := by
    intro ss
    simp only [stringArray, List.map_map]
    conv => rhs; rw [← List.map_id ss]
    rfl
  refine ⟨fun xs h => ⟨stringArray xs, by simp [getStringArray, h], by simp [stringArray], fun i x hx => ?_⟩, fun e => ?_, fun ss h hd => ?_, fun ss => ?_⟩
  · refine ⟨x.string0, by simp [J.getString], ?_⟩
    simp [stringArray, hx, J.getString]
  · unfold getStringArray
    cases o.getArray keys <;> simp
  · cases o with
    | dict id kvs =>
      have : (J.dict id kvs).getArray keys = .ok (ss.map .str) := by
        simp only [J.getArray]
        have h' : dictGet smGet id kvs keys = .ok (newStringArray ss) := h
        rw [h']; rfl
      simp only [getStringArray, this, back]
    | _ => exact absurd hd (by simp [J.IsDict])
  · show Res.ok (stringArray (ss.map J.str)) = _
    rw [back]

example : getStringArray (.dict 0 [(b!"tags", newStringArray [b!"a", b!"b"])]) [b!"tags"] = .ok [b!"a", b!"b"] :=
  (C26_string_array _ _).2.2.1 _ rfl trivial

/-- **C36, `GetAnyString`.** The text of the first key whose text is not empty, or the empty text. -/
theorem C36_any_string_value (v : J) (keys : List Bytes) :
    (∃ p k q, keys = p ++ k :: q ∧ (∀ g ∈ p, ∀ t, v.getString [g] = .ok t → t = []) ∧ v.getString [k] = .ok (getAnyString v keys) ∧
      getAnyString v keys ≠ []) ∨
    ((∀ g ∈ keys, ∀ t, v.getString [g] = .ok t → t = []) ∧ getAnyString v keys = []) := by
  unfold getAnyString
  rcases C36_any_string v keys with ⟨p, k, q, s, h1, h2, h3, h4, h5⟩ | ⟨h1, h2⟩
  · left; rw [h5]; exact ⟨p, k, q, h1, h2, h3, h4⟩
  · right; rw [h2]; exact ⟨h1, rfl⟩

example : getAnyString (.dict 0 [(b!"a", .str []), (b!"b", .str b!"x")]) [b!"a", b!"b"] = b!"x" := rfl

/-- **C33, `Size` and `Value`.** `Size` is `Length` where both exist; `Value()` of a dictionary holds exactly what `Get` finds, that of an
array exactly its elements, and `Size` is the number of entries. -/
theorem C33_size_value (id : Int) (kvs : SMap J) (xs : List J) :
    (J.dict id kvs).size? = (J.dict id kvs).length? ∧ (J.arr xs).size? = (J.arr xs).length? ∧
    (J.dict id kvs).size? = some (J.dict id kvs).valueMap.length ∧ (J.arr xs).size? = some (J.arr xs).valueArr.length ∧
    (∀ k v, smGet (J.dict id kvs).valueMap k = some v ↔ (J.dict id kvs).get [k] = .ok v) ∧
    ∀ (i : Nat), (J.arr xs).valueArr[i]? = xs[i]? := by
  refine ⟨rfl, rfl, rfl, rfl, fun k v => ?_, fun i => rfl⟩
  show smGet kvs k = some v ↔ _
  rw [get_single]
  cases smGet kvs k <;> simp

end Jsonutils.Props
