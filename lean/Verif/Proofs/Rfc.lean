import Verif.Proofs.RfcNumber

/-! Every RFC 8259 text is read with its meaning. -/

set_option linter.unusedSimpArgs false

namespace Jsonutils
open Rfc

theorem wsText_ws (w : Ws) : ∀ c ∈ wsText w, isWS c = true := by
  intro c hc
  obtain ⟨x, _, rfl⟩ := List.mem_map.1 hc
  cases x <;> decide

theorem skipEmpty_wsText (w : Ws) (t : Bytes) : skipEmpty (wsText w ++ t) = skipEmpty t :=
  skipEmpty_ws _ _ (wsText_ws w)

theorem delimited_ws (w : Ws) {t : Bytes} (h : Delimited t) : Delimited (wsText w ++ t) := by
  cases w with
  | nil => exact h
  | cons x w => cases x <;> exact delimited_cons (by decide)

theorem strText_starts (s : Str) : StartsValue (strText s) := ⟨34, _, rfl, by decide⟩

theorem tree_starts (t : Tree) : StartsValue t.text := by
  cases t with
  | null => exact ⟨_, _, rfl, by decide⟩
  | tt => exact ⟨_, _, rfl, by decide⟩
  | ff => exact ⟨_, _, rfl, by decide⟩
  | num n => rw [Tree.text]; exact (number_tok n).1.starts
  | str s => rw [Tree.text]; exact strText_starts s
  | arr0 w => exact ⟨91, _, rfl, by decide⟩
  | arr es => exact ⟨91, _, rfl, by decide⟩
  | obj0 w => exact ⟨123, _, rfl, by decide⟩
  | obj ms => exact ⟨123, _, rfl, by decide⟩

theorem parseVal_str (f : Nat) (st : Sess) (s : Str) (rest : Bytes) (h : StrOk s) :
    parseVal (f + 1) st (strText s ++ rest) = .ok (.str (strMeaning s), st) rest := by
  have h1 : parseVal (f + 1) st (strText s ++ rest) = parseJSONValue st (strText s ++ rest) := by
    unfold strText
    rw [parseVal.eq_def]; simp
  rw [h1]
  unfold parseJSONValue
  rw [parseString_str s rest h]

theorem elems_text_append (es : Elems) (t : Bytes) : ∃ w v u, es.text ++ t = wsText w ++ (Tree.text v ++ u) := by
  cases es with
  | one w v w' => exact ⟨w, v, wsText w' ++ t, by simp [Elems.text]⟩
  | more w v w' r => exact ⟨w, v, wsText w' ++ 0x2C :: (r.text ++ t), by simp [Elems.text]⟩

mutual
theorem readTree : (t : Tree) → (s : Sess) → (rest : Bytes) → Delimited rest → t.Ok →
    ∃ f, parseVal f s (t.text ++ rest) = .ok (t.val, s) rest
  | .null, s, rest, hd, _ => ⟨1, by
      rw [Tree.text, parseVal_scalar 0 s _ rest ⟨by decide, _, _, rfl, by decide⟩ hd (by decide)]; rfl⟩
  | .tt, s, rest, hd, _ => ⟨1, by
      rw [Tree.text, parseVal_scalar 0 s _ rest ⟨by decide, _, _, rfl, by decide⟩ hd (by decide)]; rfl⟩
  | .ff, s, rest, hd, _ => ⟨1, by
      rw [Tree.text, parseVal_scalar 0 s _ rest ⟨by decide, _, _, rfl, by decide⟩ hd (by decide)]; rfl⟩
  | .num n, s, rest, hd, hn => ⟨1, by
      have := number_tok n
      rw [Tree.text, parseVal_scalar 0 s _ rest this.1 hd this.2.1, this.2.2, numberOf_number n hn]; rfl⟩
  | .str t, s, rest, _, ht => ⟨1, by rw [Tree.text, parseVal_str 0 s t rest ht]; rfl⟩
  | .arr0 w, s, rest, _, _ => ⟨2, by
      rw [Tree.text, parseVal.eq_def]
      simp only [List.cons_append, List.append_assoc, List.nil_append]
      rw [parseArr_end 0 s _ rest [] (by rw [skipEmpty_wsText, skipEmpty_cons (by decide)])]; rfl⟩
  | .obj0 w, s, rest, _, _ => ⟨2, by
      rw [Tree.text, parseVal.eq_def]
      simp only [List.cons_append, List.append_assoc, List.nil_append]
      rw [parseDict_end 0 s _ rest [] 0 (by rw [skipEmpty_wsText, skipEmpty_cons (by decide)])]; rfl⟩
  | .arr es, s, rest, _, ht => by
      obtain ⟨f, h⟩ := readElems es s rest [] ht
      refine ⟨f + 1, ?_⟩
      rw [Tree.text, parseVal.eq_def]
      simp only [List.cons_append, List.append_assoc, List.nil_append, h]
      rfl
  | .obj ms, s, rest, _, ht => by
      obtain ⟨f, h⟩ := readMembers ms s rest [] ht
      refine ⟨f + 1, ?_⟩
      rw [Tree.text, parseVal.eq_def]
      simp only [List.cons_append, List.append_assoc, List.nil_append, h]
      rfl

theorem readElems : (es : Elems) → (s : Sess) → (rest : Bytes) → (acc : List J) → es.Ok →
    ∃ f, parseArr f s (es.text ++ 93 :: rest) acc = .ok (acc ++ es.vals, s) rest
  | .one w v w', s, rest, acc, hv => by
      have hd : Delimited (wsText w' ++ 93 :: rest) := delimited_ws w' (delimited_cons (by decide))
      obtain ⟨f1, h1⟩ := readTree v s _ hd hv
      refine ⟨f1 + 1, ?_⟩
      rw [Elems.text]
      simp only [List.append_assoc]
      rw [parseArr_gen _ _ _ _ _ ((tree_starts v).append _) (by
        rw [skipEmpty_wsText, skipEmpty_starts ((tree_starts v).append _)]), h1]
      simp only
      rw [skipEmpty_wsText, skipEmpty_cons (by decide)]
      simp [Elems.vals]
  | .more w v w' r, s, rest, acc, hv => by
      have hd : Delimited (wsText w' ++ 44 :: (r.text ++ 93 :: rest)) := delimited_ws w' (delimited_cons (by decide))
      obtain ⟨f1, h1⟩ := readTree v s _ hd hv.1
      obtain ⟨f2, h2⟩ := readElems r s rest (acc ++ [v.val]) hv.2
      refine ⟨max f1 f2 + 1, ?_⟩
      rw [Elems.text]
      simp only [List.append_assoc, List.cons_append]
      rw [parseArr_gen _ _ _ _ _ ((tree_starts v).append _) (by
        rw [skipEmpty_wsText, skipEmpty_starts ((tree_starts v).append _)])]
      rw [parseVal_fuel_le (Nat.le_max_left f1 f2) _ _ (by rw [h1]; simp), h1]
      simp only
      rw [skipEmpty_wsText, skipEmpty_cons (by decide)]
      simp only [if_true]
      rw [parseArr_fuel_le (Nat.le_max_right f1 f2) _ _ _ (by rw [h2]; simp), h2]
      simp [Elems.vals]

theorem readMembers : (ms : Members) → (s : Sess) → (rest : Bytes) → (acc : SMap J) → ms.Ok →
    ∃ f, parseDict f s (ms.text ++ 125 :: rest) acc 0 =
      .ok (ms.entries.foldl (fun m kv => smAdd m kv.1 kv.2) acc, 0, s) rest
  | .one w k w1 w2 v w', s, rest, acc, hv => by
      have hd : Delimited (wsText w' ++ 125 :: rest) := delimited_ws w' (delimited_cons (by decide))
      obtain ⟨f1, h1⟩ := readTree v s _ hd hv.2.2
      refine ⟨f1 + 1, ?_⟩
      rw [Members.text]
      simp only [List.append_assoc, List.cons_append]
      rw [parseDict_gen f1 s _ (strText k ++ (wsText w1 ++ 58 :: (wsText w2 ++ (v.text ++ (wsText w' ++ 125 :: rest)))))
        (wsText w1 ++ 58 :: (wsText w2 ++ (v.text ++ (wsText w' ++ 125 :: rest))))
        (wsText w2 ++ (v.text ++ (wsText w' ++ 125 :: rest))) (strMeaning k) (v.text ++ (wsText w' ++ 125 :: rest)) true acc 0
        (by rw [skipEmpty_wsText, skipEmpty_starts ((strText_starts k).append _)])
        ⟨34, _, rfl, by decide⟩ (parseString_str k _ hv.1)
        (by rw [skipEmpty_wsText, skipEmpty_cons (by decide)])
        (by rw [skipEmpty_wsText, skipEmpty_starts ((tree_starts v).append _)]) ((tree_starts v).append _), h1]
      simp only [hv.2.1, if_false]
      rw [skipEmpty_wsText, skipEmpty_cons (by decide)]
      simp [Members.entries]
  | .more w k w1 w2 v w' r, s, rest, acc, hv => by
      have hd : Delimited (wsText w' ++ 44 :: (r.text ++ 125 :: rest)) := delimited_ws w' (delimited_cons (by decide))
      obtain ⟨f1, h1⟩ := readTree v s _ hd hv.1.2.2
      obtain ⟨f2, h2⟩ := readMembers r s rest (smAdd acc (strMeaning k) v.val) hv.2
      refine ⟨max f1 f2 + 1, ?_⟩
      rw [Members.text]
      simp only [List.append_assoc, List.cons_append]
      rw [parseDict_gen (max f1 f2) s _ (strText k ++ (wsText w1 ++ 58 :: (wsText w2 ++ (v.text ++ (wsText w' ++ 44 :: (r.text ++ 125 :: rest))))))
        (wsText w1 ++ 58 :: (wsText w2 ++ (v.text ++ (wsText w' ++ 44 :: (r.text ++ 125 :: rest)))))
        (wsText w2 ++ (v.text ++ (wsText w' ++ 44 :: (r.text ++ 125 :: rest)))) (strMeaning k) (v.text ++ (wsText w' ++ 44 :: (r.text ++ 125 :: rest))) true acc 0
        (by rw [skipEmpty_wsText, skipEmpty_starts ((strText_starts k).append _)])
        ⟨34, _, rfl, by decide⟩ (parseString_str k _ hv.1.1)
        (by rw [skipEmpty_wsText, skipEmpty_cons (by decide)])
        (by rw [skipEmpty_wsText, skipEmpty_starts ((tree_starts v).append _)]) ((tree_starts v).append _)]
      rw [parseVal_fuel_le (Nat.le_max_left f1 f2) _ _ (by rw [h1]; simp), h1]
      simp only [hv.1.2.1, if_false]
      rw [skipEmpty_wsText, skipEmpty_cons (by decide)]
      simp only [if_true]
      rw [parseDict_fuel_le (Nat.le_max_right f1 f2) _ _ _ _ (by rw [h2]; simp), h2]
      simp [Members.entries]
end

theorem parseStream_rfc (w : Ws) (t : Tree) (w' : Ws) (h : t.Ok) :
    parseStream (wsText w ++ t.text ++ wsText w') 0 = .ok t.val (wsText w ++ t.text).length := by
  have hd : Delimited (wsText w') := by simpa using delimited_ws w' delimited_nil
  obtain ⟨f, hf⟩ := readTree t {} (wsText w') hd h
  rw [parseStream_of (t := t.text ++ wsText w') (by
    rw [List.drop_zero, List.append_assoc, skipEmpty_wsText, skipEmpty_starts ((tree_starts t).append _)]) hf]
  congr 1
  simp only [List.length_append]
  omega

end Jsonutils
