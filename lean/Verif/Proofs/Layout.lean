import Verif.Spec.Layout
import Verif.Proofs.ParseMore
import Verif.Proofs.Pretty

namespace Jsonutils

theorem indent_eq (n : Nat) : indent n = (List.replicate n [32, 32]).flatten := by
  induction n with
  | zero => rfl
  | succ n ih =>
    rw [List.replicate_succ, List.flatten_cons, ← ih]
    unfold indent
    rw [show 2 * (n + 1) = 2 * n + 1 + 1 from by omega, List.replicate_succ, List.replicate_succ]; rfl

theorem linesText_append : ∀ (a b : List (Nat × Bytes)), a ≠ [] → b ≠ [] → linesText (a ++ b) = linesText a ++ 10 :: linesText b
  | [], _, h, _ => absurd rfl h
  | [x], y :: b, _, _ => rfl
  | [_], [], _, h => absurd rfl h
  | x :: y :: a, b, _, hb => by
    have := linesText_append (y :: a) b (by simp) hb
    simp only [List.cons_append] at this
    simp only [List.cons_append, linesText, this, List.append_assoc]

theorem withComma_ne : ∀ {a : List (Nat × Bytes)}, a ≠ [] → withComma a ≠ []
  | [], h => absurd rfl h
  | [_], _ => by simp [withComma]
  | _ :: _ :: _, _ => by simp [withComma]

theorem linesText_withComma : ∀ (a : List (Nat × Bytes)), a ≠ [] → linesText (withComma a) = linesText a ++ [44]
  | [], h => absurd rfl h
  | [x], _ => by simp [withComma, linesText, lineText]
  | [x, y], _ => by simp [withComma, linesText, lineText]
  | x :: y :: z :: a, _ => by
    have := linesText_withComma (y :: z :: a) (by simp)
    simp only [withComma] at this ⊢
    rw [linesText, this]
    · simp [linesText]
    · simp

theorem lines_ne (v : J) (n : Nat) : v.lines n ≠ [] := by
  cases v with
  | arr xs => cases xs <;> simp [J.lines]
  | dict i xs => cases xs <;> simp [J.lines]
  | _ => simp [J.lines]

/-- The lines of one member of a dictionary. -/
def entryLines (k : Bytes) (x : J) (n : Nat) : List (Nat × Bytes) :=
  if x.isDictOrArr then (n, 34 :: k ++ b!"\":") :: x.lines (n + 1) else [(n, 34 :: k ++ b!"\": " ++ x.toBytes)]

theorem blocksf_cons (k : Bytes) (x : J) (kvs : List (Bytes × J)) (n : Nat) : J.blocksf ((k, x) :: kvs) n = entryLines k x n :: J.blocksf kvs n := by
  cases x <;> simp [J.blocksf, entryLines, J.isDictOrArr]

theorem entryLines_ne (k : Bytes) (x : J) (n : Nat) : entryLines k x n ≠ [] := by
  unfold entryLines; split <;> simp

theorem commaBlocks_ne : ∀ {bs : List (List (Nat × Bytes))}, bs ≠ [] → (∀ b ∈ bs, b ≠ []) → commaBlocks bs ≠ []
  | [], h, _ => absurd rfl h
  | [b], _, h => by simpa [commaBlocks] using h b (by simp)
  | b :: c :: bs, _, h => by
    simp only [commaBlocks, ne_eq, List.append_eq_nil_iff, not_and]
    intro h1; exact absurd h1 (withComma_ne (h b (by simp)))

theorem blocks_ne : ∀ {xs : List J} {n : Nat} {b}, b ∈ J.blocks xs n → b ≠ []
  | [], _, _, h => by simp [J.blocks] at h
  | x :: xs, n, b, h => by
    simp only [J.blocks, List.mem_cons] at h
    rcases h with rfl | h
    · exact lines_ne x n
    · exact blocks_ne h

theorem blocksf_ne : ∀ {xs : List (Bytes × J)} {n : Nat} {b}, b ∈ J.blocksf xs n → b ≠ []
  | [], _, _, h => by simp [J.blocksf] at h
  | (k, x) :: xs, n, b, h => by
    rw [blocksf_cons, List.mem_cons] at h
    rcases h with rfl | h
    · exact entryLines_ne k x n
    · exact blocksf_ne h

theorem linesText_blocks (b : List (Nat × Bytes)) (bs : List (List (Nat × Bytes))) (hb : b ≠ []) (hbs : ∀ c ∈ bs, c ≠ []) :
    linesText (commaBlocks (b :: bs)) = linesText b ++ (if bs = [] then [] else 44 :: 10 :: linesText (commaBlocks bs)) := by
  cases bs with
  | nil => simp [commaBlocks]
  | cons c bs =>
    simp only [commaBlocks, reduceCtorEq, if_false]
    have : commaBlocks (c :: bs) ≠ [] := commaBlocks_ne (by simp) hbs
    rw [linesText_append _ _ (withComma_ne hb) this, linesText_withComma _ hb]
    simp

theorem bracket_lines (n : Nat) (o c : Bytes) (mid : List (Nat × Bytes)) (hm : mid ≠ []) :
    linesText ((n, o) :: mid ++ [(n, c)]) = indent n ++ (o ++ 10 :: (linesText mid ++ 10 :: (indent n ++ c))) := by
  have h1 : linesText ((n, o) :: mid ++ [(n, c)]) = linesText ([(n, o)] ++ (mid ++ [(n, c)])) := rfl
  rw [h1, linesText_append _ _ (by simp) (by simp), linesText_append _ _ hm (by simp)]
  simp [linesText, lineText, indent_eq]

mutual
theorem pretty_lines : (v : J) → (n : Nat) → v.pretty n = linesText (v.lines n)
  | .arr [], n => by simp [J.pretty, J.lines, linesText, lineText, indent_eq]
  | .arr (x :: xs), n => by
    have h1 : commaBlocks (J.blocks (x :: xs) (n + 1)) ≠ [] := commaBlocks_ne (by simp [J.blocks]) fun b hb => blocks_ne hb
    rw [J.pretty, J.lines, bracket_lines _ _ _ _ h1, pretty_blocks (x :: xs) n (by simp)]
    simp
  | .dict _ [], n => by simp [J.pretty, J.lines, linesText, lineText, indent_eq]
  | .dict _ (kv :: kvs), n => by
    have h1 : commaBlocks (J.blocksf (kv :: kvs) (n + 1)) ≠ [] := commaBlocks_ne (by obtain ⟨k, x⟩ := kv; simp [blocksf_cons]) fun b hb => blocksf_ne hb
    rw [J.pretty, J.lines, bracket_lines _ _ _ _ h1, pretty_blocksf (kv :: kvs) n (by simp)]
    simp
  | .null, n => by simp [J.pretty, J.lines, linesText, lineText, indent_eq]
  | .bool _, n => by simp [J.pretty, J.lines, linesText, lineText, indent_eq]
  | .int _, n => by simp [J.pretty, J.lines, linesText, lineText, indent_eq]
  | .float _ _, n => by simp [J.pretty, J.lines, linesText, lineText, indent_eq]
  | .str _, n => by simp [J.pretty, J.lines, linesText, lineText, indent_eq]
  | .ptr _, n => by simp [J.pretty, J.lines, linesText, lineText, indent_eq]
theorem pretty_blocks : (xs : List J) → (n : Nat) → xs ≠ [] → J.prettyArr xs n true = 10 :: linesText (commaBlocks (J.blocks xs (n + 1)))
  | [], _, h => absurd rfl h
  | x :: xs, n, _ => by
    rw [J.prettyArr, J.blocks, linesText_blocks _ _ (lines_ne x _) (fun b hb => blocks_ne hb), pretty_lines x (n + 1), prettyArr_false]
    by_cases hx : xs = []
    · subst hx; simp [J.blocks]
    · have hb : J.blocks xs (n + 1) ≠ [] := by cases xs <;> simp [J.blocks] at hx ⊢
      rw [if_neg hx, if_neg hb, pretty_blocks xs n hx]
      simp
theorem pretty_blocksf : (xs : List (Bytes × J)) → (n : Nat) → xs ≠ [] → J.prettyDict xs n true = 10 :: linesText (commaBlocks (J.blocksf xs (n + 1)))
  | [], _, h => absurd rfl h
  | (k, x) :: xs, n, _ => by
    have he : linesText (entryLines k x (n + 1)) = indent n ++ 32 :: 32 :: 34 :: (k ++ 34 :: 58 :: (if x.isDictOrArr then 10 :: x.pretty (n + 2) else 32 :: x.toBytes)) := by
      have hi : indent (n + 1) = indent n ++ [32, 32] := by
        unfold indent
        rw [show 2 * (n + 1) = 2 * n + 1 + 1 from by omega, List.replicate_succ', List.replicate_succ', List.append_assoc]; rfl
      unfold entryLines
      split
      · have := linesText_append [(n + 1, 34 :: k ++ b!"\":")] (x.lines (n + 1 + 1)) (by simp) (lines_ne _ _)
        simp only [List.cons_append, List.nil_append] at this
        simp only [List.cons_append]
        rw [this, pretty_lines x (n + 2)]
        simp only [linesText, lineText, ← indent_eq, hi]
        simp
      · simp only [linesText, lineText, ← indent_eq, hi]
        simp
    rw [J.prettyDict, blocksf_cons, linesText_blocks _ _ (entryLines_ne k x _) (fun b hb => blocksf_ne hb), he, prettyDict_false]
    by_cases hx : xs = []
    · subst hx; simp [J.blocksf]
    · have hb : J.blocksf xs (n + 1) ≠ [] := by
        cases xs with
        | nil => exact absurd rfl hx
        | cons p xs => obtain ⟨k, x⟩ := p; simp [blocksf_cons]
      rw [if_neg hx, if_neg hb, pretty_blocksf xs n hx]
      simp
end

/-! ### Splitting -/

theorem splitLines_ne (s : Bytes) : splitLines s ≠ [] := by
  cases s with
  | nil => simp [splitLines]
  | cons c s => simp only [splitLines]; split
                · simp
                · split <;> simp

theorem splitLines_line : ∀ (l : Bytes), 10 ∉ l → splitLines l = [l]
  | [], _ => rfl
  | c :: l, h => by
    simp only [List.mem_cons, not_or] at h
    simp [splitLines, splitLines_line l h.2, Ne.symm h.1]

theorem splitLines_cons : ∀ (l s : Bytes), 10 ∉ l → splitLines (l ++ 10 :: s) = l :: splitLines s
  | [], s, _ => by simp [splitLines]
  | c :: l, s, h => by
    simp only [List.mem_cons, not_or] at h
    simp [splitLines, splitLines_cons l s h.2, Ne.symm h.1]

theorem lineText_no_nl {l : Nat × Bytes} (h : 10 ∉ l.2) : 10 ∉ lineText l := by
  unfold lineText
  simp only [List.mem_append, List.mem_flatten, List.mem_replicate, not_or, not_exists, not_and]
  refine ⟨?_, h⟩
  rintro x ⟨_, rfl⟩; decide

theorem splitLines_lines : ∀ (ls : List (Nat × Bytes)), ls ≠ [] → (∀ l ∈ ls, 10 ∉ l.2) → splitLines (linesText ls) = ls.map lineText
  | [], h, _ => absurd rfl h
  | [l], _, h => by simp only [linesText, List.map]; exact splitLines_line _ (lineText_no_nl (h l (by simp)))
  | l :: l' :: ls, _, h => by
    simp only [linesText, List.map]
    rw [splitLines_cons _ _ (lineText_no_nl (h l (by simp))), splitLines_lines (l' :: ls) (by simp) fun x hx => h x (by simp [hx])]
    rfl

/-! ### Compact texts have one line -/

theorem token_no_control {t : Bytes} (h : ∀ c ∈ t, isDigit c = true ∨ c = 45 ∨ c = 46) : ∀ c ∈ t, (0x20 : UInt8) ≤ c := by
  intro c hc
  rcases h c hc with h | rfl | rfl
  · simp only [isDigit, Bool.and_eq_true, decide_eq_true_eq] at h
    exact UInt8.le_trans (by decide) h.1
  · decide
  · decide

mutual
theorem toBytes_no_control : (v : J) → ∀ c ∈ v.toBytes, (0x20 : UInt8) ≤ c
  | .null => by decide
  | .bool true => by decide
  | .bool false => by decide
  | .int n => by rw [J.toBytes]; exact token_no_control (intDec_chars' n)
  | .float x b => by
    rw [J.toBytes]
    rcases formatFloat_cases x (floatBits b) with h | h | h | ⟨neg, c, k, h⟩
    · rw [h]; decide
    · rw [h]; decide
    · rw [h]; decide
    · rw [h]; refine token_no_control fun x hx => ?_
      rcases List.mem_append.1 hx with hx | hx
      · cases neg <;> simp [signBytes] at hx; exact Or.inr (Or.inl hx)
      · rcases decText_chars c k x hx with h | h
        · exact Or.inl h
        · exact Or.inr (Or.inr h)
  | .str s => by
    obtain ⟨t, h, _⟩ := quote_meaning s
    rw [J.toBytes, h]; exact strText_no_control t
  | .arr xs => by
    rw [J.toBytes]
    intro c hc
    simp only [List.mem_cons, List.mem_append, List.not_mem_nil, or_false] at hc
    rcases hc with rfl | hc | rfl
    · decide
    · exact arrBytes_no_control xs true c hc
    · decide
  | .dict i kvs => by
    rw [J.toBytes]
    intro c hc
    split at hc
    · obtain ⟨t, h, _⟩ := quote_meaning jsonPointerKey
      rw [h] at hc
      simp only [List.mem_cons, List.mem_append, List.not_mem_nil, or_false] at hc
      rcases hc with rfl | ((hc | rfl | hc) | hc) | rfl
      · decide
      · exact strText_no_control t c hc
      · decide
      · exact token_no_control (intDec_chars' i) c hc
      · exact dictBytes_no_control kvs false c hc
      · decide
    · simp only [List.mem_cons, List.mem_append, List.not_mem_nil, or_false] at hc
      rcases hc with rfl | hc | rfl
      · decide
      · exact dictBytes_no_control kvs true c hc
      · decide
  | .ptr i => by
    rw [J.toBytes]
    intro c hc
    simp only [List.mem_cons, List.mem_append, List.not_mem_nil, or_false] at hc
    rcases hc with rfl | hc | rfl
    · decide
    · exact token_no_control (intDec_chars' i) c hc
    · decide
theorem arrBytes_no_control : (xs : List J) → (first : Bool) → ∀ c ∈ J.arrBytes xs first, (0x20 : UInt8) ≤ c
  | [], _ => by simp [J.arrBytes]
  | x :: xs, first => by
    rw [J.arrBytes]
    intro c hc
    simp only [List.mem_append] at hc
    rcases hc with (hc | hc) | hc
    · cases first <;> simp at hc; subst hc; decide
    · exact toBytes_no_control x c hc
    · exact arrBytes_no_control xs false c hc
theorem dictBytes_no_control : (xs : List (Bytes × J)) → (first : Bool) → ∀ c ∈ J.dictBytes xs first, (0x20 : UInt8) ≤ c
  | [], _ => by simp [J.dictBytes]
  | (k, x) :: xs, first => by
    obtain ⟨t, h, _⟩ := quote_meaning k
    rw [J.dictBytes, h]
    intro c hc
    simp only [List.mem_append, List.mem_cons] at hc
    rcases hc with ((hc | hc) | rfl | hc) | hc
    · cases first <;> simp at hc; subst hc; decide
    · exact strText_no_control t c hc
    · decide
    · exact toBytes_no_control x c hc
    · exact dictBytes_no_control xs false c hc
end

theorem toBytes_no_nl (v : J) : 10 ∉ v.toBytes := fun h => absurd (toBytes_no_control v 10 h) (by decide)

theorem withComma_all : ∀ {b : List (Nat × Bytes)}, (∀ l ∈ b, 10 ∉ l.2) → ∀ l ∈ withComma b, 10 ∉ l.2
  | [], _ => by simp [withComma]
  | [x], h => by simpa [withComma] using h x (by simp)
  | x :: y :: b, h => by
    intro l hl
    simp only [withComma, List.mem_cons] at hl
    rcases hl with rfl | hl
    · exact h _ (by simp)
    · exact withComma_all (b := y :: b) (fun l hl => h l (List.mem_cons_of_mem _ hl)) l hl

theorem commaBlocks_all : ∀ {bs : List (List (Nat × Bytes))}, (∀ b ∈ bs, ∀ l ∈ b, 10 ∉ l.2) → ∀ l ∈ commaBlocks bs, 10 ∉ l.2
  | [], _ => by simp [commaBlocks]
  | [b], h => by simpa [commaBlocks] using h b (by simp)
  | b :: c :: bs, h => by
    intro l hl
    simp only [commaBlocks, List.mem_append] at hl
    rcases hl with hl | hl
    · exact withComma_all (h b (by simp)) l hl
    · exact commaBlocks_all (bs := c :: bs) (fun b hb => h b (List.mem_cons_of_mem _ hb)) l hl

mutual
theorem lines_no_nl : (v : J) → (n : Nat) → v.OneLineKeys → ∀ l ∈ v.lines n, 10 ∉ l.2
  | .arr [], n, _ => by simp [J.lines]
  | .arr (x :: xs), n, h => by
    intro l hl
    simp only [J.lines, List.mem_append, List.mem_cons, List.not_mem_nil, or_false] at hl
    rcases hl with (rfl | hl) | rfl
    · simp
    · exact commaBlocks_all (blocks_no_nl (x :: xs) (n + 1) h) l hl
    · simp
  | .dict _ [], n, _ => by simp [J.lines]
  | .dict _ (kv :: kvs), n, h => by
    intro l hl
    simp only [J.lines, List.mem_append, List.mem_cons, List.not_mem_nil, or_false] at hl
    rcases hl with (rfl | hl) | rfl
    · simp
    · exact commaBlocks_all (blocksf_no_nl (kv :: kvs) (n + 1) h) l hl
    · simp
  | .null, n, _ => by simp [J.lines, toBytes_no_nl]
  | .bool _, n, _ => by simp [J.lines, toBytes_no_nl]
  | .int _, n, _ => by simp [J.lines, toBytes_no_nl]
  | .float _ _, n, _ => by simp [J.lines, toBytes_no_nl]
  | .str _, n, _ => by simp [J.lines, toBytes_no_nl]
  | .ptr _, n, _ => by simp [J.lines, toBytes_no_nl]
theorem blocks_no_nl : (xs : List J) → (n : Nat) → J.OneLineKeyss xs → ∀ b ∈ J.blocks xs n, ∀ l ∈ b, 10 ∉ l.2
  | [], _, _ => by simp [J.blocks]
  | x :: xs, n, h => by
    intro b hb
    simp only [J.blocks, List.mem_cons] at hb
    rcases hb with rfl | hb
    · exact lines_no_nl x n h.1
    · exact blocks_no_nl xs n h.2 b hb
theorem blocksf_no_nl : (xs : List (Bytes × J)) → (n : Nat) → J.OneLineKeysf xs → ∀ b ∈ J.blocksf xs n, ∀ l ∈ b, 10 ∉ l.2
  | [], _, _ => by simp [J.blocksf]
  | (k, x) :: xs, n, h => by
    intro b hb
    rw [blocksf_cons, List.mem_cons] at hb
    rcases hb with rfl | hb
    · have h1 := lines_no_nl x (n + 1) h.2.1
      have h2 := toBytes_no_nl x
      unfold entryLines
      intro l hl
      split at hl
      · rcases List.mem_cons.1 hl with rfl | hl
        · simp [h.1]
        · exact h1 l hl
      · simp only [List.mem_cons, List.not_mem_nil, or_false] at hl
        subst hl
        simp [h.1, h2]
    · exact blocksf_no_nl xs n h.2.2 b hb
end

end Jsonutils
