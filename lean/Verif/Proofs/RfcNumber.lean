import Verif.Proofs.Pretty
import Verif.Spec.Rfc8259

/-! RFC 8259 strings and numbers are read with their meaning. -/

set_option linter.unusedSimpArgs false

namespace Jsonutils
open Rfc

/-! ### Strings -/

theorem charOfNat_toNat {n : Nat} (h : n < 0x10000) (hs : ¬ isSurrogate n) : (Char.ofNat n).val.toNat = n := by
  have hv : n.isValidChar := by
    unfold Nat.isValidChar; unfold isSurrogate at hs; omega
  unfold Char.ofNat
  rw [dif_pos hv]
  rfl

theorem encodeRune_utf8 {n : Nat} (h : n < 0x10000) (hs : ¬ isSurrogate n) :
    encodeRune n = String.utf8EncodeChar (Char.ofNat n) := by
  unfold String.utf8EncodeChar encodeRune
  simp only [charOfNat_toNat h hs]
  unfold isSurrogate at hs
  by_cases h1 : n < 0x80
  · rw [if_pos h1, if_pos (by omega)]
  rw [if_neg h1, if_neg (by omega : ¬ n ≤ 127)]
  by_cases h2 : n < 0x800
  · rw [if_pos h2, if_pos (by omega)]
    have e1 : 0xC0 + n / 64 = n / 64 % 32 + 192 := by omega
    have e2 : 0x80 + n % 64 = n % 64 + 128 := by omega
    rw [e1, e2]
  rw [if_neg h2, if_neg hs, if_neg (by omega : ¬ n ≤ 0x7ff), if_pos (by omega)]
  have e1 : 0xE0 + n / 4096 = n / 4096 % 16 + 224 := by omega
  have e2 : 0x80 + n / 64 % 64 = n / 64 % 64 + 128 := by omega
  have e3 : 0x80 + n % 64 = n % 64 + 128 := by omega
  rw [e1, e2, e3]

theorem hexchar2num_byte (h : HexDigit) : hexchar2num h.byte = some (UInt8.ofNat h.val.val) := by
  obtain ⟨v, u⟩ := h
  revert v u; decide

theorem hexstr2byte_bytes (a b : HexDigit) :
    hexstr2byte a.byte b.byte = some (UInt8.ofNat (a.val.val * 16 + b.val.val)) := by
  unfold hexstr2byte
  rw [hexchar2num_byte, hexchar2num_byte]
  have key : ∀ x y : Fin 16, UInt8.ofNat x.val * 16 + UInt8.ofNat y.val = UInt8.ofNat (x.val * 16 + y.val) := by
    decide
  exact congrArg some (key a.val b.val)

theorem hexstr2rune_bytes (a b c d : HexDigit) :
    hexstr2rune a.byte b.byte c.byte d.byte = some (unitOf a b c d) := by
  unfold hexstr2rune
  rw [hexstr2byte_bytes, hexstr2byte_bytes]
  have ha := a.val.isLt
  have hb := b.val.isLt
  have hc := c.val.isLt
  have hd := d.val.isLt
  have key : (UInt8.ofNat (a.val.val * 16 + b.val.val)).toNat * 256 + (UInt8.ofNat (c.val.val * 16 + d.val.val)).toNat
      = unitOf a b c d := by
    rw [UInt8.toNat_ofNat', UInt8.toNat_ofNat']
    unfold unitOf
    omega
  exact congrArg some key

theorem unitOf_lt (a b c d : HexDigit) : unitOf a b c d < 0x10000 := by
  have := a.val.isLt
  have := b.val.isLt
  have := c.val.isLt
  have := d.val.isLt
  unfold unitOf
  omega

theorem parseQuote_item (i : StrItem) (t buf : Bytes) (ht : t ≠ []) (hi : i.NoSurrogate) :
    parseQuote 34 (i.text ++ t) buf = parseQuote 34 t (buf ++ i.meaning) := by
  cases i with
  | raw c h1 h2 h3 => exact parseQuote_plain _ _ h3 h2
  | esc e =>
    cases e <;> exact parseQuote_simple _ _ _ _ (by decide) (by decide)
  | unicode a b c d =>
    simp only [StrItem.text, List.cons_append, List.nil_append, StrItem.meaning]
    rw [parseQuote_unicode _ _ _ _ _ _ _ _ ht (hexstr2rune_bytes a b c d),
      encodeRune_utf8 (unitOf_lt a b c d) hi]

theorem parseQuote_items (s : Str) (t buf : Bytes) (ht : t ≠ []) (hs : StrOk s) :
    parseQuote 34 (strBody s ++ t) buf = parseQuote 34 t (buf ++ strMeaning s) := by
  induction s generalizing buf with
  | nil => simp [strBody, strMeaning]
  | cons i s ih =>
    have hne : strBody s ++ t ≠ [] := by simp [ht]
    have e : strBody (i :: s) = i.text ++ strBody s := by simp [strBody]
    rw [e, List.append_assoc, parseQuote_item i _ buf hne (hs i (by simp)),
      ih _ (fun j hj => hs j (by simp [hj]))]
    simp [strMeaning]

theorem parseString_str (s : Str) (rest : Bytes) (hs : StrOk s) :
    parseString (strText s ++ rest) = .ok (strMeaning s, true) rest := by
  unfold strText
  simp only [List.cons_append, List.append_assoc, parseString, true_or, if_true]
  rw [parseQuote_items s _ [] (by simp) hs]
  simp [parseQuote_end]

/-! ### Numbers -/

theorem digitsVal_text (d : Digits) (a : Nat) :
    digitsVal (digitsText d) a = some (d.foldl (fun a x => a * 10 + x.val) a) := by
  induction d generalizing a with
  | nil => rfl
  | cons x d ih =>
    have hx := x.isLt
    have h1 : isDigit (UInt8.ofNat (48 + x.val)) = true := isDigit_digitByte hx
    have h2 : (UInt8.ofNat (48 + x.val)).toNat = 48 + x.val := digitByte_toNat hx
    simp only [digitsText, List.map_cons, digitsVal] at ih ⊢
    rw [if_pos h1, h2]
    have : 48 + x.val - 48 = x.val := by omega
    rw [this, ih]
    rfl

theorem digitsVal_text0 (d : Digits) : digitsVal (digitsText d) 0 = some (digitsNat d) := digitsVal_text d 0

theorem digitsText_digits (d : Digits) : ∀ c ∈ digitsText d, isDigit c = true := by
  intro c hc
  obtain ⟨x, _, rfl⟩ := List.mem_map.1 hc
  exact isDigit_digitByte (d := x.val) x.isLt

theorem digitsText_append (a b : Digits) : digitsText (a ++ b) = digitsText a ++ digitsText b := by
  simp [digitsText]

theorem digitsText_length (a : Digits) : (digitsText a).length = a.length := by simp [digitsText]

theorem scanExp_digits (d : Digits) (e : Nat) (u : Bool) (h : d.foldl (fun a x => a * 10 + x.val) e < 100000) :
    scanExp (digitsText d) e u = (d.foldl (fun a x => a * 10 + x.val) e, u, []) := by
  induction d generalizing e with
  | nil => rfl
  | cons x d ih =>
    have hx := x.isLt
    have h1 : isDigit (UInt8.ofNat (48 + x.val)) = true := isDigit_digitByte hx
    have h2 : (UInt8.ofNat (48 + x.val)).toNat = 48 + x.val := digitByte_toNat hx
    have h3 : UInt8.ofNat (48 + x.val) ≠ 95 := isDigit_ne h1 (by decide)
    have hmono : ∀ (l : Digits) (a : Nat), a ≤ l.foldl (fun a x => a * 10 + x.val) a := by
      intro l
      induction l with
      | nil => intro a; exact Nat.le_refl _
      | cons y l ihl => intro a; exact Nat.le_trans (by show a ≤ a * 10 + y.val; omega) (ihl _)
    have he : e < 10000 := by
      have := hmono d (e * 10 + x.val)
      simp only [List.foldl_cons] at h
      omega
    simp only [digitsText, List.map_cons, scanExp] at ih ⊢
    rw [if_neg h3, if_pos h1, if_pos he, h2]
    have : 48 + x.val - 48 = x.val := by omega
    rw [this, ih _ h]
    rfl

/-- The exponent part is read with its value. -/
theorem parseExp_text (e : Exponent) (u : Bool) (h : digitsNat e.digits < 100000) :
    parseExp false u e.text = some (e.value, u) := by
  obtain ⟨up, sg, ds, hne⟩ := e
  obtain ⟨d, ds', rfl⟩ := List.exists_cons_of_ne_nil hne
  have hsc := scanExp_digits (d :: ds') 0 u h
  obtain ⟨b, t, hbt⟩ : ∃ b t, digitsText (d :: ds') = b :: t := ⟨_, _, rfl⟩
  have hb : isDigit b = true := digitsText_digits (d :: ds') b (by rw [hbt]; simp)
  have hfold : List.foldl (fun a (x : Fin 10) => a * 10 + x.val) 0 (d :: ds') = digitsNat (d :: ds') := rfl
  rw [hfold] at hsc
  have hup : lowerByte (if up = true then 69 else 101) = 101 := by cases up <;> decide
  unfold Exponent.text
  unfold parseExp
  simp only [hup, Bool.false_eq_true, if_false, if_true]
  rcases sg with _ | _ | _
  · simp only [List.nil_append, hbt, splitSign_digit hb]
    rw [hbt] at hsc
    simp [hb, hsc, Exponent.value]
  · simp only [List.cons_append, List.nil_append, splitSign, hbt]
    rw [hbt] at hsc
    simp [hb, hsc, Exponent.value]
  · simp only [List.cons_append, List.nil_append, splitSign, hbt]
    rw [hbt] at hsc
    simp [hb, hsc, Exponent.value]

/-- What follows the significant digits. -/
def expText (e : Option Exponent) : Bytes :=
  match e with
  | none => []
  | some e => e.text

def fracText (f : Option Digits) : Bytes :=
  match f with
  | none => []
  | some f => 0x2E :: digitsText f

theorem number_text (n : Number) : n.text = signBytes n.neg ++ (digitsText n.int ++ (fracText n.frac ++ expText n.exp)) := by
  unfold Number.text signBytes fracText expText
  simp only [List.append_assoc]
  rfl

theorem expText_head (e : Option Exponent) : e = none ∧ expText e = [] ∨
    ∃ c t, expText e = c :: t ∧ (c = 69 ∨ c = 101) := by
  cases e with
  | none => exact Or.inl ⟨rfl, rfl⟩
  | some e =>
    right
    refine ⟨_, _, rfl, ?_⟩
    cases e.upper <;> simp

/-- scanning stops at the exponent. -/
theorem scanMant_exp (e : Option Exponent) (st : MantScan) :
    scanMant 10 (expText e) st = { st with rest := expText e } := by
  rcases expText_head e with ⟨_, h⟩ | ⟨c, t, h, hc⟩
  · rw [h, scanMant]
  · rw [h, scanMant]
    rcases hc with rfl | rfl <;> simp [digitValBase, isDigit]

theorem digitsNat_append (a b : Digits) :
    digitsNat (a ++ b) = b.foldl (fun a x => a * 10 + x.val) (digitsNat a) := by
  simp [digitsNat]

theorem scan_number (n : Number) : ∃ st : MantScan,
    scanMant 10 (digitsText n.int ++ (fracText n.frac ++ expText n.exp)) ⟨0, 0, 0, false, false, false, []⟩ = st ∧
    st.mant = n.mant ∧ st.frac = (n.frac.getD []).length ∧ st.sawdigits = true ∧ st.under = false ∧
    st.rest = expText n.exp := by
  refine ⟨_, rfl, ?_⟩
  have hne : (digitsText n.int).isEmpty = false := by
    have := n.int_ne
    cases h : n.int with
    | nil => exact absurd h this
    | cons d t => simp [digitsText]
  rw [scanMant_digits _ _ _ _ (digitsVal_text0 n.int)]
  cases hf : n.frac with
  | none =>
    simp only [fracText, List.nil_append]
    rw [scanMant_exp]
    simp [hne, Number.mant, hf]
  | some f =>
    simp only [fracText, List.cons_append]
    rw [scanMant]
    simp only [show (0x2E : UInt8) ≠ 95 by decide, if_false, if_true, Bool.false_eq_true]
    rw [scanMant_digits _ _ _ _ (digitsVal_text f _), scanMant_exp]
    simp [hne, Number.mant, hf, digitsNat_append, digitsText_length]

theorem number_head (n : Number) : ∃ d t, digitsText n.int ++ (fracText n.frac ++ expText n.exp) = d :: t ∧
    isDigit d = true := by
  have := n.int_ne
  cases h : n.int with
  | nil => exact absurd h this
  | cons x l => exact ⟨_, _, rfl, isDigit_digitByte x.isLt⟩

/-- Characters of a number text. -/
def NumChar (c : UInt8) : Prop := isDigit c = true ∨ c = 45 ∨ c = 43 ∨ c = 46 ∨ c = 69 ∨ c = 101

theorem number_chars (n : Number) : ∀ c ∈ n.text, NumChar c := by
  have hd : ∀ (d : Digits), ∀ c ∈ digitsText d, NumChar c := fun d c hc => Or.inl (digitsText_digits d c hc)
  intro c hc
  rw [number_text] at hc
  rcases List.mem_append.1 hc with h | h
  · cases hn : n.neg <;> rw [hn] at h <;> simp [signBytes] at h
    subst h; exact Or.inr (Or.inl rfl)
  rcases List.mem_append.1 h with h | h
  · exact hd _ c h
  rcases List.mem_append.1 h with h | h
  · cases hf : n.frac with
    | none => rw [hf] at h; simp [fracText] at h
    | some f =>
      rw [hf] at h
      rcases List.mem_cons.1 h with rfl | h
      · unfold NumChar; simp
      · exact hd _ c h
  · cases he : n.exp with
    | none => rw [he] at h; simp [expText] at h
    | some e =>
      rw [he] at h
      rcases List.mem_cons.1 h with rfl | h
      · cases e.upper <;> (unfold NumChar; simp)
      · rcases List.mem_append.1 h with h | h
        · rcases hs : e.sign with _ | _ | _ <;> rw [hs] at h <;> simp at h <;> subst h <;> (unfold NumChar; simp)
        · exact hd _ c h

theorem numChar_facts {c : UInt8} (h : NumChar c) :
    isDelim c = false ∧ lowerByte c ≠ 120 := by
  rcases h with h | rfl | rfl | rfl | rfl | rfl
  · refine ⟨?_, ?_⟩
    · have h1 : c ≠ 32 := isDigit_ne h (by decide)
      have h2 : c ≠ 58 := isDigit_ne h (by decide)
      have h3 : c ≠ 44 := isDigit_ne h (by decide)
      have h4 : c ≠ 9 := isDigit_ne h (by decide)
      have h5 : c ≠ 13 := isDigit_ne h (by decide)
      have h6 : c ≠ 10 := isDigit_ne h (by decide)
      have h7 : c ≠ 125 := isDigit_ne h (by decide)
      have h8 : c ≠ 93 := isDigit_ne h (by decide)
      unfold isDelim
      simp [h1, h2, h3, h4, h5, h6, h7, h8]
    · rw [lowerByte_digit h]; exact isDigit_ne h (by decide)
  all_goals decide

/-- Texts of number characters whose unsigned part starts with a digit go to the decimal reader. -/
theorem parseFloat_num (neg : Bool) (s : Bytes) (d : UInt8) (t : Bytes) (hs : s = d :: t)
    (hd : isDigit d = true) (hx : ∀ x ∈ s, NumChar x) :
    parseFloat (signBytes neg ++ s) = parseNum neg false (signBytes neg ++ s) s := by
  subst hs
  unfold parseFloat
  have hsg : (splitSign (signBytes neg ++ d :: t)).1 = neg ∧ (splitSign (signBytes neg ++ d :: t)).2.2 = d :: t := by
    cases neg
    · simp [signBytes, splitSign_digit hd]
    · simp [signBytes, splitSign]
  simp only [hsg.1, hsg.2]
  have hlow : ∀ c w, lowerBytes (d :: t) = c :: w → c = d := by
    intro c w h; simp [lowerBytes, lowerByte_digit hd] at h; exact h.1.symm
  rw [if_neg, if_neg, if_neg]
  · cases t with
    | nil => simp [hexPrefix]
    | cons c t =>
      have hc := (numChar_facts (hx c (by simp))).2
      unfold hexPrefix
      split
      · rename_i c' _ _ heq
        simp at heq
        obtain ⟨rfl, rfl, rfl⟩ := heq
        simpa using hc
      · simp
  · intro h; have := hlow _ _ h; subst this; revert hd; decide
  · rintro (h | h) <;> (have := hlow _ _ h; subst this; revert hd; decide)

theorem parseFloat_number (n : Number) (hn : n.Ok) : parseFloat n.text = n.double := by
  obtain ⟨d, t, hdt, hd⟩ := number_head n
  have hch := number_chars n
  rw [number_text] at hch ⊢
  rw [parseFloat_num n.neg _ d t hdt hd (fun x hx => hch x (by simp only [List.mem_append]; exact Or.inr (by
    simpa only [List.mem_append] using hx)))]
  obtain ⟨st, hst, h1, h2, h3, h4, h5⟩ := scan_number n
  unfold parseNum
  simp only [Bool.false_eq_true, if_false, hst, h3, if_true, h4, h5]
  have hexp : parseExp false false (expText n.exp) =
      some ((match n.exp with | none => 0 | some e => e.value), false) := by
    cases he : n.exp with
    | none => rfl
    | some e => exact parseExp_text e false (hn e he)
  rw [hexp]
  simp only [Bool.false_and, Bool.false_eq_true, if_false, h1, h2]
  unfold Number.double Number.power
  simp only [Int.one_mul]
  rfl

theorem parseInt_number (n : Number) :
    parseInt n.text = if n.frac = none ∧ n.exp.isNone ∧ InI64 n.intValue then some n.intValue else none := by
  obtain ⟨d, t, hdt, hd⟩ := number_head n
  have hd1 : d ≠ 43 := isDigit_ne hd (by decide)
  have hd2 : d ≠ 45 := isDigit_ne hd (by decide)
  have key : digitsVal (d :: t) 0 = if n.frac = none ∧ n.exp.isNone then some (digitsNat n.int) else none := by
    rw [← hdt, digitsVal_append, digitsVal_text0]
    simp only [Option.bind_some]
    cases hf : n.frac with
    | some f => simp [fracText, digitsVal, isDigit]
    | none =>
      rcases expText_head n.exp with ⟨h1, h2⟩ | ⟨c, u, h, hc⟩
      · simp [fracText, h2, h1, digitsVal, expText]
      · have : n.exp ≠ none := by rintro h'; rw [h'] at h; simp [expText] at h
        rw [h]
        rcases hc with rfl | rfl <;> simp [fracText, digitsVal, isDigit, this]
  rw [number_text, hdt]
  have : parseInt (signBytes n.neg ++ d :: t) =
      match digitsVal (d :: t) 0 with
      | none => none
      | some m => if InI64 (if n.neg then -(m : Int) else m) then some (if n.neg then -(m : Int) else m) else none := by
    cases n.neg
    · simp only [signBytes, Bool.false_eq_true, if_false, List.nil_append]
      unfold parseInt
      split
      · simp_all
      · simp_all
      · simp_all
      · simp only [Bool.false_eq_true, if_false]
        cases digitsVal (d :: t) 0 <;> rfl
    · simp only [signBytes, if_true, List.cons_append, List.nil_append]
      unfold parseInt
      simp only [if_true]
      cases digitsVal (d :: t) 0 <;> rfl
  rw [this, key]
  by_cases h : n.frac = none ∧ n.exp.isNone = true
  · rw [if_pos h]
    show (if InI64 n.intValue then some n.intValue else none) = _
    by_cases h2 : InI64 n.intValue
    · have h3 : n.frac = none ∧ n.exp.isNone = true ∧ InI64 n.intValue := ⟨h.1, h.2, h2⟩
      rw [if_pos h2, if_pos h3]
    · rw [if_neg h2, if_neg (fun h' => h2 h'.2.2)]
  · rw [if_neg h, if_neg (fun h' => h ⟨h'.1, h'.2.1⟩)]

theorem numberOf_number (n : Number) (hn : n.Ok) : numberOf n.text = n.val := by
  unfold numberOf Number.val
  rw [parseInt_number, parseFloat_number n hn]
  by_cases h : n.frac = none ∧ n.exp.isNone = true ∧ InI64 n.intValue
  · rw [if_pos h, if_pos h]
  · rw [if_neg h, if_neg h]
    rfl

theorem number_tok (n : Number) : IsTok n.text ∧ n.text.head? ≠ some 60 ∧ scalarOf n.text = numberOf n.text := by
  obtain ⟨d, t, hdt, hd⟩ := number_head n
  have htext : ∃ c u, n.text = c :: u ∧ (isDigit c = true ∨ c = 45) := by
    rw [number_text, hdt]
    cases n.neg
    · exact ⟨d, t, rfl, Or.inl hd⟩
    · exact ⟨45, d :: t, rfl, Or.inr rfl⟩
  obtain ⟨c, u, hcu, hc⟩ := htext
  have hn : ∀ x : UInt8, isDigit x = false → x ≠ 45 → c ≠ x := by
    rintro x h1 h2 rfl
    rcases hc with hc | hc
    · simp_all
    · exact h2 hc
  refine ⟨⟨fun x hx => (numChar_facts (number_chars n x hx)).1, c, u, hcu, ?_⟩, ?_, ?_⟩
  · exact ⟨hn _ (by decide) (by decide), hn _ (by decide) (by decide), hn _ (by decide) (by decide),
      hn _ (by decide) (by decide)⟩
  · rw [hcu]; simp; exact hn _ (by decide) (by decide)
  · apply scalarOf_number
    have hlow : lowerByte c = c := by
      rcases hc with hc | rfl
      · exact lowerByte_digit hc
      · decide
    intro w hw
    rw [hcu]
    simp only [List.mem_cons, List.not_mem_nil, or_false] at hw
    simp only [lowerBytes, List.map_cons, hlow]
    rcases hw with rfl | rfl | rfl | rfl | rfl | rfl | rfl
    · simp
    all_goals
      intro he
      simp at he
      exact hn _ (by decide) (by decide) he.1

end Jsonutils
