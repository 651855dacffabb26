import Verif.Prelude

/-!
# Model of the parts of Go's `strconv` / `fmt` that jsonutils calls

External code (Go standard library), modelled concretely from its documentation:
`strconv.ParseInt(_,10,64)`, `strconv.ParseUint(_,10,64)`, `strconv.FormatInt`/`fmt %d`,
`strconv.ParseFloat(_,64)`, `strconv.FormatFloat(_, 'f', -1, bits)`, `fmt %f`, and the IEEE-754 formats.
-/

namespace Jsonutils

/-! ## Integers -/

/-- ASCII digit character of `d < 10`. -/
def digitByte (d : Nat) : UInt8 := UInt8.ofNat (48 + d)

def decAux : Nat → Nat → Bytes → Bytes
  | 0, _, acc => acc
  | f + 1, n, acc =>
    let acc' := digitByte (n % 10) :: acc
    if n / 10 = 0 then acc' else decAux f (n / 10) acc'

/-- Decimal digits of a natural number, no leading zero (`"0"` for 0). -/
def natDec (n : Nat) : Bytes := decAux (n + 1) n []

/-- `strconv.FormatInt(n, 10)` = `fmt.Sprintf("%d", n)`.
Used at string.go:31-33, marshal.go:173, stringsegment.go:60, write.go:54, jsonpointer.go:60. -/
def intDec (n : Int) : Bytes :=
  if n < 0 then 45 :: natDec n.natAbs else natDec n.natAbs

/-- Value of an all-digit string continuing from `acc`; `none` on a non-digit. -/
def digitsVal : Bytes → Nat → Option Nat
  | [], acc => some acc
  | c :: cs, acc => if isDigit c then digitsVal cs (acc * 10 + (c.toNat - 48)) else none

def i64min : Int := -9223372036854775808
def i64max : Int := 9223372036854775807

/-- int64 range. -/
def InI64 (n : Int) : Prop := i64min ≤ n ∧ n ≤ i64max

instance (n : Int) : Decidable (InI64 n) := by unfold InI64; infer_instance

/-- `strconv.ParseUint(s, 10, 64)`; `none` = any error. -/
def parseUint (s : Bytes) : Option Nat :=
  match s with
  | [] => none
  | _ => match digitsVal s 0 with
    | none => none
    | some n => if n < 2 ^ 64 then some n else none

/-- `strconv.ParseInt(s, 10, 64)`; `none` = any error (syntax or range).
Used at jsonutils.go:265, 286, access.go:367, stringsegment.go:67, unmarshal.go:368.
Base 10 accepts an optional sign and digits only (underscores need base 0). -/
def parseInt (s : Bytes) : Option Int :=
  let go (neg : Bool) (ds : Bytes) : Option Int :=
    match ds with
    | [] => none
    | _ => match digitsVal ds 0 with
      | none => none
      | some n =>
        let v : Int := if neg then -(n : Int) else n
        if InI64 v then some v else none
  match s with
  | [] => none
  | 43 :: ds => go false ds
  | 45 :: ds => go true ds
  | _ => go false s

/-! ## IEEE-754 numbers -/

/-- A Go `float64` value: `fin neg m e` is `± m · 2^(e-1074)`. -/
inductive GoFloat where
  | nan
  | inf (neg : Bool)
  | fin (neg : Bool) (m e : Nat)
  deriving DecidableEq, Repr, Inhabited

/-- A binary format: `m < 2^prec`, `e ≤ maxE`, value `m · 2^(e-bias)`. -/
structure FFmt where
  prec : Nat
  bias : Nat
  maxE : Nat

def f64 : FFmt := ⟨53, 1074, 2045⟩
def f32 : FFmt := ⟨24, 149, 253⟩

/-- Canonical pair for a format: subnormal/zero (`e = 0`) or normalised. -/
def Canon (f : FFmt) (m e : Nat) : Prop := m < 2 ^ f.prec ∧ e ≤ f.maxE ∧ (e = 0 ∨ 2 ^ (f.prec - 1) ≤ m)

instance (f m e) : Decidable (Canon f m e) := by unfold Canon; infer_instance

/-- Canonical `float64`. -/
def GoFloat.Canonical : GoFloat → Prop
  | .fin _ m e => Canon f64 m e
  | _ => True

instance (x : GoFloat) : Decidable x.Canonical := by
  cases x <;> unfold GoFloat.Canonical <;> infer_instance

/-- Go's `==` on `float64`: NaN differs from everything, the zeros are equal. -/
def GoFloat.feq : GoFloat → GoFloat → Bool
  | .nan, _ => false
  | _, .nan => false
  | .inf a, .inf b => a == b
  | .fin a m e, .fin b m' e' => (m == 0 && m' == 0) || (a == b && m == m' && e == e')
  | _, _ => false

/-- Round-half-even division. -/
def roundDiv (a b : Nat) : Nat :=
  let q := a / b
  let r := a % b
  if b < 2 * r ∨ (2 * r = b ∧ q % 2 = 1) then q + 1 else q

/-- Round the positive rational `num/den` to the nearest value of the format, ties to even.
`none` = overflow. -/
def roundPos (f : FFmt) (num den : Nat) : Option (Nat × Nat) :=
  let N := num * 2 ^ f.bias
  let e := (Nat.log2 (N / den) + 1) - f.prec
  let m := roundDiv N (den * 2 ^ e)
  let (m, e) := if m = 2 ^ f.prec then (2 ^ (f.prec - 1), e + 1) else (m, e)
  if f.maxE < e then none else some (m, e)

/-! ### ParseFloat -/

/-- State of the mantissa scan of `strconv.readFloat`. -/
structure MantScan where
  mant : Nat
  nd : Nat          -- digits seen
  frac : Nat        -- digits seen after the dot
  sawdot : Bool
  sawdigits : Bool
  under : Bool
  rest : Bytes

def hexDigitVal (c : UInt8) : Option Nat :=
  if 48 ≤ c && c ≤ 57 then some (c.toNat - 48)
  else if 97 ≤ c && c ≤ 102 then some (c.toNat - 87)
  else if 65 ≤ c && c ≤ 70 then some (c.toNat - 55)
  else none

def digitValBase (base : Nat) (c : UInt8) : Option Nat :=
  if base = 16 then hexDigitVal c
  else if isDigit c then some (c.toNat - 48) else none

def scanMant (base : Nat) : Bytes → MantScan → MantScan
  | [], st => { st with rest := [] }
  | c :: cs, st =>
    if c = 95 then scanMant base cs { st with under := true }
    else if c = 46 then
      if st.sawdot then { st with rest := c :: cs }
      else scanMant base cs { st with sawdot := true }
    else match digitValBase base c with
      | some d => scanMant base cs
          { st with mant := st.mant * base + d, nd := st.nd + 1,
                    frac := if st.sawdot then st.frac + 1 else st.frac, sawdigits := true }
      | none => { st with rest := c :: cs }

/-- Exponent digits with the `e < 10000` saturation of `readFloat`. -/
def scanExp : Bytes → Nat → Bool → Nat × Bool × Bytes
  | [], e, u => (e, u, [])
  | c :: cs, e, u =>
    if c = 95 then scanExp cs e true
    else if isDigit c then scanExp cs (if e < 10000 then e * 10 + (c.toNat - 48) else e) u
    else (e, u, c :: cs)

/-- `strconv.underscoreOK`. State: 48 digit, 95 underscore, 33 other, 94 start. -/
def underscoreLoop (hex : Bool) : Bytes → UInt8 → Bool
  | [], i => i != 95
  | c :: cs, i =>
    if isDigit c || (hex && 97 ≤ lowerByte c && lowerByte c ≤ 102) then underscoreLoop hex cs 48
    else if c = 95 then if i != 48 then false else underscoreLoop hex cs 95
    else if i = 95 then false else underscoreLoop hex cs 33

def underscoreOK (s : Bytes) : Bool :=
  let s := match s with
    | 43 :: r => r
    | 45 :: r => r
    | _ => s
  match s with
  | 48 :: c :: r =>
    if lowerByte c = 120 then underscoreLoop true r 48
    else if lowerByte c = 98 || lowerByte c = 111 then underscoreLoop false r 48
    else underscoreLoop false s 94
  | _ => underscoreLoop false s 94

/-- `± num/den` rounded to float64, `none` on overflow (ErrRange). -/
def mkFloat (neg : Bool) (num den : Nat) : Option GoFloat :=
  (roundPos f64 num den).map fun p => .fin neg p.1 p.2

/-- Optional sign: (negative, sign present, rest). -/
def splitSign : Bytes → Bool × Bool × Bytes
  | 43 :: r => (false, true, r)
  | 45 :: r => (true, true, r)
  | s => (false, false, s)

/-- Hexadecimal prefix `0x` followed by at least one more byte. -/
def hexPrefix : Bytes → Bool
  | 48 :: c :: _ :: _ => lowerByte c == 120
  | _ => false

/-- Optional exponent part of `readFloat`: value and the underscore flag; `none` = syntax error. -/
def parseExp (hex under : Bool) : Bytes → Option (Int × Bool)
  | [] => if hex then none else some (0, under)
  | c :: r =>
    if lowerByte c = (if hex then 112 else 101) then
      let sr := splitSign r
      match sr.2.2 with
      | [] => none
      | d :: ds =>
        if isDigit d then
          let ex := scanExp (d :: ds) 0 under
          if ex.2.2.isEmpty then some ((if sr.1 then -(ex.1 : Int) else (ex.1 : Int)), ex.2.1) else none
        else none
    else none

/-- Numeric part of `ParseFloat` (after the sign, not inf/nan). `s` is the whole text, for `underscoreOK`. -/
def parseNum (neg hex : Bool) (s digits : Bytes) : Option GoFloat :=
  let st := scanMant (if hex then 16 else 10) digits ⟨0, 0, 0, false, false, false, []⟩
  if st.sawdigits then
    match parseExp hex st.under st.rest with
    | none => none
    | some (e, u) =>
      if u && !underscoreOK s then none
      else
        let b := if hex then 2 else 10
        let ex : Int := e - (if hex then 4 else 1) * (st.frac : Int)
        if 0 ≤ ex then mkFloat neg (st.mant * b ^ ex.toNat) 1
        else mkFloat neg st.mant (b ^ (-ex).toNat)
  else none

/-- `strconv.ParseFloat(s, 64)`; `none` = any error (syntax or range).
Used at jsonutils.go:290, access.go:413, unmarshal.go:384. -/
def parseFloat (s : Bytes) : Option GoFloat :=
  let sg := splitSign s
  let low := lowerBytes sg.2.2
  if low = b!"inf" ∨ low = b!"infinity" then some (.inf sg.1)
  else if low = b!"nan" then if sg.2.1 then none else some .nan
  else if hexPrefix sg.2.2 then parseNum sg.1 true s (sg.2.2.drop 2)
  else parseNum sg.1 false s sg.2.2

/-! ### FormatFloat -/

/-- Is the rational `c · 10^k` rounded to `(m, e)` by the format? -/
def roundsTo (f : FFmt) (c : Nat) (k : Int) (m e : Nat) : Bool :=
  if 0 ≤ k then roundPos f (c * 10 ^ k.toNat) 1 == some (m, e)
  else roundPos f c (10 ^ (-k).toNat) == some (m, e)

/-- Shortest decimal `c · 10^k` that rounds to `m · 2^(e-bias)`: the largest `k` for which a neighbouring multiple
of `10^k` rounds back, the closer of the two neighbours if both do.  The last alternative (exact expansion) keeps
the function total. -/
def shortestAux (f : FFmt) (m e : Nat) : Nat → Int → Nat × Int
  | 0, _ => (m * 2 ^ e * 5 ^ f.bias, -(f.bias : Int))
  | fuel + 1, k =>
    -- value / 10^k = a / b
    let a := if 0 ≤ k then m * 2 ^ e else m * 2 ^ e * 10 ^ (-k).toNat
    let b := if 0 ≤ k then 2 ^ f.bias * 10 ^ k.toNat else 2 ^ f.bias
    let c := a / b
    let lo := roundsTo f c k m e
    let hi := roundsTo f (c + 1) k m e
    if lo && hi then
      let r := 2 * (a % b)
      if r < b || (r == b && c % 2 == 0) then (c, k) else (c + 1, k)
    else if lo then (c, k)
    else if hi then (c + 1, k)
    else shortestAux f m e fuel (k - 1)

def shortest (f : FFmt) (m e : Nat) : Nat × Int :=
  let k0 := (natDec (m * 2 ^ e / 2 ^ f.bias)).length
  shortestAux f m e (k0 + f.bias + 1) k0

/-- Positional decimal text of `c · 10^k`. -/
def decText (c : Nat) (k : Int) : Bytes :=
  if 0 ≤ k then natDec c ++ List.replicate k.toNat 48
  else
    let d := (-k).toNat
    let s := natDec c
    let s := List.replicate (d + 1 - s.length) 48 ++ s
    s.take (s.length - d) ++ 46 :: s.drop (s.length - d)

def signBytes (neg : Bool) : Bytes := if neg then [45] else []

/-- `'f', -1` text of a finite non-special magnitude in a format. -/
def fmtMag (f : FFmt) (m e : Nat) : Bytes :=
  if m = 0 then [48]
  else let (c, k) := shortest f m e; decText c k

/-- `strconv.FormatFloat(x, 'f', -1, bits)` for `bits` 32 or 64. Used at string.go:39. -/
def formatFloat (x : GoFloat) (bits : Nat) : Bytes :=
  match x with
  | .nan => b!"NaN"
  | .inf neg => if neg then b!"-Inf" else b!"+Inf"
  | .fin neg m e =>
    if bits = 32 then
      match roundPos f32 (m * 2 ^ e) (2 ^ f64.bias) with
      | none => if neg then b!"-Inf" else b!"+Inf"
      | some (m', e') => signBytes neg ++ fmtMag f32 m' e'
    else signBytes neg ++ fmtMag f64 m e

/-- `fmt.Sprintf("%f", x)`: six decimals, exact value rounded half-even.
Used at marshal.go:183, 193, unmarshal.go:234, 238, 285. -/
def sprintfF (x : GoFloat) : Bytes :=
  match x with
  | .nan => b!"NaN"
  | .inf neg => if neg then b!"-Inf" else b!"+Inf"
  | .fin neg m e => signBytes neg ++ decText (roundDiv (m * 2 ^ e * 10 ^ 6) (2 ^ f64.bias)) (-6)

/-- `float64(n)` for an int64. access.go:406, unmarshal.go:126. -/
def floatOfInt (n : Int) : GoFloat :=
  if n = 0 then .fin false 0 0
  else match roundPos f64 n.natAbs 1 with
    | some (m, e) => .fin (n < 0) m e
    | none => .inf (n < 0)

end Jsonutils
