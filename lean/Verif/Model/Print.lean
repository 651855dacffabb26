import Verif.Model.Lex

/-!
# Serialisation: string.go, write.go, jsonutils.go:371-422, 571-650
-/

namespace Jsonutils

/-- string.go:36-38: the width actually used by `JSONFloat.String`. -/
def floatBits (bit : Nat) : Nat := if bit ≠ 32 ∧ bit ≠ 64 then 64 else bit

mutual
/-- `String()` = `buildString` into an empty builder: string.go:23-60, write.go:28-81, jsonpointer.go:59-69. -/
def J.toBytes : J → Bytes
  | .null => b!"null"
  | .bool true => b!"true"
  | .bool false => b!"false"
  | .int n => intDec n
  | .float x bit => formatFloat x (floatBits bit)
  | .str s => quoteString s
  | .arr xs => 91 :: (J.arrBytes xs true ++ [93])
  | .dict id kvs =>
    -- write.go:48-70
    if 0 < id then
      123 :: (quoteString jsonPointerKey ++ 58 :: intDec id ++ J.dictBytes kvs false ++ [125])
    else 123 :: (J.dictBytes kvs true ++ [125])
  | .ptr id => 60 :: (intDec id ++ [62])

/-- write.go:72-81, elements with separating commas (`first` = `idx == 0`). -/
def J.arrBytes : List J → Bool → Bytes
  | [], _ => []
  | x :: xs, first => (if first then [] else [44]) ++ x.toBytes ++ J.arrBytes xs false

/-- write.go:57-68. -/
def J.dictBytes : List (Bytes × J) → Bool → Bytes
  | [], _ => []
  | (k, x) :: kvs, first =>
    (if first then [] else [44]) ++ quoteString k ++ 58 :: x.toBytes ++ J.dictBytes kvs false
end

/-- `level` copies of two spaces: jsonutils.go:373-375, 578-581, 631-634. -/
def indent (level : Nat) : Bytes := List.replicate (2 * level) 32

/-- jsonutils.go:597-599 the test "dictionary or array". -/
def J.isDictOrArr : J → Bool
  | .arr _ => true
  | .dict _ _ => true
  | _ => false

mutual
/-- `prettyString(level)`: jsonutils.go:371-378 (scalars), 575-614 (dict), 628-650 (array), jsonpointer.go:91-93. -/
def J.pretty : J → Nat → Bytes
  | .arr [], level => indent level ++ b!"[]"
  | .arr (x :: xs), level => indent level ++ 91 :: (J.prettyArr (x :: xs) level true ++ 10 :: indent level ++ [93])
  | .dict _ [], level => indent level ++ b!"{}"
  | .dict _ (kv :: kvs), level =>
    indent level ++ 123 :: (J.prettyDict (kv :: kvs) level true ++ 10 :: indent level ++ [125])
  | v, level => indent level ++ v.toBytes

def J.prettyArr : List J → Nat → Bool → Bytes
  | [], _, _ => []
  | x :: xs, level, first =>
    (if first then [] else [44]) ++ 10 :: (x.pretty (level + 1) ++ J.prettyArr xs level false)

/-- jsonutils.go:585-607: keys are written raw between quotes. -/
def J.prettyDict : List (Bytes × J) → Nat → Bool → Bytes
  | [], _, _ => []
  | (k, x) :: kvs, level, first =>
    (if first then [] else [44]) ++ 10 :: (indent level ++ 32 :: 32 :: 34 :: (k ++ 34 :: 58 ::
      ((if x.isDictOrArr then 10 :: x.pretty (level + 2) else 32 :: x.toBytes)
        ++ J.prettyDict kvs level false)))
end

/-- `PrettyString()`: jsonutils.go:380-382, 392-394, 400-418, 571-573, 624-626. -/
def J.prettyString (v : J) : Bytes := v.pretty 0

end Jsonutils
