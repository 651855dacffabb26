import Verif.Prelude

/-!
# locales/locales.go: the message catalogue

The tables are transcribed from the generated file; a string constant is the concatenation of its pieces.
-/

namespace Jsonutils

/-- locales/locales.go:11-14 `dictionary`. -/
structure Catalogue where
  index : List Nat
  data : Bytes

/-- locales/locales.go:45-68 `messageKeyToIndex`. -/
def messageKeyToIndex : List (Bytes × Nat) :=
  [(b!"Cannot find JSONDict key", 20),
   (b!"Illformat", 21),
   (b!"do not known how to deserialize json into this interface type", 16),
   (b!"fail to insert object", 0),
   (b!"invalid 4 byte rune", 13),
   (b!"invalid char", 11),
   (b!"invalid hex", 12),
   (b!"key not found", 7),
   (b!"map key must be string", 17),
   (b!"missing input field", 18),
   (b!"nil input field", 19),
   (b!"not a valid JSONArray", 2),
   (b!"not a valid JSONDict", 1),
   (b!"not a valid boolean", 5),
   (b!"not a valid float", 4),
   (b!"not a valid number", 3),
   (b!"not a valid string", 6),
   (b!"out of index range", 10),
   (b!"out of key range", 9),
   (b!"unmarshal array length mismatch", 15),
   (b!"unmarshal type mismatch", 14),
   (b!"unsupported operation", 8)]

/-- locales/locales.go:70-77 `en_USIndex`. -/
def enUSIndex : List Nat := [0, 22, 43, 65, 84, 102, 122, 141, 155, 177, 194, 213, 226, 238, 258, 282, 314, 376, 399, 419, 435, 460, 470]

/-- locales/locales.go:79-87 `en_USData`. -/
def enUSData : Bytes :=
  b!"\x02fail to insert object" ++
  b!"\x02not a valid JSONDict" ++
  b!"\x02not a valid JSONArray" ++
  b!"\x02not a valid number" ++
  b!"\x02not a valid float" ++
  b!"\x02not a valid boolean" ++
  b!"\x02not a valid string" ++
  b!"\x02key not found" ++
  b!"\x02unsupported operation" ++
  b!"\x02out of key range" ++
  b!"\x02out of index range" ++
  b!"\x02invalid char" ++
  b!"\x02invalid hex" ++
  b!"\x02invalid 4 byte rune" ++
  b!"\x02unmarshal type mismatch" ++
  b!"\x02unmarshal array length mismatch" ++
  b!"\x02do not known how to deserialize json into this interface type" ++
  b!"\x02map key must be string" ++
  b!"\x02missing input field" ++
  b!"\x02nil input field" ++
  b!"\x02Cannot find JSONDict key" ++
  b!"\x02Illformat"

/-- locales/locales.go:89-96 `zh_CNIndex`. -/
def zhCNIndex : List Nat := [0, 23, 38, 54, 70, 89, 108, 127, 149, 168, 193, 216, 232, 253, 267, 292, 341, 341, 379, 401, 424, 445, 461]

/-- locales/locales.go:98-103 `zh_CNData`. -/
def zhCNData : Bytes :=
  b!"\x02插入JSONObject失败" ++
  b!"\x02不是JSONDict" ++
  b!"\x02不是JSONArray" ++
  b!"\x02无数的整数" ++
  b!"\x02无数的浮点数" ++
  b!"\x02无效的布尔值" ++
  b!"\x02无效的字符串" ++
  b!"\x02找不到指定键值" ++
  b!"\x02不支持的操作" ++
  b!"\x02找不到指定键序列" ++
  b!"\x02JSON数组下标越界" ++
  b!"\x02无数的字符" ++
  b!"\x02无效的16进制串" ++
  b!"\x02无效的rune" ++
  b!"\x02unmarshal类型不匹配" ++
  b!"\x02unmarshal时Go数组与JSON array长度不匹配" ++
  b!"\x02JSON字典的键类型必须是string" ++
  b!"\x02找不到输入字段" ++
  b!"\x02输入字段值为null" ++
  b!"\x02找不到JSONDict键" ++
  b!"\x02无效的格式"

/-- locales/locales.go:31-34. -/
def enUS : Catalogue := ⟨enUSIndex, enUSData⟩
def zhCN : Catalogue := ⟨zhCNIndex, zhCNData⟩

/-- Outcome of `Lookup`. -/
inductive LookupOut where
  | found (data : Bytes)
  | missing
  | panic
  deriving DecidableEq, Repr

/-- Go map lookup. -/
def keyIndex : List (Bytes × Nat) → Bytes → Option Nat
  | [], _ => none
  | (k, i) :: r, key => if k = key then some i else keyIndex r key

/-- locales/locales.go:16-26 `Lookup(key)`; index and slice expressions out of bounds panic. -/
def Catalogue.lookup (d : Catalogue) (key : Bytes) : LookupOut :=
  match keyIndex messageKeyToIndex key with
  | none => .missing
  | some p => match d.index[p]?, d.index[p + 1]? with
    | some start, some stop =>
      if start = stop then .missing
      else if start ≤ stop ∧ stop ≤ d.data.length then .found ((d.data.take stop).drop start)
      else .panic
    | _, _ => .panic

/-- errors.go:9-39: the error constants of the package. -/
def errorMessages : List Bytes :=
  [b!"fail to insert object",
   b!"not a valid JSONDict",
   b!"not a valid JSONArray",
   b!"not a valid number",
   b!"not a valid float",
   b!"not a valid boolean",
   b!"not a valid string",
   b!"key not found",
   b!"unsupported operation",
   b!"out of key range",
   b!"out of index range",
   b!"invalid char",
   b!"invalid hex",
   b!"invalid 4 byte rune",
   b!"unmarshal type mismatch",
   b!"unmarshal array length mismatch",
   b!"do not known how to deserialize json into this interface type",
   b!"map key must be string",
   b!"missing input field",
   b!"nil input field",
   b!"Cannot find JSONDict key",
   b!"Illformat"]

end Jsonutils
