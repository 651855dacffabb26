import Verif.Model.Print

/-!
# The layout of `PrettyString`

A text is a list of lines; a line is its level and what stands on it.
-/

namespace Jsonutils

/-- Two blanks for each level. -/
def lineText (l : Nat × Bytes) : Bytes := (List.replicate l.1 [32, 32]).flatten ++ l.2

/-- Lines one under the other. -/
def linesText : List (Nat × Bytes) → Bytes
  | [] => []
  | [l] => lineText l
  | l :: ls => lineText l ++ 10 :: linesText ls

/-- A comma behind the last line. -/
def withComma : List (Nat × Bytes) → List (Nat × Bytes)
  | [] => []
  | [l] => [(l.1, l.2 ++ [44])]
  | l :: ls => l :: withComma ls

/-- Blocks of lines with commas between them. -/
def commaBlocks : List (List (Nat × Bytes)) → List (Nat × Bytes)
  | [] => []
  | [b] => b
  | b :: bs => withComma b ++ commaBlocks bs

mutual
/-- The lines of a document at a level.  Brackets stand on lines of their own, unless there is nothing between them; elements of an array are
one level deeper than its brackets.  So are the keys of a dictionary; a value that is an array or a dictionary begins on the next line, one
level deeper than its key, other values follow their key.  Keys stand in quotes. -/
def J.lines : J → Nat → List (Nat × Bytes)
  | .arr [], n => [(n, b!"[]")]
  | .arr (x :: xs), n => (n, b!"[") :: commaBlocks (J.blocks (x :: xs) (n + 1)) ++ [(n, b!"]")]
  | .dict _ [], n => [(n, b!"{}")]
  | .dict _ (kv :: kvs), n => (n, b!"{") :: commaBlocks (J.blocksf (kv :: kvs) (n + 1)) ++ [(n, b!"}")]
  | v, n => [(n, v.toBytes)]
def J.blocks : List J → Nat → List (List (Nat × Bytes))
  | [], _ => []
  | x :: xs, n => x.lines n :: J.blocks xs n
def J.blocksf : List (Bytes × J) → Nat → List (List (Nat × Bytes))
  | [], _ => []
  | (k, .arr xs) :: kvs, n => ((n, 34 :: k ++ b!"\":") :: J.lines (.arr xs) (n + 1)) :: J.blocksf kvs n
  | (k, .dict i xs) :: kvs, n => ((n, 34 :: k ++ b!"\":") :: J.lines (.dict i xs) (n + 1)) :: J.blocksf kvs n
  | (k, x) :: kvs, n => [(n, 34 :: k ++ b!"\": " ++ x.toBytes)] :: J.blocksf kvs n
end

/-- The lines of a text. -/
def splitLines : Bytes → List Bytes
  | [] => [[]]
  | c :: s => if c = 10 then [] :: splitLines s else match splitLines s with
    | l :: ls => (c :: l) :: ls
    | [] => [[c]]

mutual
/-- No key in the document contains a line break. -/
def J.OneLineKeys : J → Prop
  | .arr xs => J.OneLineKeyss xs
  | .dict _ kvs => J.OneLineKeysf kvs
  | _ => True
def J.OneLineKeyss : List J → Prop
  | [] => True
  | x :: xs => x.OneLineKeys ∧ J.OneLineKeyss xs
def J.OneLineKeysf : List (Bytes × J) → Prop
  | [] => True
  | (k, x) :: xs => 10 ∉ k ∧ x.OneLineKeys ∧ J.OneLineKeysf xs
end

end Jsonutils
