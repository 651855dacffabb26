import Verif.Model.Print

/-!
# The size of a document
-/

namespace Jsonutils

mutual
/-- The number of values in a document: itself, and those inside. -/
def J.nodes : J → Nat
  | .arr xs => 1 + J.nodess xs
  | .dict _ kvs => 1 + J.nodesf kvs
  | _ => 1
def J.nodess : List J → Nat
  | [] => 0
  | x :: xs => x.nodes + J.nodess xs
def J.nodesf : List (Bytes × J) → Nat
  | [] => 0
  | (_, x) :: kvs => x.nodes + J.nodesf kvs
end

mutual
/-- The bytes of all its strings and keys. -/
def J.letters : J → Nat
  | .str s => s.length
  | .arr xs => J.letterss xs
  | .dict _ kvs => J.lettersf kvs
  | _ => 0
def J.letterss : List J → Nat
  | [] => 0
  | x :: xs => x.letters + J.letterss xs
def J.lettersf : List (Bytes × J) → Nat
  | [] => 0
  | (k, x) :: kvs => k.length + x.letters + J.lettersf kvs
end

mutual
/-- How deep it is nested: 1 for a scalar and for an empty container. -/
def J.depth : J → Nat
  | .arr xs => 1 + J.depths xs
  | .dict _ kvs => 1 + J.depthf kvs
  | _ => 1
def J.depths : List J → Nat
  | [] => 0
  | x :: xs => max x.depth (J.depths xs)
def J.depthf : List (Bytes × J) → Nat
  | [] => 0
  | (_, x) :: kvs => max x.depth (J.depthf kvs)
end

end Jsonutils
