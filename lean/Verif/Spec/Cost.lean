import Verif.Spec.Build

/-! # Specification: the size of a document -/

namespace Fleece

mutual
/-- How many values and keys a document has, itself included. -/
def Tree.items : Tree → Nat
  | .arr xs => 1 + Tree.itemsList xs
  | .dict kvs => 1 + Tree.itemsDict kvs
  | _ => 1

def Tree.itemsList : List Tree → Nat
  | [] => 0
  | t :: ts => t.items + Tree.itemsList ts

def Tree.itemsDict : List (List UInt8 × Tree) → Nat
  | [] => 0
  | e :: es => 1 + e.2.items + Tree.itemsDict es
end

mutual
/-- How deep the nesting of a document is: 1 for a document without contents. -/
def Tree.height : Tree → Nat
  | .arr xs => 1 + Tree.heightList xs
  | .dict kvs => 1 + Tree.heightDict kvs
  | _ => 1

def Tree.heightList : List Tree → Nat
  | [] => 0
  | t :: ts => max t.height (Tree.heightList ts)

/-- (A key is a string.) -/
def Tree.heightDict : List (List UInt8 × Tree) → Nat
  | [] => 0
  | e :: es => max (max 1 e.2.height) (Tree.heightDict es)
end

end Fleece
