import Verif.Spec.Mutable

/-!
# Specification: converting documents

`Tree.node` is the mutable collection a document should become; `Copies` is what this version of the code needs of the
values in the document.
-/

namespace Fleece

mutual
/-- The document as a mutable collection. Of two entries with the same key the later one counts. -/
def Tree.node : Tree → Node
  | .arr xs => .arr (Tree.nodes xs)
  | .dict kvs => .dict (Tree.assignAll kvs [])
  | t => .leaf t

/-- The same for each. -/
def Tree.nodes : List Tree → List Node
  | [] => []
  | t :: ts => t.node :: Tree.nodes ts

/-- Assign every entry. -/
def Tree.assignAll : List (List UInt8 × Tree) → List (List UInt8 × Node) → List (List UInt8 × Node)
  | [], acc => acc
  | e :: es, acc => Tree.assignAll es (Node.assign e.1 e.2.node acc)
end

/-- No table mistakes `k` for another key. -/
def ScopeKeeps (scope : Option SharedKeys) (k : List UInt8) : Prop := ∀ sk, scope = some sk → KeyKept sk k

/-- The values of a document, down to a depth, are copied faithfully by this version of the code: a value of type `Int` is
between -2048 and 2047, an unsigned number can be written (see `WordKept`), a 32-bit float survives the conversion to 64
bits and back (true in IEEE arithmetic, except that a NaN may get another payload), and the keys of dicts are in `K`. -/
def Copies (m : Mem) (F : FloatOps) (scope : Option SharedKeys) (K : List UInt8 → Prop) : Nat → Val → Prop
  | 0, _ => True
  | depth + 1, x =>
    (x.type m = .ok .int → ∀ i, x.toInt m F = .ok i → ShortRange i) ∧
    (x.type m = .ok .unsignedInt → ∀ n, x.toUnsignedInt m F = .ok n → n ≤ 2047 ∨ WordKept n) ∧
    (x.type m = .ok .float → ∀ d, x.toDouble m F = .ok d → F.widen (F.narrow d) = d) ∧
    (x.type m = .ok .array → ∀ it xs, x.iter m = .ok it → collect m .ok (it.len + 1) it = .ok xs →
      ∀ y ∈ xs, Copies m F scope K depth y) ∧
    (x.type m = .ok .dict → ∀ it kvs, x.dictIter m = .ok it → collectDict m scope .ok (it.len + 1) it = .ok kvs →
      ∀ e ∈ kvs, K e.1 ∧ Copies m F scope K depth e.2)

/-- An encoded value: the bytes, the scope of the address, where the value is, and how deep it is nested. -/
structure Source where
  m : Mem
  scope : Option SharedKeys
  v : Val
  depth : Nat

/-- The value is `t`, it can be copied, and its keys are in `K`. -/
structure Source.Good (F : FloatOps) (K : List UInt8 → Prop) (b : Source) (t : Tree) : Prop where
  size : b.m.data.length < 2 ^ 63
  table : ∀ sk, b.scope = some sk → sk.WF
  reads : readTree b.m F b.scope b.depth b.v = .ok t
  copies : Copies b.m F b.scope K b.depth b.v

end Fleece
