import Verif.Spec.Copy
import Verif.Spec.Doc
import Verif.Model.WriteFleece

/-!
# Specification: encoder calls including `write_fleece`
-/

namespace Fleece

/-- The documented effect of writing a whole value: a scalar is like `write_value`; a collection is opened (or refused
like `begin_array`, `begin_dict`), filled and closed. -/
def Build.accept (b : Build) (t : Tree) : Except EncodeError Build :=
  match t with
  | .arr _ => (b.open (.arr []) .multiTopLevelCollection).map fun _ => Build.close b.stack t
  | .dict _ => (b.open (.dict [] none) .collectionNotOpen).map fun _ => Build.close b.stack t
  | t => b.put t

/-- A call that builds a document, or `write_fleece`. -/
inductive Call where
  | op (o : Op)
  | fleece (b : Source)

/-- One call. -/
def Enc.call (c : Cfg) (F : FloatOps) (e : Enc) : Call → Enc.OutR
  | .op o => (e.step c o).lift
  | .fleece b => Enc.writeFleece c b.m F b.scope b.depth b.v e

/-- Do the calls one after the other, with the `Result` of each. -/
def Enc.calls (c : Cfg) (F : FloatOps) (e : Enc) : List Call → R (Enc × List (Except EncodeError Unit))
  | [] => .ok (e, [])
  | call :: calls => do
    let (e, r) ← e.call c F call
    let (e, rs) ← e.calls c F calls
    pure (e, r :: rs)

/-- The documented effect of a call. An error leaves everything as it was. `tree` gives the values that are copied. -/
def Build.call (F : FloatOps) (tree : Source → Tree) (b : Build) : Call → Build × Except EncodeError Unit
  | .op o => b.next F o
  | .fleece s => match b.accept (tree s) with
    | .ok b' => (b', .ok ())
    | .error x => (b, .error x)

/-- The documented effect of the calls. -/
def Build.calls (F : FloatOps) (tree : Source → Tree) (b : Build) : List Call → Build × List (Except EncodeError Unit)
  | [] => (b, [])
  | call :: calls =>
    let (b', r) := b.call F tree call
    let (b'', rs) := b'.calls F tree calls
    (b'', r :: rs)

mutual
/-- An upper bound, in bytes, of what writing a value contributes: 24 for a scalar and for each bracket and key, and the
lengths of strings, data and keys. -/
def Tree.weight : Tree → Nat
  | .arr xs => 48 + Tree.weights xs
  | .dict kvs => 48 + Tree.entryWeights kvs
  | .str s => 24 + s.length
  | .data d => 24 + d.length
  | _ => 24

def Tree.weights : List Tree → Nat
  | [] => 0
  | t :: ts => t.weight + Tree.weights ts

def Tree.entryWeights : List (List UInt8 × Tree) → Nat
  | [] => 0
  | e :: es => 24 + e.1.length + e.2.weight + Tree.entryWeights es
end

mutual
/-- No strings, data or keys of fewer than two bytes and, with shared keys, no key of 16 bytes (see `Op.Plain`). -/
def Tree.Plain (shared : Bool) : Tree → Prop
  | .arr xs => Tree.Plains shared xs
  | .dict kvs => Tree.EntriesPlain shared kvs
  | .str s => 2 ≤ s.length
  | .data d => 2 ≤ d.length
  | _ => True

def Tree.Plains (shared : Bool) : List Tree → Prop
  | [] => True
  | t :: ts => t.Plain shared ∧ Tree.Plains shared ts

def Tree.EntriesPlain (shared : Bool) : List (List UInt8 × Tree) → Prop
  | [] => True
  | e :: es => 2 ≤ e.1.length ∧ e.1.length < 2 ^ 63 ∧ (shared = true → e.1.length ≠ 16) ∧ e.2.Plain shared ∧
      Tree.EntriesPlain shared es
end

/-- The weight of a call. -/
def Call.weight (tree : Source → Tree) : Call → Nat
  | .op o => o.weight
  | .fleece b => (tree b).weight

/-- Sum of the weights. -/
def Call.total (tree : Source → Tree) (calls : List Call) : Nat := (calls.map (Call.weight tree)).sum

/-- A call this version of the code gets right in small documents. -/
def Call.Plain (F : FloatOps) (tree : Source → Tree) (shared : Bool) : Call → Prop
  | .op o => o.Plain shared ∧ ∀ n, o = .beginArray n → n * 4 < 2 ^ 63
  | .fleece b => b.Good F (fun k => validUtf8 k = true) (tree b) ∧ (tree b).Plain shared

end Fleece
