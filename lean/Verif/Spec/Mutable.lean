import Verif.Model.Mutable
import Verif.Spec.Scalar
import Verif.Proofs.Shared

/-!
# Specification: mutable collections

A `Node` is a list, or a set of key/value pairs, or a scalar. A `Prog` is a program over mutable collections: everything
that can be built with them, nested to any depth and edited at any depth. `Prog.spec` says what it builds; `Prog.eval` runs
it on the model. A `Query` is anything that can be asked through the public API.
-/

namespace Fleece

/-- What a mutable collection holds. The order of the entries of a dict means nothing. -/
inductive Node where
  | leaf (t : Tree)
  | arr (xs : List Node)
  | dict (kvs : List (List UInt8 × Node))

namespace Node

/-- The value of a key. -/
def lookup (k : List UInt8) (kvs : List (List UInt8 × Node)) : Option Node :=
  (kvs.find? fun e => e.1 == k).map (·.2)

/-- Everything but that key. -/
def without (k : List UInt8) (kvs : List (List UInt8 × Node)) : List (List UInt8 × Node) :=
  kvs.filter fun e => e.1 != k

/-- Change or add a key. -/
def assign (k : List UInt8) (n : Node) (kvs : List (List UInt8 × Node)) : List (List UInt8 × Node) := (k, n) :: without k kvs

/-- The element. -/
def child : Node → Sel → Option Node
  | .arr xs, .idx i => xs[i]?
  | .dict kvs, .key k => lookup k kvs
  | _, _ => none

/-- Is it an array (a dict)? -/
def isKind (dict : Bool) : Node → Bool
  | .arr _ => !dict
  | .dict _ => dict
  | .leaf _ => false

/-- The element with that address becomes `n`. -/
def replace : Node → Sel → Node → Node
  | .arr xs, .idx i, n => .arr (xs.set i n)
  | .dict kvs, .key k, n => .dict (assign k n kvs)
  | s, _, _ => s

/-- Go down. -/
def follow : List Hop → Node → Option Node
  | [], n => some n
  | h :: p, n =>
    match n.child h.sel with
    | some c => if c.isKind h.dict then c.follow p else none
    | none => none

/-- Change what is down there; `none` is a panic. -/
def update (f : Node → Option Node) : List Hop → Node → Option Node
  | [], n => f n
  | h :: p, n =>
    match n.child h.sel with
    | none => some n
    | some c => if c.isKind h.dict then (c.update f p).map (n.replace h.sel) else some n

/-- Store an element. Storing at an index that does not exist is a panic. -/
def put (p : Slot.Place) (x : Node) : Node → Option Node
  | .arr xs =>
    match p with
    | .set i => if i < xs.length then some (.arr (xs.set i x)) else none
    | .push => some (.arr (xs ++ [x]))
    | .insert _ => some (.arr xs)
  | .dict kvs =>
    match p with
    | .insert k => some (.dict (assign k x kvs))
    | _ => some (.dict kvs)
  | n => some n

/-- Delete an element; nothing happens if there is none. -/
def remove (x : Sel) : Node → Option Node
  | .arr xs =>
    match x with
    | .idx i => some (.arr (xs.eraseIdx i))
    | .key _ => some (.arr xs)
  | .dict kvs =>
    match x with
    | .key k => some (.dict (without k kvs))
    | .idx _ => some (.dict kvs)
  | n => some n

end Node

/-! ## Programs -/

/-- Programs. `β` are the values that come from elsewhere (encoded documents). -/
inductive Prog (β : Type) where
  /-- `MutableArray::new()` -/
  | array
  /-- `MutableDict::new()`, `MutableDict::new_with_shared_keys(sk)` -/
  | dict (sk : Option SharedKeys)
  /-- a scalar, to be stored -/
  | scalar (x : Scalar)
  /-- something converted from an encoded document -/
  | base (b : β)
  /-- `clone()` -/
  | clone (p : Prog β)
  /-- a call that stores the argument in the collection reached from the target down the path -/
  | put (target : Prog β) (path : List Hop) (place : Slot.Place) (arg : Prog β)
  /-- `remove` -/
  | remove (target : Prog β) (path : List Hop) (sel : Sel)

namespace Prog
variable {β : Type}

/-- What the code does. -/
def eval (dbg : Bool) (load : β → Exec Slot) : Prog β → Exec Slot
  | .array => .ok (.arr [])
  | .dict sk => .ok (.dict sk [])
  | .scalar x => Slot.new dbg x
  | .base b => load b
  | .clone p => do
    let s ← p.eval dbg load
    pure s.clone
  | .put t path place arg => do
    let s ← t.eval dbg load
    let x ← arg.eval dbg load
    s.update (Slot.put place x) path
  | .remove t path sel => do
    let s ← t.eval dbg load
    s.update (Slot.remove sel) path

/-- What it should build; `none` is a panic. -/
def spec (F : FloatOps) (means : β → Node) : Prog β → Option Node
  | .array => some (.arr [])
  | .dict _ => some (.dict [])
  | .scalar x => some (.leaf (x.tree F))
  | .base b => some (means b)
  | .clone p => p.spec F means
  | .put t path place arg => do
    let s ← t.spec F means
    let x ← arg.spec F means
    s.update (Node.put place x) path
  | .remove t path sel => do
    let s ← t.spec F means
    s.update (Node.remove sel) path

end Prog

/-! ## Questions -/

/-- What is seen of an element without going down into it. -/
inductive Glimpse where
  | value (t : Tree)
  | arr (len : Nat)
  | dict (len : Nat)

/-- The question, to the collection reached down the path. -/
inductive Query where
  /-- `len` -/
  | len
  /-- `get`, `get_array`, `get_dict` -/
  | at (x : Sel)
  /-- `contains_key` -/
  | has (k : List UInt8)
  /-- iterate over the array -/
  | items
  /-- iterate over the dict -/
  | pairs

/-- The answer. -/
inductive Answer where
  /-- the path leads nowhere -/
  | nowhere
  | len (n : Nat)
  | at (x : Option Glimpse)
  | has (b : Bool)
  | items (l : List Glimpse)
  | pairs (l : List (List UInt8 × Glimpse))

/-- The right answer. -/
def Node.shape : Node → Glimpse
  | .leaf t => .value t
  | .arr xs => .arr xs.length
  | .dict kvs => .dict kvs.length

/-- The right answer. -/
def Node.answer (n : Node) (path : List Hop) (q : Query) : Answer :=
  match n.follow path with
  | none => .nowhere
  | some n =>
    match q with
    | .len => .len (match n with | .arr xs => xs.length | .dict kvs => kvs.length | .leaf _ => 0)
    | .at x => .at ((n.child x).map shape)
    | .has k => .has (n.child (.key k)).isSome
    | .items => .items (match n with | .arr xs => xs.map shape | _ => [])
    | .pairs => .pairs (match n with | .dict kvs => kvs.map fun e => (e.1, e.2.shape) | _ => [])

/-- What a client sees of an element: the value, read completely; or the kind and the length. -/
def Slot.shape (dbg : Bool) (base : Nat) (F : FloatOps) (s : Slot) : R Glimpse :=
  match s.value with
  | some b => do
    let t ← readTree ⟨b, base, dbg⟩ F none 1 ⟨0, b.length⟩
    pure (.value t)
  | none => if (s.array).isSome then .ok (.arr s.len) else .ok (.dict s.len)

/-- The shape of each. -/
def shapes {α : Type} (f : Slot → R Glimpse) (g : α → Slot) : List α → R (List (α × Glimpse))
  | [] => .ok []
  | s :: r => do
    let a ← f (g s)
    let rest ← shapes f g r
    pure ((s, a) :: rest)

/-- The answer of the code. `base` is the address at which the values lie. -/
def Slot.answer (dbg : Bool) (base : Nat) (F : FloatOps) (s : Slot) (path : List Hop) (q : Query) : R Answer :=
  match s.follow path with
  | none => .ok .nowhere
  | some s =>
    match q with
    | .len => .ok (.len s.len)
    | .at x =>
      match s.get x, s.getArray x, s.getDict x with
      | some b, _, _ => do
        let a ← (Slot.boxed b).shape dbg base F
        pure (.at (some a))
      | none, some l, _ => .ok (.at (some (.arr l.length)))
      | none, none, some d => .ok (.at (some (.dict d.2.length)))
      | none, none, none => .ok (.at none)
    | .has k => .ok (.has (s.containsKey k))
    | .items => do
      let l ← shapes (Slot.shape dbg base F) id s.items
      pure (.items (l.map (·.2)))
    | .pairs => do
      let l ← shapes (Slot.shape dbg base F) (·.2) s.pairs
      pure (.pairs (l.map fun e => (e.1.1, e.2)))

/-- The same answer; dicts may be iterated in any order. -/
def Answer.Same : Answer → Answer → Prop
  | .pairs l, .pairs l' => l.Perm l'
  | a, b => a = b

/-! ## Keys -/

/-- With these shared keys, no other string is mistaken for `k`: it is not in the table, or it is there unabridged. -/
def KeyKept (sk : SharedKeys) (k : List UInt8) : Prop := zstr k = k ∨ sk.encode k = none

namespace Prog
variable {β : Type}

/-- Scalars the code keeps when stored in a mutable collection: those the encoder keeps, and every `u16`. -/
def _root_.Fleece.Scalar.Kept : Scalar → Prop
  | .u16 _ => True
  | x => x.Survives

/-- The keys of a path. -/
def _root_.Fleece.Hop.Keys (K : List UInt8 → Prop) (path : List Hop) : Prop := ∀ h ∈ path, ∀ k, h.sel = .key k → K k

/-- All keys used are in `K`, all scalars are kept, and no shared keys confuse keys in `K`. -/
def Good (K : List UInt8 → Prop) (base : β → Prop) : Prog β → Prop
  | .array => True
  | .dict sk => ∀ s, sk = some s → s.WF ∧ ∀ k, K k → KeyKept s k
  | .scalar x => x.Kept
  | .base b => base b
  | .clone p => p.Good K base
  | .put t path place arg => t.Good K base ∧ Hop.Keys K path ∧ (∀ k, place = .insert k → K k) ∧ arg.Good K base
  | .remove t path sel => t.Good K base ∧ Hop.Keys K path ∧ (∀ k, sel = .key k → K k)

end Prog

/-- The keys of a query. -/
def Query.Keys (K : List UInt8 → Prop) : Query → Prop
  | .at (.key k) => K k
  | .has k => K k
  | _ => True

end Fleece
