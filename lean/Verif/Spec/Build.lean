import Verif.Spec.Scalar
import Verif.Model.Encoder

/-!
# Specification: what a sequence of encoder calls means

A machine on documents, written from the documentation of `Encoder` (encoder/mod.rs, the `## Errors` lists). It knows
nothing of bytes, offsets, slots or shared keys.
-/

namespace Fleece

/-- An open collection. A dict may have a key that waits for its value. -/
inductive Frame where
  | arr (xs : List Tree)
  | dict (kvs : List (List UInt8 × Tree)) (key : Option (List UInt8))

/-- The open collections, innermost first, and the document once it is complete. -/
structure Build where
  stack : List Frame := []
  root : Option Tree := none

/-- Add a finished value to the innermost open collection. -/
def Build.put (b : Build) (t : Tree) : Except EncodeError Build :=
  match b.stack with
  | [] => .error .collectionNotOpen
  | .arr xs :: rest => .ok { b with stack := .arr (xs ++ [t]) :: rest }
  | .dict kvs (some k) :: rest => .ok { b with stack := .dict (kvs ++ [(k, t)]) none :: rest }
  | .dict _ none :: _ => .error .dictWaitingForKey

/-- Close a collection whose content is `t`: it becomes the document, or a value of the enclosing collection. -/
def Build.close (rest : List Frame) (t : Tree) : Build :=
  match rest with
  | [] => { stack := [], root := some t }
  | .arr xs :: rest => { stack := .arr (xs ++ [t]) :: rest }
  | .dict kvs (some k) :: rest => { stack := .dict (kvs ++ [(k, t)]) none :: rest }
  | .dict kvs none :: rest => { stack := .dict kvs none :: rest }   -- cannot happen

/-- May a collection be opened here? -/
def Build.open (b : Build) (f : Frame) (afterRoot : EncodeError) : Except EncodeError Build :=
  if b.root.isSome then .error afterRoot
  else match b.stack with
    | .dict _ none :: _ => .error .dictWaitingForKey
    | _ => .ok { b with stack := f :: b.stack }

/-- The documented effect of a call. An error leaves everything as it was. (`begin_dict` and `begin_array` report a
second top-level collection differently.) -/
def Build.step (F : FloatOps) (b : Build) : Op → Except EncodeError Build
  | .beginArray _ => b.open (.arr []) .multiTopLevelCollection
  | .beginDict => b.open (.dict [] none) .collectionNotOpen
  | .key k =>
    match b.stack with
    | .dict kvs none :: rest => .ok { b with stack := .dict kvs (some k.bytes) :: rest }
    | .dict _ (some _) :: _ => .error .dictWaitingForValue
    | _ => .error .dictNotOpen
  | .value x => b.put (x.tree F)
  | .endArray =>
    match b.stack with
    | .arr xs :: rest => .ok (Build.close rest (.arr xs))
    | _ => .error .arrayNotOpen
  | .endDict =>
    match b.stack with
    | .dict kvs none :: rest => .ok (Build.close rest (.dict kvs))
    | .dict _ (some _) :: _ => .error .dictWaitingForValue
    | _ => .error .dictNotOpen

/-- The state after a call, and its documented result. -/
def Build.next (F : FloatOps) (b : Build) (op : Op) : Build × Except EncodeError Unit :=
  match b.step F op with
  | .ok b' => (b', .ok ())
  | .error x => (b, .error x)

/-- A sequence of calls: the final state and the results. -/
def Build.run (F : FloatOps) (b : Build) : List Op → Build × List (Except EncodeError Unit)
  | [] => (b, [])
  | op :: ops =>
    let (b', r) := b.next F op
    let (b'', rs) := b'.run F ops
    (b'', r :: rs)

/-- Close whatever is open; a key without a value is dropped (documentation of `_end`, encoder/mod.rs:407). -/
def Build.finishGo : Nat → Build → Build
  | 0, b => b
  | n + 1, b =>
    match b.stack with
    | [] => b
    | .arr xs :: rest => Build.finishGo n (Build.close rest (.arr xs))
    | .dict kvs _ :: rest => Build.finishGo n (Build.close rest (.dict kvs))

/-- The document `finish` should produce, if any collection was opened. -/
def Build.finish (b : Build) : Option Tree := (Build.finishGo b.stack.length b).root

/-- Equality of documents: a dict is a collection of pairs in no particular order. -/
inductive Tree.Same : Tree → Tree → Prop where
  | refl (t : Tree) : Same t t
  | arr {xs ys : List Tree} (len : xs.length = ys.length)
      (each : ∀ (i : Nat) (x y : Tree), xs[i]? = some x → ys[i]? = some y → Same x y) : Same (.arr xs) (.arr ys)
  | dict {kvs mid lvs : List (List UInt8 × Tree)} (perm : kvs.Perm mid) (keys : mid.map (·.1) = lvs.map (·.1))
      (each : ∀ (i : Nat) (x y : List UInt8 × Tree), mid[i]? = some x → lvs[i]? = some y → Same x.2 y.2) :
      Same (.dict kvs) (.dict lvs)

/-- An upper bound, in bytes, of what a call can contribute to the output. -/
def Op.weight : Op → Nat
  | .key k => 24 + k.bytes.length
  | .value (.str s) => 24 + s.bytes.length
  | .value (.data d) => 24 + d.length
  | _ => 24

/-- Sum of the weights. -/
def Op.total (ops : List Op) : Nat := (ops.map Op.weight).sum

end Fleece
