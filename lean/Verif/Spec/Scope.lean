import Verif.Model.Scope

/-! # Specification: who owns an address

A list of all scopes ever created, with the buffer each was given. No map, no entries. -/

namespace Fleece

/-- A scope, as its user sees it. -/
structure Owner where
  start : Nat
  len : Nat
  sk : Option SharedKeys
  live : Bool
  removed : Bool

/-- The address is in its buffer. -/
def Owner.covers (o : Owner) (a : Nat) : Prop := o.start ≤ a ∧ a < o.start + o.len

/-- What a call does to it. -/
def bookStep (b : List Owner) : ScopeOp → List Owner
  | .new m sk => b ++ [⟨m.base, m.data.length, sk, true, false⟩]
  | .remove id => b.modify id fun o => { o with removed := true }
  | .drop id => b.modify id fun o => { o with live := false }

def bookRun (b : List Owner) : List ScopeOp → List Owner
  | [] => b
  | op :: ops => bookRun (bookStep b op) ops

/-- A call that can be made: a new scope gets a non-empty buffer of its own, on which `from_bytes` returns; only a scope
somebody still holds is removed or dropped. -/
def ScopeOp.Legal (b : List Owner) : ScopeOp → Prop
  | .new m _ => m.data ≠ [] ∧ (∃ x, Registry.rootOrNone m = .ok x) ∧
      ∀ o ∈ b, o.live = true → m.base + m.data.length ≤ o.start ∨ o.start + o.len ≤ m.base
  | .remove id => ∃ o, b[id]? = some o ∧ o.live = true
  | .drop id => ∃ o, b[id]? = some o ∧ o.live = true

def LegalRun (b : List Owner) : List ScopeOp → Prop
  | [] => True
  | op :: ops => op.Legal b ∧ LegalRun (bookStep b op) ops

/-- The live, un-removed scope `id` has a buffer that contains the address. -/
def Owns (b : List Owner) (id a : Nat) : Prop := ∃ o, b[id]? = some o ∧ o.live = true ∧ o.removed = false ∧ o.covers a

end Fleece
