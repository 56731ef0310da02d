import Verif.Model.Lifetimes

/-!
# Who has an `Arc` (C66)

`owners` counts, without looking at any strong count of the cell itself, the `Arc`s there are: those in variables and those in the
fields of scopes that are alive.
-/

namespace Fleece.Life
open Fleece

/-- The sum over a list. -/
def tot {α : Type} (f : α → Nat) : List α → Nat
  | [] => 0
  | a :: l => f a + tot f l

/-- One if this is the cell. -/
def one (o : Option Loc) (l : Loc) : Nat := if o = some l then 1 else 0

/-- The `Arc`s of a cell in the fields of a scope. -/
def scopeArcs (c : Cell ScopeData) (l : Loc) : Nat :=
  if c.strong = 0 then 0 else one (c.val.sk.map .table) l + one (some (.buf c.val.buf)) l

/-- The `Arc`s of a cell. -/
def World.owners (w : World) (l : Loc) : Nat :=
  tot (fun x => one (x.bind Thing.arc) l) w.vars + tot (fun c => scopeArcs c l) w.scopes

/-- A state that a program can be in. -/
def Arises (w : World) : Prop := ∃ ops, World.run {} ops = some (.ok w)

end Fleece.Life
