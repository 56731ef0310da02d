import Verif.Proofs.MutAnswer

/-!
# C31 Mutable arrays behave like lists

`Prog` are the programs over mutable collections, `Prog.spec` what they build, with lists for arrays (`Spec/Mutable.lean`).
Arrays are nested in dicts and arrays to any depth, so the programs are those of C32 also; here no dict has shared keys.
-/

namespace Fleece.Props
open Fleece Res

/-- No shared keys; all scalars are kept (C33). -/
def PlainProg {β : Type} : Prog β → Prop
  | .array => True
  | .dict sk => sk = none
  | .scalar x => x.Kept
  | .base _ => False
  | .clone p => PlainProg p
  | .put t _ _ arg => PlainProg t ∧ PlainProg arg
  | .remove t _ _ => PlainProg t

theorem PlainProg.good {β : Type} {p : Prog β} (h : PlainProg p) : p.Good (fun _ => True) (fun _ => False) := by
  induction p with
  | array => trivial
  | dict sk => intro s hs; rw [show sk = none from h] at hs; cases hs
  | scalar x => exact h
  | base b => exact h
  | clone p ih => exact ih h
  | put t path place arg iht iha => exact ⟨iht h.1, fun _ _ _ _ => trivial, fun _ _ => trivial, iha h.2⟩
  | remove t path sel ih => exact ⟨ih h, fun _ _ _ _ => trivial, fun _ _ => trivial⟩

/-- **C31.** Every program of `new`, `push`, `set`, `set_array`, `set_dict`, `insert`, `insert_array`, `insert_dict`,
`remove`, `clone`, on collections nested to any depth and changed in place through `get_array_mut` and `get_dict_mut`: it
panics exactly if the plain lists and maps say so (some `set` is out of range), and otherwise every question, asked
anywhere in the result, has the answer that the lists and maps give. -/
theorem C31 (dbg : Bool) (F : FloatOps) (p : Prog Empty) (hp : PlainProg p) :
    (p.spec F Empty.elim = none → p.eval dbg Empty.elim = .panic) ∧
      ∀ n, p.spec F Empty.elim = some n → ∃ s, p.eval dbg Empty.elim = .ok s ∧
        ∀ base path q, ∃ a, s.answer dbg base F path q = .ok a ∧ a.Same (n.answer path q) := by
  have h := Prog.run_rel (dbg := dbg) (F := F) (K := fun _ => True) (load := Empty.elim) (means := Empty.elim)
    (base := fun _ => False) (fun b => nomatch b) p hp.good
  refine ⟨fun hn => ?_, fun n hn => ?_⟩
  · rw [hn] at h; exact h
  · rw [hn] at h
    obtain ⟨s, h1, h2⟩ := h
    exact ⟨s, h1, fun base path q => h2.answer base (fun _ _ _ _ => trivial)
      (by unfold Query.Keys; split <;> trivial)⟩

/-- **C31, one call.** On an array with the elements `xs`, the calls do to the elements what they do to a list. `set` panics
exactly if the index is out of range; `remove` out of range does nothing. -/
theorem C31_calls (dbg : Bool) (F : FloatOps) (t : Prog Empty) (arg : Prog Empty) (xs : List Node) (y : Node)
    (ht : t.spec F Empty.elim = some (.arr xs)) (ha : arg.spec F Empty.elim = some y) :
    (Prog.put t [] .push arg).spec F Empty.elim = some (.arr (xs ++ [y])) ∧
    (∀ i, i < xs.length → (Prog.put t [] (.set i) arg).spec F Empty.elim = some (.arr (xs.take i ++ y :: xs.drop (i + 1)))) ∧
    (∀ i, PlainProg t → PlainProg arg → ((Prog.put t [] (.set i) arg).eval dbg Empty.elim = .panic ↔ xs.length ≤ i)) ∧
    (∀ i, (Prog.remove t [] (.idx i)).spec F Empty.elim = some (.arr (xs.take i ++ xs.drop (i + 1)))) := by
  refine ⟨?_, fun i hi => ?_, fun i h1 h2 => ?_, fun i => ?_⟩
  · simp [Prog.spec, ht, ha, Node.update, Node.put]
  · simp [Prog.spec, ht, ha, Node.update, Node.put, hi, List.set_eq_take_append_cons_drop]
  · have hs : (Prog.put t [] (.set i) arg).spec F Empty.elim = if i < xs.length then some (.arr (xs.set i y)) else none := by
      simp [Prog.spec, ht, ha, Node.update, Node.put]
    obtain ⟨g1, g2⟩ := C31 dbg F (Prog.put t [] (.set i) arg) ⟨h1, h2⟩
    by_cases hi : i < xs.length
    · rw [hs, if_pos hi] at g2
      obtain ⟨s, g3, _⟩ := g2 _ rfl
      rw [g3]; simp; omega
    · rw [hs, if_neg hi] at g1
      simp [g1]; omega
  · simp [Prog.spec, ht, Node.update, Node.remove, List.eraseIdx_eq_take_drop_succ]

def num (n : UInt16) : Prog Empty := .scalar (.u16 n)

/-- `[1, [2], 3]`; then `push` 4 in the inner array, `set` index 2 to 5, `remove` index 0: `[[2, 4], 5]`. -/
def arrayProg : Prog Empty :=
  .remove (.put (.put (.put (.put (.put .array [] .push (num 1)) [] .push (.put .array [] .push (num 2))) [] .push (num 3))
    [⟨.idx 1, false⟩] .push (num 4)) [] (.set 2) (num 5)) [] (.idx 0)

example (F : FloatOps) : PlainProg arrayProg ∧ ∃ n, arrayProg.spec F Empty.elim = some n ∧ n.answer [] .len = .len 2 ∧
    n.answer [] .items = .items [.arr 2, .value (.int 5)] ∧
    n.answer [⟨.idx 0, false⟩] .items = .items [.value (.int 2), .value (.int 4)] ∧
    (Prog.put arrayProg [] (.set 2) (num 6)).spec F Empty.elim = none :=
  ⟨by simp [arrayProg, num, PlainProg, Scalar.Kept], _, rfl, rfl, rfl, rfl, rfl⟩

end Fleece.Props
