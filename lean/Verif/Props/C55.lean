import Verif.Model.Index
import Verif.Props.C12
import Verif.Props.C24
import Verif.Props.C31
import Verif.Props.C32

/-!
# C55 Indexing gives what is there and panics for what is not

Full claim: `array[i]`, `mutable_array[i]` and `mutable_dict[k]` return the element if there is one and panic if there is
none. It is false of arrays at the index `len` (`C55_array_at_len`) and of mutable collections wherever the element is
itself a collection (`C55_nested_panics`). `dict[k]` goes through the scope: `C49`.
-/

namespace Fleece.Props
open Fleece Res

/-! ## Arrays -/

/-- **C55, arrays**, as far as it holds: in every array of an accepted document, in either profile, indexing below `len`
gives the element that `get` gives, and indexing above `len` panics. The index `len` itself is `C55_array_at_len`. -/
theorem C55_array_partial (m : Mem) (hdbg : m.dbg = true) (root : Val) (hok : fromBytes m = .ok root)
    (m' : Mem) (hm : m' = m ∨ m' = { m with dbg := false }) (scope : Option SharedKeys)
    (a : Val) (ha : Reach m' scope root a) (harr : a.asArray m' = .ok (some a)) :
    ∃ n, a.arrayLen m' = .ok n ∧ (∀ i, i < n → ∃ x, a.index m' i = .ok x ∧ a.get m' i = .ok (some x)) ∧
      ∀ i, n < i → a.index m' i = .panic := by
  obtain ⟨n, h1, h2, h3⟩ := C12_get_partial m hdbg root hok m' hm scope a ha harr
  refine ⟨n, h1, fun i hi => ?_, fun i hi => ?_⟩
  · obtain ⟨x, hx⟩ := h2 i hi
    exact ⟨x, by unfold Val.index; rw [hx]; rfl, hx⟩
  · unfold Val.index; rw [h3 i hi]; rfl

/-- **C55, arrays that were written.** A value that shows the array `xs` (as the root of every document of `C24` and
`C30`, and everything below it, does) is indexed like `xs`: each index gives a value that shows the element. -/
theorem C55_elements (m : Mem) (F : FloatOps) (scope : Option SharedKeys) (probe : List UInt8 → Prop) (v : Val)
    (xs : List Tree) (h : Matches m F scope probe v (.arr xs)) :
    (∀ (i : Nat) (t : Tree), xs[i]? = some t → ∃ x, v.index m i = .ok x ∧ Matches m F scope probe x t) ∧
      ∀ i, xs.length < i → v.index m i = .panic := by
  cases h with
  | leaf type na nd read => exact absurd rfl ((leaf_read type na nd read).1 _)
  | arr u type len get iter each =>
    refine ⟨fun i t ht => ⟨u i, ?_, each i t ht⟩, fun i hi => ?_⟩
    · unfold Val.index
      rw [get i (List.getElem?_eq_some_iff.mp ht).1]; rfl
    · unfold Val.index Val.get
      rw [len]
      simp only [ok_bind]
      rw [if_pos hi]; rfl

/-- At `len` the panic does not come: the accepted document `[[], 5]`, whose first element is empty, has `a[0][0]`, which
is the value behind the empty array; and in the accepted document `[]` (wide) `a[0]` reads past the end of the buffer. -/
theorem C55_array_at_len :
    (fromBytes { data := [0x60, 0, 0x60, 0x02, 0x80, 0x02, 0x00, 0x05, 0x80, 0x03] } = .ok ⟨2, 6⟩ ∧
      (⟨2, 6⟩ : Val).index { data := [0x60, 0, 0x60, 0x02, 0x80, 0x02, 0x00, 0x05, 0x80, 0x03] } 0 = .ok ⟨0, 4⟩ ∧
      (⟨0, 4⟩ : Val).arrayLen { data := [0x60, 0, 0x60, 0x02, 0x80, 0x02, 0x00, 0x05, 0x80, 0x03] } = .ok 0 ∧
      (⟨0, 4⟩ : Val).index { data := [0x60, 0, 0x60, 0x02, 0x80, 0x02, 0x00, 0x05, 0x80, 0x03] } 0 = .ok ⟨2, 2⟩) ∧
    (fromBytes { data := [0x68, 0, 0x80, 0x01] } = .ok ⟨0, 2⟩ ∧
      (⟨0, 2⟩ : Val).arrayLen { data := [0x68, 0, 0x80, 0x01] } = .ok 0 ∧
      (⟨0, 2⟩ : Val).index { data := [0x68, 0, 0x80, 0x01] } 0 = .ub) := by
  decide +kernel

/-! ## Mutable collections -/

/-- What an answer to `get`, `get_array`, `get_dict` says about indexing. -/
theorem index_of_answer {dbg : Bool} {base : Nat} {F : FloatOps} {s : Slot} {path : List Hop} {x : Sel} {r : Option Glimpse}
    (h : s.answer dbg base F path (.at x) = .ok (.at r)) : ∃ c, s.follow path = some c ∧
      (∀ t, r = some (.value t) → ∃ b, c.index x = .ok b ∧ readTree ⟨b, base, dbg⟩ F none 1 ⟨0, b.length⟩ = .ok t) ∧
      ((∀ t, r ≠ some (.value t)) → c.index x = .panic) := by
  unfold Slot.answer at h
  cases hf : s.follow path with
  | none => rw [hf] at h; cases h
  | some c =>
    rw [hf] at h
    refine ⟨c, rfl, ?_⟩
    dsimp only at h
    cases hg : c.get x with
    | some b =>
      rw [hg] at h
      dsimp only at h
      obtain ⟨a, h1, h2⟩ := bind_eq_ok.mp h
      unfold Slot.shape at h1
      dsimp only [Slot.value] at h1
      obtain ⟨t, h3, h4⟩ := bind_eq_ok.mp h1
      cases h4
      cases h2
      refine ⟨?_, fun hne => absurd rfl (hne t)⟩
      rintro t' ⟨⟩
      exact ⟨b, by unfold Slot.index; rw [hg], h3⟩
    | none =>
      rw [hg] at h
      have hp : c.index x = .panic := by unfold Slot.index; rw [hg]
      refine ⟨fun t ht => ?_, fun _ => hp⟩
      subst ht
      cases ha : c.getArray x with
      | some l => rw [ha] at h; cases h
      | none =>
        rw [ha] at h
        cases hd : c.getDict x with
        | some d => rw [hd] at h; cases h
        | none => rw [hd] at h; cases h

/-- Indexing the collection `n` describes. -/
def IndexedLike (dbg : Bool) (F : FloatOps) (c : Slot) (n : Node) (x : Sel) : Prop :=
  match n.child x with
  | some (.leaf t) => ∃ b, c.index x = .ok b ∧ ∀ base, readTree ⟨b, base, dbg⟩ F none 1 ⟨0, b.length⟩ = .ok t
  | _ => c.index x = .panic

theorem indexed_of_answers {dbg : Bool} {F : FloatOps} {s : Slot} {n n' : Node} {path : List Hop} {x : Sel}
    (hn : n.follow path = some n')
    (h : ∀ base, ∃ a, s.answer dbg base F path (.at x) = .ok a ∧ a.Same (n.answer path (.at x))) :
    ∃ c, s.follow path = some c ∧ IndexedLike dbg F c n' x := by
  have hna : n.answer path (.at x) = .at ((n'.child x).map Node.shape) := by unfold Node.answer; rw [hn]
  have hall : ∀ base, s.answer dbg base F path (.at x) = .ok (.at ((n'.child x).map Node.shape)) := by
    intro base
    obtain ⟨a, h1, h2⟩ := h base
    rw [hna] at h2
    cases a <;> first | (cases h2; exact h1) | cases h2
  obtain ⟨c, h1, h2, h3⟩ := index_of_answer (hall 0)
  refine ⟨c, h1, ?_⟩
  unfold IndexedLike
  cases hc : n'.child x with
  | none => exact h3 (by rw [hc]; rintro t ⟨⟩)
  | some y =>
    cases y with
    | leaf t =>
      rw [hc] at hall h2
      obtain ⟨b, h4, _⟩ := h2 t rfl
      refine ⟨b, h4, fun base => ?_⟩
      obtain ⟨c', h5, h6, _⟩ := index_of_answer (hall base)
      rw [h1] at h5; cases h5
      obtain ⟨b', h7, h8⟩ := h6 t rfl
      rw [h4] at h7; cases h7
      exact h8
    | arr xs => exact h3 (by rw [hc]; rintro t ⟨⟩)
    | dict kvs => exact h3 (by rw [hc]; rintro t ⟨⟩)

/-- **C55, mutable collections**, as far as it holds. After any program of the kind `C31` is about, indexing any collection
in the result, at any index or key: a scalar that is there is returned and reads as what was stored; whatever is not there
is a panic. Missing: arrays and dicts that are there, `C55_nested_panics`. -/
theorem C55_mutable_partial (dbg : Bool) (F : FloatOps) (p : Prog Empty) (hp : PlainProg p) (n : Node)
    (hn : p.spec F Empty.elim = some n) : ∃ s, p.eval dbg Empty.elim = .ok s ∧
      ∀ path n' x, n.follow path = some n' → ∃ c, s.follow path = some c ∧
        (∀ t, n'.child x = some (.leaf t) → ∃ b, c.index x = .ok b ∧
          ∀ base, readTree ⟨b, base, dbg⟩ F none 1 ⟨0, b.length⟩ = .ok t) ∧
        (n'.child x = none → c.index x = .panic) := by
  obtain ⟨_, h⟩ := C31 dbg F p hp
  obtain ⟨s, h1, h2⟩ := h n hn
  refine ⟨s, h1, fun path n' x hf => ?_⟩
  obtain ⟨c, h3, h4⟩ := indexed_of_answers (x := x) hf fun base => h2 base path (.at x)
  refine ⟨c, h3, fun t ht => ?_, fun ht => ?_⟩
  · unfold IndexedLike at h4; rw [ht] at h4; exact h4
  · unfold IndexedLike at h4; rw [ht] at h4; exact h4

/-- **C55, mutable dicts with shared keys**: the same under the condition of `C32_shared_partial`. -/
theorem C55_shared_partial (dbg : Bool) (F : FloatOps) (K : List UInt8 → Prop) (p : Prog Empty)
    (hp : p.Good K (fun _ => False)) (n : Node) (hn : p.spec F Empty.elim = some n) : ∃ s, p.eval dbg Empty.elim = .ok s ∧
      ∀ path n' x, Hop.Keys K path → (Query.at x).Keys K → n.follow path = some n' → ∃ c, s.follow path = some c ∧
        (∀ t, n'.child x = some (.leaf t) → ∃ b, c.index x = .ok b ∧
          ∀ base, readTree ⟨b, base, dbg⟩ F none 1 ⟨0, b.length⟩ = .ok t) ∧
        (n'.child x = none → c.index x = .panic) := by
  obtain ⟨_, h⟩ := C32_shared_partial dbg F K p hp
  obtain ⟨s, h1, h2⟩ := h n hn
  refine ⟨s, h1, fun path n' x hk1 hk2 hf => ?_⟩
  obtain ⟨c, h3, h4⟩ := indexed_of_answers (x := x) hf fun base => h2 base path (.at x) hk1 hk2
  refine ⟨c, h3, fun t ht => ?_, fun ht => ?_⟩
  · unfold IndexedLike at h4; rw [ht] at h4; exact h4
  · unfold IndexedLike at h4; rw [ht] at h4; exact h4

/-- **The full claim is false, wherever it can be.** After every such program, indexing at *any* place where there is an
array or a dict panics. -/
theorem C55_nested_panics (dbg : Bool) (F : FloatOps) (p : Prog Empty) (hp : PlainProg p) (n : Node)
    (hn : p.spec F Empty.elim = some n) : ∃ s, p.eval dbg Empty.elim = .ok s ∧
      ∀ path n' x y, n.follow path = some n' → n'.child x = some y → (∀ t, y ≠ .leaf t) →
        ∃ c, s.follow path = some c ∧ c.index x = .panic := by
  obtain ⟨_, h⟩ := C31 dbg F p hp
  obtain ⟨s, h1, h2⟩ := h n hn
  refine ⟨s, h1, fun path n' x y hf hy hl => ?_⟩
  obtain ⟨c, h3, h4⟩ := indexed_of_answers (x := x) hf fun base => h2 base path (.at x)
  refine ⟨c, h3, ?_⟩
  unfold IndexedLike at h4
  rw [hy] at h4
  cases y with
  | leaf t => exact absurd rfl (hl t)
  | arr xs => exact h4
  | dict kvs => exact h4

/-- `[7, []]`: index 0 is returned, index 1 panics although `len` is 2, index 2 panics. -/
example (dbg : Bool) : ∃ s, (Prog.put (.put .array [] .push (.scalar (.i64 7))) [] .push .array : Prog Empty).eval dbg Empty.elim
      = .ok s ∧ s.len = 2 ∧ s.index (.idx 0) = .ok ([0, 7] ++ List.replicate (Slot.inlineCapacity - 2) 0) ∧ s.index (.idx 1) = .panic ∧ s.index (.idx 2) = .panic := by
  cases dbg <;> exact ⟨_, rfl, rfl, rfl, rfl, rfl⟩

/-- The hypotheses of `C55_mutable_partial` and `C55_nested_panics` hold of it. -/
example : PlainProg (Prog.put (.put .array [] .push (.scalar (.i64 7))) [] .push .array : Prog Empty) := by
  refine ⟨⟨trivial, ?_⟩, trivial⟩
  simp [PlainProg, Scalar.Kept, Scalar.Survives, ShortRange]

end Fleece.Props
