import Verif.Model.Threads
import Verif.Props.C35

/-! # Invariants of scope.rs on several threads -/

namespace Fleece.Threads
open Fleece Fleece.Props

/-- The `Arc`s a call has in its hands. -/
def Pc.uses : Pc → Nat → Nat
  | .newInsert id, i | .newOut id, i | .removeWait id, i | .removeMap id, i | .removeOut id, i
  | .findOut _ _ (some id), i | .keysClone id, i | .keysDrop id _, i => if i = id then 1 else 0
  | _, _ => 0

section
variable {id i a : Nat}
@[simp] theorem uses_ret {r} : (Pc.ret r).uses i = 0 := rfl
@[simp] theorem uses_newWait {m sk} : (Pc.newWait m sk).uses i = 0 := rfl
@[simp] theorem uses_newRoot {m sk} : (Pc.newRoot m sk).uses i = 0 := rfl
@[simp] theorem uses_newMake {m sk r} : (Pc.newMake m sk r).uses i = 0 := rfl
@[simp] theorem uses_newInsert : (Pc.newInsert id).uses i = if i = id then 1 else 0 := rfl
@[simp] theorem uses_newOut : (Pc.newOut id).uses i = if i = id then 1 else 0 := rfl
@[simp] theorem uses_removeWait : (Pc.removeWait id).uses i = if i = id then 1 else 0 := rfl
@[simp] theorem uses_removeMap : (Pc.removeMap id).uses i = if i = id then 1 else 0 := rfl
@[simp] theorem uses_removeOut : (Pc.removeOut id).uses i = if i = id then 1 else 0 := rfl
@[simp] theorem uses_findWait {u} : (Pc.findWait a u).uses i = 0 := rfl
@[simp] theorem uses_findGet {u} : (Pc.findGet a u).uses i = 0 := rfl
@[simp] theorem uses_findUpgrade {u e} : (Pc.findUpgrade a u e).uses i = 0 := rfl
@[simp] theorem uses_findOut_none {u} : (Pc.findOut a u none).uses i = 0 := rfl
@[simp] theorem uses_findOut_some {u} : (Pc.findOut a u (some id)).uses i = if i = id then 1 else 0 := rfl
@[simp] theorem uses_keysClone : (Pc.keysClone id).uses i = if i = id then 1 else 0 := rfl
@[simp] theorem uses_keysDrop {k} : (Pc.keysDrop id k).uses i = if i = id then 1 else 0 := rfl
end

def total (l : List Pc) (id : Nat) : Nat := (l.map (·.uses id)).sum

theorem total_set {l : List Pc} {t : Nat} {p q : Pc} (h : l[t]? = some p) (id : Nat) :
    total (l.set t q) id + p.uses id = total l id + q.uses id := by
  induction l generalizing t with
  | nil => cases h
  | cons x l ih =>
    cases t with
    | zero => cases h; simp [total]; omega
    | succ t =>
      have := ih (t := t) (by simpa using h)
      simp [total] at this ⊢; omega

theorem uses_le {l : List Pc} {t : Nat} {p : Pc} (h : l[t]? = some p) (id : Nat) : p.uses id ≤ total l id := by
  have := total_set (q := .ret .unit) h id
  simp at this; omega

theorem uses_two {l : List Pc} {t t' : Nat} {p q : Pc} (h : l[t]? = some p) (h' : l[t']? = some q) (hn : t ≠ t') (id : Nat) :
    p.uses id + q.uses id ≤ total l id := by
  have h1 := total_set (q := .ret .unit) h id
  have h2 : (l.set t (.ret .unit))[t']? = some q := by rw [List.getElem?_set_ne hn]; exact h'
  have := uses_le h2 id
  simp at h1; omega

/-- One thread at most has the lock for writing, and then nobody has it for reading. -/
def Excl (l : List Pc) : Prop := ∀ (i j : Nat) (p q : Pc), l[i]? = some p → l[j]? = some q → i ≠ j → p.writes = true →
  q.writes = false ∧ q.reads = false

theorem Excl.set {l : List Pc} (hx : Excl l) {t : Nat} {p q : Pc} (h : l[t]? = some p)
    (hw : q.writes = true → p.writes = true ∨ ∀ x ∈ l, x.writes = false ∧ x.reads = false)
    (hr : q.reads = true → p.reads = true ∨ p.writes = true ∨ ∀ x ∈ l, x.writes = false) : Excl (l.set t q) := by
  intro i j a b hi hj hij ha
  by_cases h1 : t = i
  · subst h1
    rw [List.getElem?_set_ne hij] at hj
    rw [List.getElem?_set_self (List.getElem?_eq_some_iff.mp h).1] at hi
    cases hi
    rcases hw ha with h2 | h2
    · exact hx t j p b h hj hij h2
    · exact h2 b (List.mem_of_getElem? hj)
  · rw [List.getElem?_set_ne h1] at hi
    by_cases h2 : t = j
    · subst h2
      rw [List.getElem?_set_self (List.getElem?_eq_some_iff.mp h).1] at hj
      cases hj
      have h3 := hx i t a p hi h hij ha
      refine ⟨?_, ?_⟩
      · rw [Bool.eq_false_iff]; intro hq
        rcases hw hq with h4 | h4
        · rw [h3.1] at h4; cases h4
        · rw [(h4 a (List.mem_of_getElem? hi)).1] at ha; cases ha
      · rw [Bool.eq_false_iff]; intro hq
        rcases hr hq with h4 | h4 | h4
        · rw [h3.2] at h4; cases h4
        · rw [h3.1] at h4; cases h4
        · rw [h4 a (List.mem_of_getElem? hi)] at ha; cases ha
    · rw [List.getElem?_set_ne h2] at hj
      exact hx i j a b hi hj hij ha

/-- What a thread relies on between its steps. -/
def Pc.Fine (cells : List Cell) : Pc → Prop
  | .newWait m _ | .newRoot m _ => (∃ x, Registry.rootOrNone m = .ok x) ∨ Registry.rootOrNone m = .panic
  | .newMake m _ root => Registry.rootOrNone m = .ok root
  | .newInsert id => ∃ s, cells[id]? = some s ∧ s.strong = 1 ∧ id + 1 = cells.length ∧ s.buf.data ≠ [] ∧
      ∃ x, Registry.rootOrNone s.buf = .ok x
  | .keysDrop id k => ∃ s, cells[id]? = some s ∧ s.sk = k
  | _ => True

structure Inv (w : World) : Prop where
  excl : Excl w.pcs
  count : ∀ id, w.strong id = w.held id + total w.pcs id
  fine : ∀ (t : Nat) (p : Pc), w.pcs[t]? = some p → p.Fine w.cells
  sane : ∀ (t : Nat) (p : Pc), w.pcs[t]? = some p → p.writes = true ∨ p.reads = true → w.poisoned = false

theorem get_set {l : List Pc} {t i : Nat} {p q x : Pc} (h : l[t]? = some p) (hx : (l.set t q)[i]? = some x) :
    (i = t ∧ x = q) ∨ (i ≠ t ∧ l[i]? = some x) := by
  by_cases h1 : i = t
  · subst h1
    rw [List.getElem?_set_self (List.getElem?_eq_some_iff.mp h).1] at hx
    cases hx; exact .inl ⟨rfl, rfl⟩
  · rw [List.getElem?_set_ne (Ne.symm h1)] at hx
    exact .inr ⟨h1, hx⟩

theorem cell_of_strong {w : World} {id : Nat} (h : 0 < w.strong id) : ∃ s, w.cells[id]? = some s ∧ s.strong = w.strong id := by
  unfold World.strong at h ⊢
  cases hc : w.cells[id]? with
  | none => rw [hc] at h; simp at h
  | some s => exact ⟨s, rfl, rfl⟩

theorem modify_cell {l : List Cell} {f : Cell → Cell} {id i : Nat} :
    (l.modify id f)[i]? = (l[i]?).map fun o => if id = i then f o else o := by
  rw [List.getElem?_modify]
  by_cases h : id = i <;> simp [h]

theorem strong_incr {w : World} {id : Nat} (h : 0 < w.strong id) (i : Nat) :
    (w.incr id).strong i = w.strong i + if i = id then 1 else 0 := by
  obtain ⟨s, hs, _⟩ := cell_of_strong h
  unfold World.strong World.incr
  simp only [modify_cell]
  by_cases hi : i = id
  · subst hi; simp [hs]
  · simp only [if_neg hi, if_neg (Ne.symm hi)]; simp

theorem strong_decr {w : World} {id : Nat} (i : Nat) :
    (w.decr id).strong i = w.strong i - if i = id then 1 else 0 := by
  unfold World.strong World.decr
  simp only [modify_cell]
  by_cases hi : i = id
  · subst hi; cases w.cells[i]? <;> simp
  · simp only [if_neg hi, if_neg (Ne.symm hi)]; simp

/-- Changing the count of a scope that is not under construction. -/
theorem Pc.Fine.modify {cells : List Cell} {p : Pc} (h : p.Fine cells) {f : Cell → Cell} {id : Nat}
    (hf : ∀ s, (f s).sk = s.sk) (hn : ∀ i, p = .newInsert i → i ≠ id) : p.Fine (cells.modify id f) := by
  cases p with
  | newInsert i =>
    obtain ⟨s, h1, h2⟩ := h
    have := hn i rfl
    exact ⟨s, by rw [modify_cell, h1, Option.map_some, if_neg (Ne.symm this)], by simpa using h2⟩
  | keysDrop i k =>
    obtain ⟨s, h1, h2⟩ := h
    refine ⟨if id = i then f s else s, by rw [modify_cell, h1, Option.map_some], ?_⟩
    split
    · rw [hf]; exact h2
    · exact h2
  | _ => exact h

/-- Nobody else has an `Arc` of a scope under construction. -/
theorem Inv.alone {w : World} (hi : Inv w) {t id : Nat} (h : w.pcs[t]? = some (.newInsert id)) :
    w.held id = 0 ∧ ∀ (t' : Nat) (p : Pc), w.pcs[t']? = some p → t' ≠ t → p.uses id = 0 := by
  obtain ⟨s, h1, h2, _⟩ := hi.fine t _ h
  have hc := hi.count id
  have hs : w.strong id = 1 := by unfold World.strong; rw [h1]; simp [h2]
  have hu := uses_le h id
  simp at hu
  refine ⟨by omega, fun t' p hp hne => ?_⟩
  have := uses_two h hp (Ne.symm hne) id
  simp at this
  omega

/-- A thread goes from `p` to `q`. -/
theorem Inv.go {w w' : World} (hi : Inv w) {t : Nat} {p q : Pc} (h : w.pcs[t]? = some p) (hp : w'.pcs = w.pcs.set t q)
    (hw : q.writes = true → p.writes = true ∨ ∀ x ∈ w.pcs, x.writes = false ∧ x.reads = false)
    (hr : q.reads = true → p.reads = true ∨ p.writes = true ∨ ∀ x ∈ w.pcs, x.writes = false)
    (hc : ∀ id, w'.strong id + (w.held id + p.uses id) = w.strong id + (w'.held id + q.uses id))
    (hq : q.Fine w'.cells) (ho : ∀ (i : Nat) (x : Pc), i ≠ t → w.pcs[i]? = some x → x.Fine w.cells → x.Fine w'.cells)
    (hs : w'.poisoned = w.poisoned ∨ p.writes = true) (hl : q.writes = true ∨ q.reads = true → w'.poisoned = false) :
    Inv w' := by
  refine ⟨hp ▸ hi.excl.set h hw hr, ?_, ?_, ?_⟩
  · intro id
    have h1 := total_set (q := q) h id
    have h2 := hi.count id
    have h3 := hc id
    rw [hp]; omega
  · intro i x hx
    rw [hp] at hx
    rcases get_set h hx with ⟨rfl, rfl⟩ | ⟨h1, h2⟩
    · exact hq
    · exact ho i x h1 h2 (hi.fine i x h2)
  · intro i x hx hlock
    rw [hp] at hx
    rcases get_set h hx with ⟨rfl, rfl⟩ | ⟨h1, h2⟩
    · exact hl hlock
    · rcases hs with h3 | h3
      · rw [h3]; exact hi.sane i x h2 hlock
      · have := hi.excl t i p x h h2 (Ne.symm h1) h3
        rw [this.1, this.2] at hlock; simp at hlock

theorem Inv.init (n : Nat) : Inv (World.init n) := by
  have hp : ∀ (t : Nat) (p : Pc), (World.init n).pcs[t]? = some p → p = .ret .unit := by
    intro t p h
    exact List.eq_of_mem_replicate (List.mem_of_getElem? h)
  refine ⟨?_, ?_, ?_, ?_⟩
  · intro i j p q h1 _ _ h4
    rw [hp i p h1] at h4; cases h4
  · intro id
    have : total (List.replicate n (Pc.ret .unit)) id = 0 := by
      simp [total]
    simp [World.init, World.strong, this]
  · intro t p h
    rw [hp t p h]; trivial
  · intro t p h _; rfl

/-- The users' `Arc`s are of scopes that live. -/
theorem Inv.held_live {w : World} (hi : Inv w) {id : Nat} (h : 0 < w.held id) : 0 < w.strong id := by
  have := hi.count id; omega

theorem Inv.uses_live {w : World} (hi : Inv w) {t id : Nat} {p : Pc} (h : w.pcs[t]? = some p) (hu : 0 < p.uses id) :
    0 < w.strong id := by
  have := hi.count id
  have := uses_le h id
  omega

theorem Inv.step {w w' : World} {e : Option ScopeOp} (hi : Inv w) (hs : Step w e w') : Inv w' := by
  cases hs with
  | rest => exact hi
  | @clone id h =>
    have hl := hi.held_live h
    refine ⟨hi.excl, ?_, ?_, hi.sane⟩
    · intro i
      have h1 := strong_incr hl i
      have h2 := hi.count i
      show (w.incr id).strong i = (if i = id then w.held i + 1 else w.held i) + total w.pcs i
      rw [h1]; split <;> omega
    · intro t p hp
      refine (hi.fine t p hp).modify (fun _ => rfl) ?_
      rintro i rfl rfl
      have := (hi.alone hp).1
      omega
  | @drop id h =>
    refine ⟨hi.excl, ?_, ?_, hi.sane⟩
    · intro i
      have h1 := strong_decr (w := w) (id := id) i
      have h2 := hi.count i
      show (w.decr id).strong i = (if i = id then w.held i - 1 else w.held i) + total w.pcs i
      rw [h1]; split <;> simp_all <;> omega
    · intro t p hp
      refine (hi.fine t p hp).modify (fun _ => rfl) ?_
      rintro i rfl rfl
      have := (hi.alone hp).1
      omega
  | callNew h data =>
    exact hi.go h rfl (by simp [Pc.writes]) (by simp [Pc.reads]) (by intro; simp [World.goto, World.strong]) data
      (fun _ _ _ _ hx => hx) (.inl rfl) (by simp [Pc.writes, Pc.reads])
  | @callRemove t r id h own =>
    refine hi.go h rfl (by simp [Pc.writes]) (by simp [Pc.reads]) ?_ trivial
      (fun _ _ _ _ hx => hx) (.inl rfl) (by simp [Pc.writes, Pc.reads])
    intro i
    show w.strong i + _ = _ + ((if i = id then w.held i - 1 else w.held i) + _)
    simp only [uses_ret, uses_removeWait]
    split
    · next hh => subst hh; omega
    · omega
  | callFind h =>
    exact hi.go h rfl (by simp [Pc.writes]) (by simp [Pc.reads]) (by intro; simp [World.goto, World.strong]) trivial
      (fun _ _ _ _ hx => hx) (.inl rfl) (by simp [Pc.writes, Pc.reads])
  | newLock h free sane =>
    exact hi.go h rfl (fun _ => .inr free) (by simp [Pc.reads]) (by intro; simp [World.goto, World.strong]) (hi.fine _ _ h :)
      (fun _ _ _ _ hx => hx) (.inl rfl) (fun _ => sane)
  | newFail h free bad =>
    exact hi.go h rfl (by simp [Pc.writes]) (by simp [Pc.reads]) (by intro; simp [World.goto, World.strong]) trivial
      (fun _ _ _ _ hx => hx) (.inl rfl) (by simp [Pc.writes, Pc.reads])
  | newRoot h ok =>
    exact hi.go h rfl (fun _ => .inl rfl) (by simp [Pc.reads]) (by intro; simp [World.goto, World.strong]) ok
      (fun _ _ _ _ hx => hx) (.inl rfl) (fun _ => hi.sane _ _ h (.inl rfl))
  | newRootPanic h bad =>
    exact hi.go h rfl (by simp [Pc.writes]) (by simp [Pc.reads]) (by intro; simp [World.goto, World.strong]) trivial
      (fun _ _ _ _ hx => hx) (.inr rfl) (by simp [Pc.writes, Pc.reads])
  | @newMake t m sk root h ne =>
    refine hi.go h rfl (fun _ => .inl rfl) (by simp [Pc.reads]) ?_ ?_ ?_ (.inl rfl) (fun _ => hi.sane _ _ h (.inl rfl))
    · intro i
      show (((w.cells ++ [⟨sk, m, root, 1⟩])[i]?).map (·.strong)).getD 0 + _ = _
      simp only [uses_newMake, uses_newInsert, World.goto, World.strong, List.getElem?_append, List.getElem?_singleton]
      by_cases h1 : i < w.cells.length
      · simp [h1, Nat.ne_of_lt h1]
      · by_cases h2 : i = w.cells.length
        · simp [h2]; omega
        · have : i - w.cells.length ≠ 0 := by omega
          simp [h1, h2, this]
    · exact ⟨⟨sk, m, root, 1⟩, by simp, rfl, by simp, ne, root, hi.fine _ _ h⟩
    · intro i x hne hx hf
      have hex := hi.excl t i _ x h hx (Ne.symm hne) rfl
      cases x with
      | newInsert _ => exact absurd hex.1 (by simp [Pc.writes])
      | keysDrop j k =>
        obtain ⟨s, h1, h2⟩ := hf
        exact ⟨s, by
          show (w.cells ++ _)[j]? = _
          rw [List.getElem?_append_left (List.getElem?_eq_some_iff.mp h1).1]; exact h1, h2⟩
      | _ => exact hf
  | newMakeEmpty h empty =>
    exact hi.go h rfl (by simp [Pc.writes]) (by simp [Pc.reads]) (by intro; simp [World.goto, World.strong]) trivial
      (fun _ _ _ _ hx => hx) (.inr rfl) (by simp [Pc.writes, Pc.reads])
  | newInsert h cell =>
    exact hi.go h rfl (fun _ => .inl rfl) (by simp [Pc.reads]) (by intro; simp [World.goto, World.strong]) trivial
      (fun _ _ _ _ hx => hx) (.inl rfl) (fun _ => hi.sane _ _ h (.inl rfl))
  | @newOut t id h =>
    refine hi.go h rfl (by simp [Pc.writes]) (by simp [Pc.reads]) ?_ trivial
      (fun _ _ _ _ hx => hx) (.inl rfl) (by simp [Pc.writes, Pc.reads])
    intro i
    show w.strong i + _ = _ + ((if i = id then w.held i + 1 else w.held i) + _)
    simp only [uses_ret, uses_newOut]
    split <;> omega
  | removeLock h free sane =>
    exact hi.go h rfl (fun _ => .inr free) (by simp [Pc.reads]) (by intro; simp [World.goto, World.strong]) trivial
      (fun _ _ _ _ hx => hx) (.inl rfl) (fun _ => sane)
  | @removeFail t id h free bad =>
    refine hi.go h rfl (by simp [Pc.writes]) (by simp [Pc.reads]) ?_ trivial
      (fun _ _ _ _ hx => hx) (.inl rfl) (by simp [Pc.writes, Pc.reads])
    intro i
    show w.strong i + _ = _ + ((if i = id then w.held i + 1 else w.held i) + _)
    simp only [uses_ret, uses_removeWait]
    split <;> omega
  | removeMap h cell =>
    exact hi.go h rfl (fun _ => .inl rfl) (by simp [Pc.reads]) (by intro; simp [World.goto, World.strong]) trivial
      (fun _ _ _ _ hx => hx) (.inl rfl) (fun _ => hi.sane _ _ h (.inl rfl))
  | @removeOut t id h =>
    refine hi.go h rfl (by simp [Pc.writes]) (by simp [Pc.reads]) ?_ trivial
      (fun _ _ _ _ hx => hx) (.inl rfl) (by simp [Pc.writes, Pc.reads])
    intro i
    show w.strong i + _ = _ + ((if i = id then w.held i + 1 else w.held i) + _)
    simp only [uses_ret, uses_removeOut]
    split <;> omega
  | findLock h free sane =>
    exact hi.go h rfl (by simp [Pc.writes]) (fun _ => .inr (.inr free)) (by intro; simp [World.goto, World.strong]) trivial
      (fun _ _ _ _ hx => hx) (.inl rfl) (fun _ => sane)
  | findFail h free bad =>
    exact hi.go h rfl (by simp [Pc.writes]) (by simp [Pc.reads]) (by intro; simp [World.goto, World.strong]) trivial
      (fun _ _ _ _ hx => hx) (.inl rfl) (by simp [Pc.writes, Pc.reads])
  | findGet h =>
    exact hi.go h rfl (by simp [Pc.writes]) (fun _ => .inl rfl) (by intro; simp [World.goto, World.strong]) trivial
      (fun _ _ _ _ hx => hx) (.inl rfl) (fun _ => hi.sane _ _ h (.inr rfl))
  | findNone h =>
    exact hi.go h rfl (by simp [Pc.writes]) (fun _ => .inl rfl) (by intro; simp [World.goto, World.strong]) trivial
      (fun _ _ _ _ hx => hx) (.inl rfl) (fun _ => hi.sane _ _ h (.inr rfl))
  | findDead h dead =>
    exact hi.go h rfl (by simp [Pc.writes]) (fun _ => .inl rfl) (by intro; simp [World.goto, World.strong]) trivial
      (fun _ _ _ _ hx => hx) (.inl rfl) (fun _ => hi.sane _ _ h (.inr rfl))
  | @findSome t a user id h live =>
    refine hi.go h rfl (by simp [Pc.writes]) (fun _ => .inl rfl) ?_ trivial ?_ (.inl rfl)
      (fun _ => hi.sane _ _ h (.inr rfl))
    · intro i
      have := strong_incr live i
      show (w.incr id).strong i + _ = _ + (w.held i + _)
      rw [this]
      simp only [uses_findUpgrade, uses_findOut_some]
      split <;> omega
    · intro i x hne hx hf
      refine hf.modify (fun _ => rfl) ?_
      rintro j rfl rfl
      exact absurd (hi.excl i t _ _ hx h hne rfl).2 (by simp [Pc.reads])
  | @findOut t a id h =>
    refine hi.go h rfl (by simp [Pc.writes]) (by simp [Pc.reads]) ?_ trivial
      (fun _ _ _ _ hx => hx) (.inl rfl) (by simp [Pc.writes, Pc.reads])
    intro i
    show w.strong i + _ = _ + ((if i = id then w.held i + 1 else w.held i) + _)
    simp only [uses_ret, uses_findOut_some]
    split <;> omega
  | findOutNone h =>
    exact hi.go h rfl (by simp [Pc.writes]) (by simp [Pc.reads]) (by intro; simp [World.goto, World.strong]) trivial
      (fun _ _ _ _ hx => hx) (.inl rfl) (by simp [Pc.writes, Pc.reads])
  | keysNone h =>
    exact hi.go h rfl (by simp [Pc.writes]) (by simp [Pc.reads]) (by intro; simp [World.goto, World.strong]) trivial
      (fun _ _ _ _ hx => hx) (.inl rfl) (by simp [Pc.writes, Pc.reads])
  | keysSome h =>
    exact hi.go h rfl (by simp [Pc.writes]) (by simp [Pc.reads]) (by intro; simp [World.goto, World.strong]) trivial
      (fun _ _ _ _ hx => hx) (.inl rfl) (by simp [Pc.writes, Pc.reads])
  | keysClone h cell =>
    exact hi.go h rfl (by simp [Pc.writes]) (by simp [Pc.reads]) (by intro; simp [World.goto, World.strong]) ⟨_, cell, rfl⟩
      (fun _ _ _ _ hx => hx) (.inl rfl) (by simp [Pc.writes, Pc.reads])
  | @keysDrop t id k h =>
    refine hi.go h rfl (by simp [Pc.writes]) (by simp [Pc.reads]) ?_ trivial ?_ (.inl rfl)
      (by simp [Pc.writes, Pc.reads])
    · intro i
      have hl := hi.uses_live (id := id) h (by simp)
      have := strong_decr (w := w) (id := id) i
      show (w.decr id).strong i + _ = _ + (w.held i + _)
      rw [this]
      simp only [uses_ret, uses_keysDrop]
      split
      · next hh => subst hh; omega
      · omega
    · intro i x hne hx hf
      refine hf.modify (fun _ => rfl) ?_
      rintro j rfl rfl
      have := (hi.alone hx).2 t _ h (Ne.symm hne)
      simp at this

/-! ## The book -/

/-- The book after a step. -/
def next (b : List Owner) : Option ScopeOp → List Owner
  | none => b
  | some op => bookStep b op

/-- A scope, in the registry of Model/Scope.lean. -/
def Cell.entry (c : Cell) : ScopeRec := ⟨c.sk, c.buf, c.root, decide (0 < c.strong)⟩

/-- The registry of Model/Scope.lean: of the scopes, those that have been entered. -/
def World.abs (w : World) (k : Nat) : Registry := { scopes := (w.cells.take k).map Cell.entry, map := w.map }

theorem abs_get (w : World) (k id : Nat) : (w.abs k).scopes[id]? = if id < k then (w.cells[id]?).map Cell.entry else none := by
  simp only [World.abs, List.getElem?_map, List.getElem?_take]
  split <;> rfl

structure Booked (w : World) (b : List Owner) : Prop where
  align : (b.length = w.cells.length ∧ ∀ (t id : Nat), w.pcs[t]? ≠ some (.newInsert id)) ∨
    ∃ t : Nat, w.pcs[t]? = some (.newInsert b.length) ∧ b.length + 1 = w.cells.length
  keeps : Keeps (w.abs b.length) b
  seen : ∀ (t a : Nat) (u : Bool) (e : Option Nat), w.pcs[t]? = some (.findUpgrade a u e) → w.map a = e

def proj (s : ScopeRec) : Nat × Nat × Option SharedKeys × Bool := (s.buf.base, s.buf.data.length, s.sk, s.alive)

theorem _root_.Fleece.Props.Keeps.congr {r r' : Registry} {b : List Owner} (h : Keeps r b) (hs : r'.poisoned = false)
    (hp : ∀ id : Nat, (r'.scopes[id]?).map proj = (r.scopes[id]?).map proj) (hm : r'.map = r.map) : Keeps r' b :=
  ⟨hs, fun id => (hp id).trans (h.same id), h.apart, hm ▸ h.sound, hm ▸ h.complete⟩

theorem Booked.go {w w' : World} {b : List Owner} (hb : Booked w b) {t : Nat} {p q : Pc} (h : w.pcs[t]? = some p)
    (hp : w'.pcs = w.pcs.set t q) (hn : ∀ id, p ≠ .newInsert id) (hn' : ∀ id, q ≠ .newInsert id) (hc : w'.cells = w.cells)
    (hm : w'.map = w.map) (hq : ∀ a u e, q = .findUpgrade a u e → w.map a = e) : Booked w' b := by
  refine ⟨?_, ?_, ?_⟩
  · rw [hp, hc]
    rcases hb.align with ⟨h1, h2⟩ | ⟨t', h1, h2⟩
    · refine .inl ⟨h1, fun t' id hx => ?_⟩
      rcases get_set h hx with ⟨_, h4⟩ | ⟨_, h4⟩
      · exact hn' id h4.symm
      · exact h2 t' id h4
    · refine .inr ⟨t', ?_, h2⟩
      have : t ≠ t' := by
        rintro rfl
        rw [h] at h1; cases h1
        exact hn _ rfl
      rw [List.getElem?_set_ne this]; exact h1
  · have := hb.keeps
    unfold World.abs at this ⊢
    rw [hc, hm]; exact this
  · intro t' a u e hx
    rw [hp] at hx
    rw [hm]
    rcases get_set h hx with ⟨_, h4⟩ | ⟨_, h4⟩
    · exact hq a u e h4.symm
    · exact hb.seen t' a u e h4

/-- A change of the count that does not end the scope. -/
theorem Booked.modify {w w' : World} {b : List Owner} (hb : Booked w b) {id : Nat} {f : Cell → Cell}
    (hf : ∀ s, w.cells[id]? = some s → proj (f s).entry = proj s.entry) (hp : w'.pcs = w.pcs) (hm : w'.map = w.map)
    (hc : w'.cells = w.cells.modify id f) : Booked w' b := by
  refine ⟨?_, hb.keeps.congr rfl ?_ hm, ?_⟩
  · rw [hp, hc, List.length_modify]; exact hb.align
  · intro i
    rw [abs_get, abs_get, hc]
    split
    · rw [modify_cell]
      cases h1 : w.cells[i]? with
      | none => rfl
      | some s =>
        simp only [Option.map_some]
        split
        · next h2 => subst h2; rw [hf s h1]
        · rfl
    · rfl
  · intro t a u e hx
    rw [hm]; rw [hp] at hx; exact hb.seen t a u e hx

theorem Booked.incr {w : World} {b : List Owner} (hb : Booked w b) {id : Nat} (hl : 0 < w.strong id) : Booked (w.incr id) b := by
  refine hb.modify (id := id) ?_ rfl rfl rfl
  intro s hs
  obtain ⟨s', h1, h2⟩ := cell_of_strong hl
  rw [hs] at h1; cases h1
  have : 0 < s.strong := by omega
  simp [proj, Cell.entry, this]

theorem Booked.known {w : World} {b : List Owner} (hb : Booked w b) {id : Nat} (hl : 0 < w.strong id)
    (hn : ∀ t : Nat, w.pcs[t]? ≠ some (.newInsert id)) : id < b.length := by
  obtain ⟨s, h1, _⟩ := cell_of_strong hl
  have := (List.getElem?_eq_some_iff.mp h1).1
  rcases hb.align with ⟨h2, _⟩ | ⟨t, h2, h3⟩
  · omega
  · have : id ≠ b.length := by rintro rfl; exact hn t h2
    omega

theorem Booked.owner {w : World} {b : List Owner} (hb : Booked w b) {id : Nat} (hk : id < b.length) :
    ∃ o s, b[id]? = some o ∧ w.cells[id]? = some s ∧ o.live = decide (0 < s.strong) ∧ o.sk = s.sk ∧
      o.start = s.buf.base ∧ o.len = s.buf.data.length := by
  have h1 := hb.keeps.same id
  rw [abs_get, if_pos hk, List.getElem?_eq_getElem hk] at h1
  cases h2 : w.cells[id]? with
  | none => rw [h2] at h1; cases h1
  | some s =>
    rw [h2] at h1
    simp only [Option.map_some, Option.some.injEq, Prod.mk.injEq, Cell.entry] at h1
    exact ⟨b[id], s, List.getElem?_eq_getElem hk, rfl, h1.2.2.2.symm, h1.2.2.1.symm, h1.1.symm, h1.2.1.symm⟩

theorem Booked.live {w : World} {b : List Owner} (hb : Booked w b) {id : Nat} (hl : 0 < w.strong id)
    (hn : ∀ t : Nat, w.pcs[t]? ≠ some (.newInsert id)) : ∃ o, b[id]? = some o ∧ o.live = true := by
  obtain ⟨o, s, h1, h2, h3, _⟩ := hb.owner (hb.known hl hn)
  obtain ⟨s', h4, h5⟩ := cell_of_strong hl
  rw [h2] at h4; cases h4
  exact ⟨o, h1, by rw [h3]; simp; omega⟩

theorem next_length {b : List Owner} {id : Nat} : (bookStep b (.drop id)).length = b.length := by
  simp [bookStep]

theorem Booked.decr {w : World} {b : List Owner} (hb : Booked w b) {id : Nat} (hl : 0 < w.strong id)
    (hn : ∀ t : Nat, w.pcs[t]? ≠ some (.newInsert id)) :
    (∀ op, w.dropEvent id = some op → op.Legal b) ∧ Booked (w.decr id) (next b (w.dropEvent id)) := by
  obtain ⟨s, hs, hst⟩ := cell_of_strong hl
  unfold World.dropEvent
  by_cases h1 : w.strong id = 1
  · rw [if_pos h1]
    have hleg : (ScopeOp.drop id).Legal b := hb.live hl hn
    refine ⟨fun op h => by cases h; exact hleg, ?_⟩
    refine ⟨?_, ?_, fun t a u e hx => hb.seen t a u e hx⟩
    · simp only [next, next_length, World.decr, List.length_modify]; exact hb.align
    · refine Fleece.Props.Keeps.congr (hb.keeps.step hleg).2 rfl ?_ rfl
      intro i
      simp only [next, next_length, Registry.step, Registry.drop]
      rw [abs_get, List.getElem?_mapIdx, abs_get]
      simp only [World.decr, modify_cell]
      split
      · cases h2 : w.cells[i]? with
        | none => rfl
        | some s' =>
          by_cases h3 : id = i
          · subst h3
            rw [hs] at h2; cases h2
            simp [proj, Cell.entry]; omega
          · simp [if_neg h3, if_neg (Ne.symm h3)]
      · rfl
  · rw [if_neg h1]
    refine ⟨(by intro op h; cases h), hb.modify (id := id) ?_ rfl rfl rfl⟩
    intro s' hs'
    rw [hs] at hs'; cases hs'
    have h2 : 0 < s.strong := by omega
    have h3 : 0 < s.strong - 1 := by omega
    simp [proj, Cell.entry, h2, h3]

/-- Every step leaves the book right, and what happens in it is legal in the sense of C35. -/
theorem Booked.step {w w' : World} {b : List Owner} {e : Option ScopeOp} (hi : Inv w) (hb : Booked w b) (hs : Step w e w')
    (hap : ∀ m sk, e = some (.new m sk) → ∀ o ∈ b, o.live = true →
      m.base + m.data.length ≤ o.start ∨ o.start + o.len ≤ m.base) :
    (∀ op, e = some op → op.Legal b) ∧ Booked w' (next b e) := by
  cases hs with
  | rest => exact ⟨by simp, hb⟩
  | @clone id h =>
    have := hb.incr (hi.held_live h)
    exact ⟨by simp, this.align, this.keeps, this.seen⟩
  | @drop id h =>
    have := hb.decr (hi.held_live h) (by
      intro t ht
      have := (hi.alone ht).1
      omega)
    exact ⟨this.1, this.2.align, this.2.keeps, this.2.seen⟩
  | callNew h data => exact ⟨by simp, hb.go h rfl (by simp) (by simp) rfl rfl (by simp)⟩
  | callRemove h own => exact ⟨by simp, hb.go h rfl (by simp) (by simp) rfl rfl (by simp)⟩
  | callFind h => exact ⟨by simp, hb.go h rfl (by simp) (by simp) rfl rfl (by simp)⟩
  | newLock h free sane => exact ⟨by simp, hb.go h rfl (by simp) (by simp) rfl rfl (by simp)⟩
  | newFail h free bad => exact ⟨by simp, hb.go h rfl (by simp) (by simp) rfl rfl (by simp)⟩
  | newRoot h ok => exact ⟨by simp, hb.go h rfl (by simp) (by simp) rfl rfl (by simp)⟩
  | newRootPanic h bad => exact ⟨by simp, hb.go h rfl (by simp) (by simp) rfl rfl (by simp)⟩
  | @newMake t m sk root h ne =>
    refine ⟨by simp, ?_⟩
    have hno : ∀ (t' id : Nat), w.pcs[t']? ≠ some (.newInsert id) := by
      intro t' id hx
      by_cases h1 : t = t'
      · subst h1; rw [h] at hx; cases hx
      · exact absurd (hi.excl t t' _ _ h hx h1 rfl).1 (by simp [Pc.writes])
    have hlen : b.length = w.cells.length := by
      rcases hb.align with ⟨h1, _⟩ | ⟨t', h1, _⟩
      · exact h1
      · exact absurd h1 (hno t' _)
    refine ⟨.inr ⟨t, ?_, ?_⟩, hb.keeps.congr rfl ?_ rfl, ?_⟩
    · simp only [World.goto, next, hlen]
      exact List.getElem?_set_self (List.getElem?_eq_some_iff.mp h).1
    · simp [next, hlen]
    · intro i
      simp only [next]
      rw [abs_get, abs_get]
      split
      · next hlt =>
        simp only []
        rw [List.getElem?_append_left (by omega)]
      · rfl
    · intro t' a u e hx
      rcases get_set h hx with ⟨_, h4⟩ | ⟨_, h4⟩
      · cases h4
      · exact hb.seen t' a u e h4
  | newMakeEmpty h empty => exact ⟨by simp, hb.go h rfl (by simp) (by simp) rfl rfl (by simp)⟩
  | @newInsert t id s h cell =>
    obtain ⟨s', h1, h2, h3, h4, h5⟩ := hi.fine _ _ h
    rw [cell] at h1; cases h1
    have hlen : b.length = id := by
      rcases hb.align with ⟨_, h6⟩ | ⟨t', h6, h7⟩
      · exact absurd h (h6 t id)
      · omega
    subst hlen
    have hleg : (ScopeOp.new s.buf s.sk).Legal b := ⟨h4, h5, hap _ _ rfl⟩
    refine ⟨fun op hop => by cases hop; exact hleg, ?_⟩
    obtain ⟨x, hx⟩ := h5
    have hreg : ((w.abs b.length).step (.new s.buf s.sk)).1 = { w.abs b.length with
          scopes := (w.abs b.length).scopes ++ [⟨s.sk, s.buf, x, true⟩]
          map := fun a => if s.buf.holds a then some (w.abs b.length).scopes.length else w.map a } := by
      simp only [Registry.step, Registry.new, hx]
      rw [if_neg (by simp [World.abs]), if_neg (by simpa using h4)]
      rfl
    have hl2 : (w.abs b.length).scopes.length = b.length := by
      rw [hb.keeps.length]
    have hk := (hb.keeps.step hleg).2
    rw [hreg, hl2] at hk
    have hbl : (bookStep b (.new s.buf s.sk)).length = b.length + 1 := by simp [bookStep]
    refine ⟨.inl ⟨?_, ?_⟩, hk.congr rfl ?_ rfl, ?_⟩
    · simp only [next, hbl, h3]; rfl
    · intro t' id' hx'
      rcases get_set h hx' with ⟨_, h6⟩ | ⟨h7, h6⟩
      · cases h6
      · exact absurd (hi.excl t t' _ _ h h6 (Ne.symm h7) rfl).1 (by simp [Pc.writes])
    · intro i
      simp only [next, hbl]
      rw [abs_get]
      simp only [List.getElem?_append, hl2, abs_get, World.goto]
      by_cases h6 : i < b.length
      · simp [h6, Nat.lt_succ_of_lt h6]
      · by_cases h7 : i = b.length
        · rw [h7]
          simp [cell, proj, Cell.entry, h2]
        · have h8 : ¬ i < b.length + 1 := by omega
          have h9 : i - b.length ≠ 0 := by omega
          simp [h6, h8, h9]
    · intro t' a u e hx'
      rcases get_set h hx' with ⟨_, h6⟩ | ⟨h7, h6⟩
      · cases h6
      · exact absurd (hi.excl t t' _ _ h h6 (Ne.symm h7) rfl).2 (by simp [Pc.reads])
  | newOut h => exact ⟨by simp, hb.go h rfl (by simp) (by simp) rfl rfl (by simp)⟩
  | removeLock h free sane => exact ⟨by simp, hb.go h rfl (by simp) (by simp) rfl rfl (by simp)⟩
  | removeFail h free bad => exact ⟨by simp, hb.go h rfl (by simp) (by simp) rfl rfl (by simp)⟩
  | @removeMap t id s h cell =>
    have hl := hi.uses_live (id := id) h (by simp)
    have hn : ∀ t' : Nat, w.pcs[t']? ≠ some (.newInsert id) := by
      intro t' ht
      have := (hi.alone ht).2 t _ h (by rintro rfl; rw [h] at ht; cases ht)
      simp at this
    have hleg : (ScopeOp.remove id).Legal b := hb.live hl hn
    have hk := hb.known hl hn
    refine ⟨fun op hop => by cases hop; exact hleg, ?_⟩
    have hget : (w.abs b.length).scopes[id]? = some s.entry := by rw [abs_get, if_pos hk, cell]; rfl
    have hreg : ((w.abs b.length).step (.remove id)).1 =
        { w.abs b.length with map := fun a => if s.buf.holds a then none else w.map a } := by
      simp only [Registry.step, hget, Registry.remove]
      rw [if_neg (by simp [World.abs])]
      rfl
    have hkeep := (hb.keeps.step hleg).2
    rw [hreg] at hkeep
    have hbl : (bookStep b (.remove id)).length = b.length := by simp [bookStep]
    refine ⟨?_, hkeep.congr rfl ?_ rfl, ?_⟩
    · simp only [next, hbl]
      rcases hb.align with ⟨h1, h2⟩ | ⟨t', h1, _⟩
      · refine .inl ⟨h1, fun t' id' hx => ?_⟩
        rcases get_set h hx with ⟨_, h4⟩ | ⟨_, h4⟩
        · cases h4
        · exact h2 t' id' h4
      · have hne : t ≠ t' := by rintro rfl; rw [h] at h1; cases h1
        exact absurd (hi.excl t t' _ _ h h1 hne rfl).1 (by simp [Pc.writes])
    · intro i
      simp only [next, hbl]
      rw [abs_get, abs_get]
      rfl
    · intro t' a u e hx'
      rcases get_set h hx' with ⟨_, h6⟩ | ⟨h7, h6⟩
      · cases h6
      · exact absurd (hi.excl t t' _ _ h h6 (Ne.symm h7) rfl).2 (by simp [Pc.reads])
  | removeOut h => exact ⟨by simp, hb.go h rfl (by simp) (by simp) rfl rfl (by simp)⟩
  | findLock h free sane => exact ⟨by simp, hb.go h rfl (by simp) (by simp) rfl rfl (by simp)⟩
  | findFail h free bad => exact ⟨by simp, hb.go h rfl (by simp) (by simp) rfl rfl (by simp)⟩
  | findGet h =>
    refine ⟨by simp, hb.go h rfl (by simp) (by simp) rfl rfl ?_⟩
    intro a u e hq; cases hq; rfl
  | findNone h => exact ⟨by simp, hb.go h rfl (by simp) (by simp) rfl rfl (by simp)⟩
  | findDead h dead => exact ⟨by simp, hb.go h rfl (by simp) (by simp) rfl rfl (by simp)⟩
  | findSome h live => exact ⟨by simp, (hb.incr live).go h rfl (by simp) (by simp) rfl rfl (by simp)⟩
  | findOut h => exact ⟨by simp, hb.go h rfl (by simp) (by simp) rfl rfl (by simp)⟩
  | findOutNone h => exact ⟨by simp, hb.go h rfl (by simp) (by simp) rfl rfl (by simp)⟩
  | keysNone h => exact ⟨by simp, hb.go h rfl (by simp) (by simp) rfl rfl (by simp)⟩
  | keysSome h => exact ⟨by simp, hb.go h rfl (by simp) (by simp) rfl rfl (by simp)⟩
  | keysClone h cell => exact ⟨by simp, hb.go h rfl (by simp) (by simp) rfl rfl (by simp)⟩
  | @keysDrop t id k h =>
    have hl := hi.uses_live (id := id) h (by simp)
    have hn : ∀ t' : Nat, w.pcs[t']? ≠ some (.newInsert id) := by
      intro t' ht
      have := (hi.alone ht).2 t _ h (by rintro rfl; rw [h] at ht; cases ht)
      simp at this
    have := hb.decr hl hn
    exact ⟨this.1, this.2.go h rfl (by simp) (by simp) rfl rfl (by simp)⟩

theorem Booked.init (n : Nat) : Booked (World.init n) [] := by
  refine ⟨.inl ⟨rfl, fun t id h => ?_⟩, ⟨rfl, by simp [World.abs], by simp, ?_, by simp⟩, fun t a u e h => ?_⟩
  · cases List.eq_of_mem_replicate (List.mem_of_getElem? h)
  · intro a id h; cases h
  · cases List.eq_of_mem_replicate (List.mem_of_getElem? h)

theorem History.book_succ {n : Nat} (h : History n) (i : Nat) : h.book (i + 1) = next (h.book i) (h.event i) := by
  rw [History.book]
  cases h.event i <;> rfl

theorem History.inv {n : Nat} (h : History n) (i : Nat) : Inv (h.state i) := by
  induction i with
  | zero => rw [h.start]; exact Inv.init n
  | succ i ih => exact ih.step (h.step i)

theorem History.booked {n : Nat} (h : History n) (ha : h.Apart) (i : Nat) : Booked (h.state i) (h.book i) := by
  induction i with
  | zero => rw [h.start]; exact Booked.init n
  | succ i ih =>
    rw [h.book_succ]
    exact (ih.step (h.inv i) (h.step i) (fun m sk he => ha i m sk he)).2

theorem History.legal {n : Nat} (h : History n) (ha : h.Apart) (i : Nat) (op : ScopeOp) (he : h.event i = some op) :
    op.Legal (h.book i) :=
  ((h.booked ha i).step (h.inv i) (h.step i) (fun m sk he => ha i m sk he)).1 op he

end Fleece.Threads
