import Verif.Proofs.Texts
import Verif.Spec.Tiny

/-! # What is somewhere in the document under construction -/

namespace Fleece

variable {p : Tree → Prop}

/-- In an open collection. -/
def Frame.Has (p : Tree → Prop) : Frame → Prop
  | .arr xs => ∃ x ∈ xs, x.Has p
  | .dict kvs _ => ∃ kv ∈ kvs, kv.2.Has p

/-- In what is built so far. -/
def Build.Has (p : Tree → Prop) (b : Build) : Prop := (∃ f ∈ b.stack, f.Has p) ∨ ∃ t, b.root = some t ∧ t.Has p

/-- `p` is about leaves. -/
def Leaf (p : Tree → Prop) : Prop := (∀ xs, ¬ p (.arr xs)) ∧ ∀ kvs, ¬ p (.dict kvs)

theorem Tree.has_arr (hp : Leaf p) {xs : List Tree} : (Tree.arr xs).Has p ↔ ∃ x ∈ xs, x.Has p := by
  constructor
  · intro h
    cases h with
    | here h => exact absurd h (hp.1 xs)
    | elem hx h => exact ⟨_, hx, h⟩
  · rintro ⟨x, hx, h⟩; exact .elem hx h

theorem Tree.has_dict (hp : Leaf p) {kvs : List (List UInt8 × Tree)} : (Tree.dict kvs).Has p ↔ ∃ kv ∈ kvs, kv.2.Has p := by
  constructor
  · intro h
    cases h with
    | here h => exact absurd h (hp.2 kvs)
    | entry hx h => exact ⟨_, hx, h⟩
  · rintro ⟨x, hx, h⟩; exact .entry hx h

theorem Build.has_cons {b : Build} (ho : b.Ordered) {f : Frame} {fr : List Frame} (hs : b.stack = f :: fr) :
    b.Has p ↔ f.Has p ∨ ∃ g ∈ fr, g.Has p := by
  unfold Build.Has
  rw [hs, ho.noRoot hs]
  simp

theorem Build.close_has {fr : List Frame} (h : ∀ kvs rest, fr ≠ .dict kvs none :: rest) (t : Tree) :
    (Build.close fr t).Has p ↔ t.Has p ∨ ∃ g ∈ fr, g.Has p := by
  match fr with
  | [] => simp [Build.close, Build.Has]
  | .arr xs :: rest =>
    simp only [Build.close, Build.Has, List.mem_cons, exists_eq_or_imp, Frame.Has, List.mem_append, List.not_mem_nil, or_false]
    constructor
    · rintro ((⟨x, hx | rfl, h⟩ | h) | ⟨_, h, _⟩)
      · exact .inr (.inl ⟨x, hx, h⟩)
      · exact .inl h
      · exact .inr (.inr h)
      · cases h
    · rintro (h | ⟨x, hx, h⟩ | h)
      · exact .inl (.inl ⟨t, .inr rfl, h⟩)
      · exact .inl (.inl ⟨x, .inl hx, h⟩)
      · exact .inl (.inr h)
  | .dict kvs (some k) :: rest =>
    simp only [Build.close, Build.Has, List.mem_cons, exists_eq_or_imp, Frame.Has, List.mem_append, List.not_mem_nil, or_false]
    constructor
    · rintro ((⟨x, hx | rfl, h⟩ | h) | ⟨_, h, _⟩)
      · exact .inr (.inl ⟨x, hx, h⟩)
      · exact .inl h
      · exact .inr (.inr h)
      · cases h
    · rintro (h | ⟨x, hx, h⟩ | h)
      · exact .inl (.inl ⟨(k, t), .inr rfl, h⟩)
      · exact .inl (.inl ⟨x, .inl hx, h⟩)
      · exact .inl (.inr h)
  | .dict kvs none :: rest => exact absurd rfl (h kvs rest)

/-- A call adds what it writes. -/
theorem Build.step_has (hp : Leaf p) {F : FloatOps} {b b' : Build} (ho : b.Ordered) {op : Op} (h : b.step F op = .ok b') :
    b'.Has p ↔ b.Has p ∨ ∃ x, op = .value x ∧ (x.tree F).Has p := by
  have no : ∀ {q : Prop} {op : Op}, (∀ x, op ≠ .value x) → (q ↔ q ∨ ∃ x, op = .value x ∧ (x.tree F).Has p) := fun hop =>
    ⟨.inl, fun h => h.resolve_right fun ⟨x, hx, _⟩ => hop x hx⟩
  cases op with
  | beginArray n =>
    simp only [Build.step, Build.open] at h
    split at h
    · cases h
    · split at h <;> cases h
      rw [← no (by simp)]
      simp [Build.Has, Frame.Has]
  | beginDict =>
    simp only [Build.step, Build.open] at h
    split at h
    · cases h
    · split at h <;> cases h
      rw [← no (by simp)]
      simp [Build.Has, Frame.Has]
  | key k =>
    simp only [Build.step] at h
    split at h
    · next hs => cases h; rw [← no (by simp)]; simp [Build.Has, hs, Frame.Has]
    · cases h
    · cases h
  | value x =>
    have hx : (∃ y, Op.value x = .value y ∧ (y.tree F).Has p) ↔ (x.tree F).Has p :=
      ⟨fun ⟨y, h1, h2⟩ => by cases h1; exact h2, fun h => ⟨x, rfl, h⟩⟩
    rw [hx]
    have put : ∀ {f : Frame} {fr : List Frame}, (∀ kvs, f ≠ .dict kvs none) → b.stack = f :: fr →
        (b'.Has p ↔ (Build.close (f :: fr) (x.tree F)).Has p) → (b'.Has p ↔ b.Has p ∨ (x.tree F).Has p) := by
      intro f fr hf hs hb
      rw [hb, Build.close_has (by rintro kvs rest ⟨⟩; exact hf kvs rfl), Build.has_cons ho hs, or_comm]
      simp
    simp only [Build.step, Build.put] at h
    split at h
    · cases h
    · next hs =>
      refine put (by simp) hs ?_
      cases h
      simp [Build.Has, Build.close, ho.noRoot hs]
    · next hs =>
      refine put (by simp) hs ?_
      cases h
      simp [Build.Has, Build.close, ho.noRoot hs]
    · cases h
  | endArray =>
    simp only [Build.step] at h
    split at h
    · next hs =>
      cases h
      rw [← no (by simp), Build.close_has (ho.below hs), Build.has_cons ho hs, Tree.has_arr hp]
      rfl
    · cases h
  | endDict =>
    simp only [Build.step] at h
    split at h
    · next hs =>
      cases h
      rw [← no (by simp), Build.close_has (ho.below hs), Build.has_cons ho hs, Tree.has_dict hp]
      rfl
    · cases h
    · cases h

theorem Build.next_has (hp : Leaf p) {F : FloatOps} {b : Build} (ho : b.Ordered) {op : Op} (h : b.Has p) : (b.next F op).1.Has p := by
  unfold Build.next
  cases hs : b.step F op with
  | error x => exact h
  | ok b' => exact (Build.step_has hp ho hs).mpr (.inl h)

theorem Build.run_has (hp : Leaf p) {F : FloatOps} (ops : List Op) : ∀ {b : Build}, b.Ordered → b.Has p → (b.run F ops).1.Has p := by
  induction ops with
  | nil => intro b _ h; exact h
  | cons op ops ih => intro b ho h; exact ih (Build.next_ordered ho op) (Build.next_has hp ho h)

theorem Build.closeTop_has (hp : Leaf p) {b : Build} (ho : b.Ordered) : b.closeTop.Has p ↔ b.Has p := by
  unfold Build.closeTop
  split
  · rfl
  · next hs => rw [Build.close_has (ho.below hs), Build.has_cons ho hs, Tree.has_arr hp]; rfl
  · next hs => rw [Build.close_has (ho.below hs), Build.has_cons ho hs, Tree.has_dict hp]; rfl

theorem Build.closeN_has (hp : Leaf p) (n : Nat) : ∀ {b : Build}, b.Ordered → ((b.closeN n).Has p ↔ b.Has p) := by
  induction n with
  | zero => intros; rfl
  | succ n ih =>
    intro b ho
    unfold Build.closeN
    rw [ih (Build.closeTop_ordered ho), Build.closeTop_has hp ho]

/-- Nothing is lost at the end. -/
theorem Build.finish_has (hp : Leaf p) {b : Build} (ho : b.Ordered) {t : Tree} (h : b.finish = some t) : t.Has p ↔ b.Has p := by
  unfold Build.finish at h
  rw [Build.finishGo_eq] at h
  rw [← Build.closeN_has hp b.stack.length ho]
  have hl := Build.closeN_length b.stack.length b
  have : (b.closeN b.stack.length).stack = [] := List.length_eq_zero_iff.mp (by omega)
  simp [Build.Has, this, h]

theorem Build.run_ordered {F : FloatOps} (ops : List Op) : ∀ {b : Build}, b.Ordered → (b.run F ops).1.Ordered := by
  induction ops with
  | nil => intro b ho; exact ho
  | cons op ops ih => intro b ho; exact ih (Build.next_ordered ho op)

theorem byteNode_leaf : Leaf Tree.ByteNode := ⟨fun _ h => h, fun _ h => h⟩

end Fleece
