import Verif.Proofs.Determ

/-! # The number of strings and data in a document -/

namespace Fleece

mutual
/-- The number of strings and data among the values of a document. -/
def Tree.texts : Tree → Nat
  | .str _ | .data _ => 1
  | .arr xs => Tree.textsAll xs
  | .dict kvs => Tree.textsOf kvs
  | _ => 0
/-- Of several. -/
def Tree.textsAll : List Tree → Nat
  | [] => 0
  | x :: xs => x.texts + Tree.textsAll xs
/-- Of the values of a dict. -/
def Tree.textsOf : List (List UInt8 × Tree) → Nat
  | [] => 0
  | kv :: kvs => kv.2.texts + Tree.textsOf kvs
end

theorem Tree.textsAll_eq (xs : List Tree) : Tree.textsAll xs = (xs.map Tree.texts).sum := by
  induction xs with
  | nil => rfl
  | cons x xs ih => simp [Tree.textsAll, ih]

theorem Tree.textsOf_eq (kvs : List (List UInt8 × Tree)) : Tree.textsOf kvs = (kvs.map fun kv => kv.2.texts).sum := by
  induction kvs with
  | nil => rfl
  | cons x xs ih => simp [Tree.textsOf, ih]

/-- Equal documents have equally many. -/
theorem Tree.Same.texts {t u : Tree} (h : Tree.Same t u) : t.texts = u.texts := by
  induction h with
  | refl t => rfl
  | @arr xs ys len each ih =>
    simp only [Tree.texts, Tree.textsAll_eq]
    congr 1
    apply List.ext_getElem?
    intro i
    simp only [List.getElem?_map]
    by_cases hi : i < xs.length
    · rw [List.getElem?_eq_getElem hi, List.getElem?_eq_getElem (by omega)]
      simp only [Option.map_some, Option.some.injEq]
      exact ih i _ _ (List.getElem?_eq_getElem hi) (List.getElem?_eq_getElem (by omega))
    · rw [List.getElem?_eq_none (by omega), List.getElem?_eq_none (by omega)]
  | @dict kvs mid lvs perm keys each ih =>
    have len : mid.length = lvs.length := by simpa using congrArg List.length keys
    simp only [Tree.texts, Tree.textsOf_eq]
    rw [(perm.map fun kv => kv.2.texts).sum_nat]
    congr 1
    apply List.ext_getElem?
    intro i
    simp only [List.getElem?_map]
    by_cases hi : i < mid.length
    · rw [List.getElem?_eq_getElem hi, List.getElem?_eq_getElem (by omega)]
      simp only [Option.map_some, Option.some.injEq]
      exact ih i _ _ (List.getElem?_eq_getElem hi) (List.getElem?_eq_getElem (by omega))
    · rw [List.getElem?_eq_none (by omega), List.getElem?_eq_none (by omega)]

/-- Of an open collection. -/
def Frame.texts : Frame → Nat
  | .arr xs => Tree.textsAll xs
  | .dict kvs _ => Tree.textsOf kvs

/-- Of everything so far. -/
def Build.texts (b : Build) : Nat := (b.stack.map Frame.texts).sum + (b.root.map Tree.texts).getD 0

/-- Does the call write one? -/
def Op.texts : Op → Nat
  | .value (.str _) | .value (.data _) => 1
  | _ => 0

theorem Scalar.texts (F : FloatOps) (x : Scalar) : (x.tree F).texts = (Op.value x).texts := by
  cases x <;> rfl

theorem Build.close_texts {fr : List Frame} (h : ∀ kvs rest, fr ≠ .dict kvs none :: rest) (t : Tree) :
    (Build.close fr t).texts = (fr.map Frame.texts).sum + t.texts := by
  match fr with
  | [] => simp [Build.close, Build.texts]
  | .arr xs :: rest => simp [Build.close, Build.texts, Frame.texts, Tree.textsAll_eq]; omega
  | .dict kvs (some k) :: rest => simp [Build.close, Build.texts, Frame.texts, Tree.textsOf_eq]; omega
  | .dict kvs none :: rest => exact absurd rfl (h kvs rest)

theorem Build.Ordered.below {b : Build} (ho : b.Ordered) {f : Frame} {fr : List Frame} (hs : b.stack = f :: fr) :
    ∀ kvs rest, fr ≠ .dict kvs none :: rest :=
  fun kvs rest h => ho.inner f fr hs (.dict kvs none) (by rw [h]; simp) trivial

theorem Build.texts_cons {b : Build} (ho : b.Ordered) {f : Frame} {fr : List Frame} (hs : b.stack = f :: fr) :
    b.texts = f.texts + (fr.map Frame.texts).sum := by
  simp [Build.texts, hs, ho.noRoot hs]

/-- A call adds what it writes. -/
theorem Build.step_texts {F : FloatOps} {b b' : Build} (ho : b.Ordered) {op : Op} (h : b.step F op = .ok b') :
    b'.texts = b.texts + op.texts := by
  cases op with
  | beginArray n =>
    simp only [Build.step, Build.open] at h
    split at h
    · cases h
    · split at h <;> cases h; simp [Build.texts, Frame.texts, Tree.textsAll, Op.texts]
  | beginDict =>
    simp only [Build.step, Build.open] at h
    split at h
    · cases h
    · split at h <;> cases h; simp [Build.texts, Frame.texts, Tree.textsOf, Op.texts]
  | key k =>
    simp only [Build.step] at h
    split at h
    · next hs => cases h; simp [Build.texts, hs, Frame.texts, Op.texts]
    · cases h
    · cases h
  | value x =>
    rw [← Scalar.texts F x]
    simp only [Build.step, Build.put] at h
    split at h
    · cases h
    · next hs => cases h; simp [Build.texts, hs, Frame.texts, Tree.textsAll_eq]; omega
    · next hs => cases h; simp [Build.texts, hs, Frame.texts, Tree.textsOf_eq]; omega
    · cases h
  | endArray =>
    simp only [Build.step] at h
    split at h
    · next hs => cases h; rw [Build.close_texts (ho.below hs), Build.texts_cons ho hs]; simp only [Frame.texts, Tree.texts, Op.texts]; omega
    · cases h
  | endDict =>
    simp only [Build.step] at h
    split at h
    · next hs => cases h; rw [Build.close_texts (ho.below hs), Build.texts_cons ho hs]; simp only [Frame.texts, Tree.texts, Op.texts]; omega
    · cases h
    · cases h

theorem Build.closeTop_texts {b : Build} (ho : b.Ordered) : b.closeTop.texts = b.texts := by
  unfold Build.closeTop
  split
  · rfl
  · next hs => rw [Build.close_texts (ho.below hs), Build.texts_cons ho hs]; simp only [Frame.texts, Tree.texts]; omega
  · next hs => rw [Build.close_texts (ho.below hs), Build.texts_cons ho hs]; simp only [Frame.texts, Tree.texts]; omega

theorem Build.closeN_texts (n : Nat) : ∀ {b : Build}, b.Ordered → (b.closeN n).texts = b.texts := by
  induction n with
  | zero => intros; rfl
  | succ n ih =>
    intro b ho
    unfold Build.closeN
    rw [ih (Build.closeTop_ordered ho), Build.closeTop_texts ho]

/-- Nothing is lost at the end. -/
theorem Build.finish_texts {b : Build} (ho : b.Ordered) {t : Tree} (h : b.finish = some t) : t.texts = b.texts := by
  unfold Build.finish at h
  rw [Build.finishGo_eq] at h
  rw [← Build.closeN_texts b.stack.length ho]
  have hl := Build.closeN_length b.stack.length b
  have : (b.closeN b.stack.length).stack = [] := List.length_eq_zero_iff.mp (by omega)
  simp [Build.texts, this, h]

/-- The number of strings and data written by the calls. -/
def Op.textsAll (ops : List Op) : Nat := (ops.map Op.texts).sum

theorem Build.run_texts {F : FloatOps} (ops : List Op) : ∀ {b : Build}, b.Ordered →
    (b.run F ops).1.Ordered ∧ (b.run F ops).1.texts ≤ b.texts + Op.textsAll ops ∧
      (AllOk F b ops → (b.run F ops).1.texts = b.texts + Op.textsAll ops) := by
  induction ops with
  | nil => intro b ho; exact ⟨ho, Nat.le_refl _, fun _ => rfl⟩
  | cons op ops ih =>
    intro b ho
    obtain ⟨h1, h2, h3⟩ := ih (Build.next_ordered (F := F) ho op)
    have hsum : Op.textsAll (op :: ops) = op.texts + Op.textsAll ops := by simp [Op.textsAll]
    rw [hsum]
    refine ⟨h1, ?_, fun hok => ?_⟩
    · have : (b.next F op).1.texts ≤ b.texts + op.texts := by
        unfold Build.next
        cases hs : b.step F op with
        | error x => exact Nat.le_add_right _ _
        | ok b' => exact Nat.le_of_eq (Build.step_texts ho hs)
      show ((b.next F op).1.run F ops).1.texts ≤ _
      omega
    · have hr : (b.next F op).2 = .ok () := hok _ (by simp [Build.run])
      have h4 := h3 (fun r hr => hok r (by simp only [Build.run]; exact List.mem_cons_of_mem _ hr))
      have : (b.next F op).1.texts = b.texts + op.texts := by
        unfold Build.next at hr ⊢
        cases hs : b.step F op with
        | error x => rw [hs] at hr; cases hr
        | ok b' => exact Build.step_texts ho hs
      show ((b.next F op).1.run F ops).1.texts = _
      omega

end Fleece
