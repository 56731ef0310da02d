import Verif.Proofs.Local

/-!
# Build profiles

Where the checked build does not panic, the unchecked build computes the same.
-/

namespace Fleece
open Res

abbrev Res.LePanic {ε α : Type} (x y : Res ε α) : Prop := Res.LeOr (fun {_} => .panic) x y

/-- The same buffer seen by a build without overflow checks and debug assertions. -/
def Mem.rel (m : Mem) : Mem := { m with dbg := false }

@[simp] theorem Mem.rel_data (m : Mem) : m.rel.data = m.data := rfl
@[simp] theorem Mem.rel_base (m : Mem) : m.rel.base = m.base := rfl
@[simp] theorem Mem.rel_dbg (m : Mem) : m.rel.dbg = false := rfl

theorem LePanic.ok {ε α : Type} {x y : Res ε α} {a : α} (h : LePanic x y) (hx : x = .ok a) : y = .ok a := by
  rcases h with h | h
  · rw [hx] at h; cases h
  · rw [← h, hx]

theorem LePanic.ite {ε α : Type} {c : Prop} [Decidable c] {x y x' y' : Res ε α}
    (hx : c → LePanic x x') (hy : ¬ c → LePanic y y') :
    LePanic (if c then x else y) (if c then x' else y') := by
  split <;> simp_all

section
variable {ε : Type} {m : Mem} (d : m.dbg = true) {v : Val}

theorem usizeMul_prof (a b : Nat) : LePanic (usizeMul (ε := ε) true a b) (usizeMul false a b) := by
  unfold usizeMul; split
  · right; rfl
  · left; rfl

theorem usizeAdd_prof (a b : Nat) : LePanic (usizeAdd (ε := ε) true a b) (usizeAdd false a b) := by
  unfold usizeAdd; split
  · right; rfl
  · left; rfl

theorem usizeSub_prof (a b : Nat) : LePanic (usizeSub (ε := ε) true a b) (usizeSub false a b) := by
  unfold usizeSub; split
  · right; rfl
  · left; rfl

theorem readLoop_prof (bs : List UInt8) (i s r : Nat) :
    LePanic (Varint.readLoop (ε := ε) true bs i s r) (Varint.readLoop false bs i s r) := by
  induction bs generalizing i s r with
  | nil => right; rfl
  | cons b bs ih =>
    simp only [Varint.readLoop, Bool.true_and, Bool.false_and, Bool.false_eq_true, if_false]
    split
    · left; rfl
    · split
      · exact ih _ _ _
      · right; rfl

theorem varint_prof (bs : List UInt8) :
    LePanic (Varint.read (ε := ε) true bs) (Varint.read false bs) := by
  cases bs with
  | nil => right; rfl
  | cons b bs =>
    simp only [Varint.read]; split
    · right; rfl
    · exact readLoop_prof ..

include d

theorem getData_prof : LePanic (v.getData m) (v.getData m.rel) := by
  unfold Val.getData
  rw [d, Mem.rel_dbg]
  apply LePanic.ite
  · intro _; right; rfl
  · intro _
    apply LeOr.bind_panic (Or.inr rfl)
    intro b _
    apply LePanic.ite
    · intro _
      apply LeOr.bind_panic (Or.inr rfl)
      intro rest _
      apply LeOr.bind_panic (varint_prof _)
      rintro ⟨n, size⟩ _
      apply LePanic.ite
      · intro _; right; rfl
      · intro _
        apply LeOr.bind_panic (usizeAdd_prof _ _)
        intro e _; right; rfl
    · intro _; right; rfl

theorem requiredSize_prof : LePanic (v.requiredSize m) (v.requiredSize m.rel) := by
  unfold Val.requiredSize
  apply LeOr.bind_panic (Or.inr rfl)
  intro t _
  cases t <;> first | exact Or.inr rfl | skip
  all_goals
    apply LeOr.bind_panic (getData_prof d)
    intro d _; right; rfl

theorem firstPos_prof : LePanic (v.firstPos m) (v.firstPos m.rel) := by
  unfold Val.firstPos
  rw [d, Mem.rel_dbg]
  apply LePanic.ite
  · intro _; right; rfl
  · intro _
    apply LeOr.bind_panic (Or.inr rfl)
    intro s _
    apply LePanic.ite
    · intro _
      apply LeOr.bind_panic (Or.inr rfl)
      intro rest _
      apply LeOr.bind_panic (varint_prof _)
      rintro ⟨n, size⟩ _
      right; rfl
    · intro _; right; rfl

theorem arrayLen_prof : LePanic (v.arrayLen m) (v.arrayLen m.rel) := by
  unfold Val.arrayLen
  rw [d, Mem.rel_dbg]
  apply LeOr.bind_panic (Or.inr rfl)
  intro s _
  apply LePanic.ite
  · intro _
    apply LeOr.bind_panic (Or.inr rfl)
    intro rest _
    apply LeOr.bind_panic (varint_prof _)
    rintro ⟨n, size⟩ _
    apply LePanic.ite
    · intro _; right; rfl
    · intro _
      apply LeOr.bind_panic (Or.inr rfl)
      intro t _
      apply LePanic.ite
      · intro _; exact usizeMul_prof _ _
      · intro _; right; rfl
  · intro _
    apply LeOr.bind_panic (Or.inr rfl)
    intro t _
    apply LePanic.ite
    · intro _; exact usizeMul_prof _ _
    · intro _; right; rfl

theorem toStr_prof : LePanic (v.toStr m) (v.toStr m.rel) := by
  unfold Val.toStr
  apply LeOr.bind_panic (Or.inr rfl)
  intro t _
  cases t <;> first | exact Or.inr rfl | skip
  apply LeOr.bind_panic (getData_prof d)
  intro _ _; right; rfl

omit d in
theorem derefCheckedGo_prof (f : Nat) (wide : Bool) (v : Val) :
    derefCheckedGo m f wide v = derefCheckedGo m.rel f wide v := by
  induction f generalizing wide v with
  | zero => rfl
  | succ f ih =>
    unfold derefCheckedGo
    simp only [ih]
    rfl

omit d in
theorem derefChecked_prof (wide : Bool) (v : Val) :
    derefChecked m wide v = derefChecked m.rel wide v := derefCheckedGo_prof _ _ _

theorem derefUncheckedGo_prof (f : Nat) (wide : Bool) (v : Val) :
    LePanic (derefUncheckedGo m f wide v) (derefUncheckedGo m.rel f wide v) := by
  induction f generalizing wide v with
  | zero => right; rfl
  | succ f ih =>
    unfold derefUncheckedGo
    apply LeOr.bind_panic (Or.inr rfl)
    intro off _
    rw [d, Mem.rel_dbg]
    simp only [Bool.true_and, Bool.false_and, Bool.false_eq_true, if_false, decide_eq_true_eq]
    split
    · left; rfl
    · apply LePanic.ite
      · intro _; right; rfl
      · intro _
        apply LeOr.bind_panic (Or.inr rfl)
        intro x _
        apply LeOr.bind_panic (Or.inr rfl)
        intro t _
        apply LePanic.ite
        · intro _; exact ih _ _
        · intro _; right; rfl

theorem derefUnchecked_prof (wide : Bool) (v : Val) :
    LePanic (derefUnchecked m wide v) (derefUnchecked m.rel wide v) := derefUncheckedGo_prof d _ _ _

theorem fromRaw_prof (p w : Nat) : LePanic (fromRaw m p w) (fromRaw m.rel p w) := by
  unfold fromRaw
  apply LeOr.bind_panic (Or.inr rfl)
  intro x _
  apply LePanic.ite
  · intro _
    apply LeOr.bind_panic (Or.inr rfl)
    intro _ _
    apply LeOr.bind_panic (requiredSize_prof d)
    intro _ _; right; rfl
  · intro _
    apply LeOr.bind_panic (requiredSize_prof d)
    intro _ _; right; rfl

theorem validateElems_prof (rec rec' : Val → Nat → R Unit)
    (hrec : ∀ e k, LePanic (rec e k) (rec' e k)) (w n cur : Nat) :
    LePanic (validateElems m rec w n cur) (validateElems m.rel rec' w n cur) := by
  induction n generalizing cur with
  | zero => right; rfl
  | succ n ih =>
    unfold validateElems
    apply LeOr.bind_panic (fromRaw_prof d _ _)
    intro _ _
    apply LeOr.bind_panic (hrec _ _)
    intro _ _
    exact ih _

theorem validateGo_prof (f : Nat) (a w : Bool) (v : Val) (de : Nat) :
    LePanic (validateGo m f a w v de) (validateGo m.rel f a w v de) := by
  induction f generalizing a w v de with
  | zero => right; rfl
  | succ f ih =>
    unfold validateGo
    apply LeOr.bind_panic (Or.inr rfl)
    intro t _
    have arr : LePanic (arrayValidate m (fun w => validateGo m f true w) v de)
        (arrayValidate m.rel (fun w => validateGo m.rel f true w) v de) := by
      unfold arrayValidate
      rw [d, Mem.rel_dbg]
      apply LeOr.bind_panic (Or.inr rfl); intro w _
      apply LeOr.bind_panic (arrayLen_prof d); intro n _
      apply LeOr.bind_panic (firstPos_prof d); intro fp _
      apply LeOr.bind_panic (usizeMul_prof _ _); intro bytes _
      apply LeOr.bind_panic (usizeAdd_prof _ _); intro e _
      apply LePanic.ite
      · intro _
        apply LeOr.bind_panic (usizeSub_prof _ _); intro e _
        right; rfl
      · intro _
        exact validateElems_prof d _ _ (fun e k => ih _ _ _ _) _ _ _
    cases t
    case array => exact arr
    case dict => exact arr
    case pointer =>
      dsimp only
      rw [← derefChecked_prof]
      apply LeOr.bind_panic (Or.inr rfl); intro t _
      exact ih _ _ _ _
    all_goals
      apply LePanic.ite
      · intro _; right; rfl
      · intro _
        apply LeOr.bind_panic (requiredSize_prof d); intro r _
        apply LePanic.ite
        · intro _; right; rfl
        · intro _
          apply LeOr.bind_panic (Or.inr rfl); intro r _
          rw [d, Mem.rel_dbg]
          apply LeOr.bind_panic (usizeSub_prof _ _); intro r _
          right; rfl

omit d in
theorem findRoot_prof : findRoot m = findRoot m.rel := by
  unfold findRoot
  simp only [derefChecked_prof (m := m)]
  rfl

theorem fromBytesGo_prof (f : Nat) : LePanic (fromBytesGo m f) (fromBytesGo m.rel f) := by
  unfold fromBytesGo
  rw [← findRoot_prof]
  apply LeOr.bind_panic (Or.inr rfl); intro r _
  apply LeOr.bind_panic (validateGo_prof d _ _ _ _ _); intro _ _
  right; rfl

end
end Fleece
