import Verif.Model.Cost
import Verif.Proofs.Reader

/-! # Counting the calls of the validator (C53) -/

namespace Fleece
open Res

/-- Forget the count. -/
def erase (x : R Nat) : R Unit := x >>= fun _ => .ok ()

theorem erase_bind {α : Type} (x : R α) (f : α → R Nat) : erase (x >>= f) = x >>= fun a => erase (f a) := by
  cases x <;> rfl

theorem erase_add (x : R Nat) : erase (x >>= fun n => pure (1 + n)) = erase x := by cases x <;> rfl

theorem countElems_erase (m : Mem) (rc : Val → Nat → R Nat) (rec : Val → Nat → R Unit) (w n cur : Nat)
    (h : ∀ e d, erase (rc e d) = rec e d) : erase (countElems m rc w n cur) = validateElems m rec w n cur := by
  induction n generalizing cur with
  | zero => rfl
  | succ n ih =>
    unfold countElems validateElems
    rw [erase_bind]
    congr 1
    funext e
    rw [erase_bind, ← h, ← ih]
    cases rc e (cur + w) with
    | ok a =>
      simp only [ok_bind, erase]
      cases countElems m rc w n (cur + w) <;> rfl
    | _ => rfl

theorem validateCount_erase (m : Mem) (fuel : Nat) (a w : Bool) (v : Val) (de : Nat) :
    erase (validateCount m fuel a w v de) = validateGo m fuel a w v de := by
  induction fuel generalizing a w v de with
  | zero => rfl
  | succ f ih =>
    have arr : erase (do
        let n ← arrayCount m (fun w => validateCount m f true w) v de
        pure (1 + n)) = arrayValidate m (fun w => validateGo m f true w) v de := by
      rw [erase_add]
      unfold arrayCount arrayValidate
      rw [erase_bind]; congr 1; funext wd
      dsimp only
      rw [erase_bind]; congr 1; funext n
      rw [erase_bind]; congr 1; funext fp
      rw [erase_bind]; congr 1; funext b
      rw [erase_bind]; congr 1; funext e
      split
      · rw [erase_bind]; rfl
      · exact countElems_erase m _ _ _ _ _ fun e d => ih true wd e d
    have scalar : erase (if a then pure 1 else do
        let r ← v.requiredSize m
        if m.base + v.pos + r ≤ m.base + de then pure 1
        else do
          let t ← v.type m
          let avail ← usizeSub m.dbg (m.base + de) (m.base + v.pos)
          .err (.valueOutOfBounds t r avail)) = (if a then pure () else do
        let r ← v.requiredSize m
        if m.base + v.pos + r ≤ m.base + de then pure ()
        else do
          let t ← v.type m
          let avail ← usizeSub m.dbg (m.base + de) (m.base + v.pos)
          .err (.valueOutOfBounds t r avail) : R Unit) := by
      split
      · rfl
      · rw [erase_bind]; congr 1; funext r
        split
        · rfl
        · rw [erase_bind]; congr 1; funext t
          rw [erase_bind]; rfl
    unfold validateCount validateGo
    rw [erase_bind]
    congr 1
    funext t
    cases t
    case array => exact arr
    case dict => exact arr
    case pointer =>
      dsimp only
      rw [erase_bind]; congr 1; funext tg
      rw [erase_add]
      exact ih _ _ _ _
    all_goals exact scalar

/-- `from_bytes` answers as if nothing were counted. -/
theorem fromBytesCount_erase (m : Mem) :
    (fromBytes m >>= fun _ => .ok ()) = erase (fromBytesCount m) := by
  unfold fromBytes fromBytesGo fromBytesCount
  rw [erase_bind, bind_assoc]
  congr 1; funext r
  rw [validateCount_erase, bind_assoc]
  cases validateGo m (fuelFor m.data.length) false false r m.data.length <;> rfl

theorem count_of_ok {m : Mem} {v : Val} (h : fromBytes m = .ok v) : ∃ n, fromBytesCount m = .ok n := by
  have := fromBytesCount_erase m
  rw [h] at this
  cases hc : fromBytesCount m with
  | ok n => exact ⟨n, rfl⟩
  | _ => rw [hc] at this; cases this

end Fleece
