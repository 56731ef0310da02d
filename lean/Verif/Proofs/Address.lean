import Verif.Proofs.Reader
import Verif.Spec.Bytes

/-! # The load address only shows in error payloads -/

namespace Fleece
open Res

/-- Equal outcomes up to addresses in errors, unless one of them is a panic. -/
def Alike {α : Type} : R α → R α → Prop
  | .panic, _ => True
  | _, .panic => True
  | .ok a, .ok b => a = b
  | .err e, .err e' => e.erase = e'.erase
  | .ub, .ub => True
  | .diverge, .diverge => True
  | _, _ => False

theorem Alike.refl {α : Type} (x : R α) : Alike x x := by cases x <;> simp [Alike]

theorem Alike.bind {α β : Type} {x y : R α} {f g : α → R β} (h : Alike x y) (hf : ∀ a, Alike (f a) (g a)) :
    Alike (x >>= f) (y >>= g) := by
  have hr : ∀ z : R β, Alike z .panic := by intro z; cases z <;> trivial
  cases x <;> cases y <;> first
    | trivial
    | exact hr _
    | (simp only [Alike] at h; subst h; exact hf _)
    | exact h
    | (exact absurd h (by simp [Alike]))

theorem Alike.of_eq {α : Type} {x y : R α} (h : x = y) : Alike x y := h ▸ Alike.refl x

theorem Alike.ite {α : Type} {c d : Prop} [Decidable c] [Decidable d] (hcd : c ↔ d) {x y x' y' : R α}
    (h : Alike x x') (h' : Alike y y') : Alike (if c then x else y) (if d then x' else y') := by
  by_cases hc : c
  · rw [if_pos hc, if_pos (hcd.mp hc)]; exact h
  · rw [if_neg hc, if_neg (fun hd => hc (hcd.mpr hd))]; exact h'

variable (m : Mem) (b : Nat)

/-- The same bytes at another address. -/
def Mem.at (m : Mem) (b : Nat) : Mem := { m with base := b }

theorem derefCheckedGo_at (f : Nat) (w : Bool) (v : Val) :
    Alike (derefCheckedGo m f w v) (derefCheckedGo (m.at b) f w v) := by
  induction f generalizing w v with
  | zero => trivial
  | succ f ih =>
    unfold derefCheckedGo
    apply Alike.ite Iff.rfl (Alike.refl _)
    apply Alike.bind (Alike.of_eq rfl); intro o
    apply Alike.ite Iff.rfl (Alike.refl _)
    apply Alike.bind (Alike.of_eq rfl); intro b0
    apply Alike.ite Iff.rfl (Alike.refl _)
    refine Alike.ite Iff.rfl ?_ ?_
    · exact rfl
    apply Alike.bind (Alike.of_eq rfl); intro t
    apply Alike.bind (Alike.of_eq rfl); intro ty
    exact Alike.ite Iff.rfl (ih true t) (Alike.refl _)

theorem validateElems_at (rec rec' : Val → Nat → R Unit) (hr : ∀ e d, Alike (rec e d) (rec' e d))
    (w n cur : Nat) : Alike (validateElems m rec w n cur) (validateElems (m.at b) rec' w n cur) := by
  induction n generalizing cur with
  | zero => rfl
  | succ n ih =>
    unfold validateElems
    apply Alike.bind (Alike.of_eq rfl); intro e
    apply Alike.bind (hr _ _); intro _
    exact ih _

variable (hdbg : m.dbg = true)
include hdbg

theorem usizeSub_at (x y : Nat) : Alike (usizeSub (ε := DecodeError) m.dbg (m.base + x) (m.base + y))
    (usizeSub (m.at b).dbg ((m.at b).base + x) ((m.at b).base + y)) := by
  have : (m.at b).dbg = true := hdbg
  rw [hdbg, this]
  unfold usizeSub
  refine Alike.ite (by omega) ?_ trivial
  show m.base + x - (m.base + y) = _
  omega

theorem validateGo_at (f : Nat) (a w : Bool) (v : Val) (de : Nat) :
    Alike (validateGo m f a w v de) (validateGo (m.at b) f a w v de) := by
  induction f generalizing a w v de with
  | zero => trivial
  | succ f ih =>
    have harr : Alike (arrayValidate m (fun w => validateGo m f true w) v de)
        (arrayValidate (m.at b) (fun w => validateGo (m.at b) f true w) v de) := by
      unfold arrayValidate
      apply Alike.bind (Alike.of_eq rfl); intro iw
      apply Alike.bind (Alike.of_eq rfl); intro n
      apply Alike.bind (Alike.of_eq rfl); intro fp
      apply Alike.bind (Alike.of_eq rfl); intro bytes
      have hd2 : (m.at b).dbg = true := hdbg
      have main : ∀ W, Alike
          (if m.base + (v.pos + fp) + bytes > m.base + de then do
            let avail ← usizeSub m.dbg (m.base + de) (m.base + (v.pos + fp))
            .err (.arrayOutOfBounds n W avail)
           else validateElems m (validateGo m f true iw) W n (v.pos + fp) : R Unit)
          (if (m.at b).base + (v.pos + fp) + bytes > (m.at b).base + de then do
            let avail ← usizeSub (m.at b).dbg ((m.at b).base + de) ((m.at b).base + (v.pos + fp))
            .err (.arrayOutOfBounds n W avail)
           else validateElems (m.at b) (validateGo (m.at b) f true iw) W n (v.pos + fp)) := by
        intro W
        apply Alike.ite (by omega)
        · exact Alike.bind (usizeSub_at m b hdbg _ _) (fun _ => Alike.refl _)
        · exact validateElems_at m b _ _ (fun e d => ih true iw e d) _ _ _
      rw [hdbg, hd2]
      rw [hdbg, hd2] at main
      unfold usizeAdd
      by_cases h1 : m.base + (v.pos + fp) + bytes < 2 ^ 64
      · rw [if_pos h1]
        by_cases h2 : (m.at b).base + (v.pos + fp) + bytes < 2 ^ 64
        · rw [if_pos h2]; exact main _
        · rw [if_neg h2]
          generalize (Res.ok (m.base + (v.pos + fp) + bytes) >>= _ : R Unit) = z
          cases z <;> trivial
      · rw [if_neg h1]; trivial
    have hsc : ∀ t : ValueType, Alike (do
        if a = true then pure ()
        else do
          let r ← v.requiredSize m
          if m.base + v.pos + r ≤ m.base + de then pure ()
          else do
            let t ← v.type m
            let avail ← usizeSub m.dbg (m.base + de) (m.base + v.pos)
            .err (.valueOutOfBounds t r avail) : R Unit)
        (do
        if a = true then pure ()
        else do
          let r ← v.requiredSize (m.at b)
          if (m.at b).base + v.pos + r ≤ (m.at b).base + de then pure ()
          else do
            let t ← v.type (m.at b)
            let avail ← usizeSub (m.at b).dbg ((m.at b).base + de) ((m.at b).base + v.pos)
            .err (.valueOutOfBounds t r avail) : R Unit) := by
      intro _
      apply Alike.ite Iff.rfl (Alike.refl _)
      apply Alike.bind (Alike.of_eq rfl); intro r
      apply Alike.ite (by omega) (Alike.refl _)
      apply Alike.bind (Alike.of_eq rfl); intro t
      exact Alike.bind (usizeSub_at m b hdbg _ _) (fun _ => Alike.refl _)
    unfold validateGo
    apply Alike.bind (Alike.of_eq rfl); intro t
    cases t <;> first
      | exact harr
      | exact hsc .null
      | skip
    apply Alike.bind (derefCheckedGo_at m b _ _ _); intro x
    exact ih _ _ _ _

theorem fromBytesGo_at (f : Nat) : Alike (fromBytesGo m f) (fromBytesGo (m.at b) f) := by
  unfold fromBytesGo
  apply Alike.bind
  · unfold findRoot
    dsimp only
    apply Alike.ite Iff.rfl (Alike.refl _)
    apply Alike.bind (Alike.of_eq rfl); intro t
    apply Alike.ite Iff.rfl
    · exact derefCheckedGo_at m b _ _ _
    · exact Alike.refl _
  · intro r
    exact Alike.bind (validateGo_at m b hdbg _ _ _ _ _) (fun _ => Alike.refl _)

end Fleece
