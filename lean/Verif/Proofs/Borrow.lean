import Verif.Model.Borrow
import Verif.Proofs.LookupCost

/-! # References and the bytes they cover (C65) -/

namespace Fleece
open Res

/-- The rule makes a difference only by undefined behaviour. -/
def Under {α : Type} (x y : R α) : Prop := x = y ∨ x = .ub

namespace Under

theorem refl {α : Type} (x : R α) : Under x x := .inl rfl

theorem bind {α β : Type} {x y : R α} {f g : α → R β} (h : Under x y) (hf : ∀ a, Under (f a) (g a)) :
    Under (x >>= f) (y >>= g) := by
  rcases h with rfl | rfl
  · cases x with
    | ok a => exact hf a
    | _ => exact .inl rfl
  · exact .inr rfl

theorem ite {α : Type} {c : Prop} [Decidable c] {x y x' y' : R α} (h : Under x x') (h' : Under y y') :
    Under (if c then x else y) (if c then x' else y') := by
  split <;> assumption

theorem ok {α : Type} {x y : R α} (h : Under x y) {a : α} (hx : x = .ok a) : y = .ok a := by
  rcases h with rfl | rfl
  · exact hx
  · cases hx

end Under

theorem reborrow_under (m : Mem) (src : Val) (pos len : Nat) : Under (reborrow m src pos len) (mkSlice m pos len) := by
  unfold reborrow
  split
  · exact .refl _
  · exact .inr rfl

theorem rawReadBorrow_under (m : Mem) (src : Val) (pos n : Nat) : Under (rawReadBorrow m src pos n) (rawRead m pos n) := by
  unfold rawReadBorrow
  split
  · exact .refl _
  · exact .inr rfl

theorem toIntBorrow_under (m : Mem) (F : FloatOps) (v : Val) : Under (v.toIntBorrow m F) (v.toInt m F) := by
  refine .bind (.refl _) fun t => ?_
  cases t <;> first
    | exact .refl _
    | exact .bind (.refl _) fun _ => .bind (rawReadBorrow_under _ _ _ _) fun _ => .refl _

theorem getOffsetBorrow_under (m : Mem) (v : Val) (wide : Bool) : Under (v.getOffsetBorrow m wide) (v.getOffset m wide) := by
  unfold Val.getOffsetBorrow Val.getOffset
  exact .ite (.bind (rawReadBorrow_under _ _ _ _) fun _ => .refl _) (.bind (rawReadBorrow_under _ _ _ _) fun _ => .refl _)

theorem derefCheckedBorrowGo_under (m : Mem) (fuel : Nat) (wide : Bool) (v : Val) :
    Under (derefCheckedBorrowGo m fuel wide v) (derefCheckedGo m fuel wide v) := by
  induction fuel generalizing wide v with
  | zero => exact .refl _
  | succ f ih =>
    unfold derefCheckedBorrowGo derefCheckedGo
    refine .ite (.refl _) (.bind (getOffsetBorrow_under _ _ _) fun _ => .ite (.refl _) (.bind (.refl _) fun _ =>
      .ite (.refl _) (.ite (.refl _) (.bind (reborrow_under _ _ _ _) fun _ => .bind (.refl _) fun _ => .ite (ih _ _) (.refl _)))))

theorem derefUncheckedBorrowGo_under (m : Mem) (fuel : Nat) (wide : Bool) (v : Val) :
    Under (derefUncheckedBorrowGo m fuel wide v) (derefUncheckedGo m fuel wide v) := by
  induction fuel generalizing wide v with
  | zero => exact .refl _
  | succ f ih =>
    unfold derefUncheckedBorrowGo derefUncheckedGo
    refine .bind (getOffsetBorrow_under _ _ _) fun _ => .ite (.refl _) (.ite (.refl _)
      (.bind (reborrow_under _ _ _ _) fun _ => .bind (.refl _) fun _ => .ite (ih _ _) (.refl _)))

theorem getUncheckedBorrow_under (m : Mem) (v : Val) (i : Nat) : Under (v.getUncheckedBorrow m i) (v.getUnchecked m i) :=
  .bind (.refl _) fun _ => .bind (.refl _) fun _ => .bind (.refl _) fun _ => .bind (.refl _) fun _ =>
    .bind (reborrow_under _ _ _ _) fun _ => .bind (.refl _) fun _ =>
      .ite (.bind (.refl _) fun _ => derefUncheckedBorrowGo_under _ _ _ _) (.refl _)

theorem iterBorrow_under (m : Mem) (v : Val) : Under (v.iterBorrow m) (v.iter m) :=
  .bind (.bind (.refl _) fun _ => .ite (.refl _) (.bind (.refl _) fun _ => .bind (.refl _) fun _ =>
    .bind (reborrow_under _ _ _ _) fun _ => .refl _)) fun _ => .refl _

theorem stepBorrow_under (m : Mem) (it : Iter) : Under (it.stepBorrow m) (it.step m) := by
  unfold Iter.stepBorrow Iter.step
  cases it.next with
  | none => exact .refl _
  | some c =>
    refine .ite (.refl _) (.bind (.refl _) fun t => ?_)
    dsimp only
    exact .ite
      (.bind (derefUncheckedBorrowGo_under _ _ _ _) fun r => .ite (.bind (reborrow_under _ _ _ _) fun _ => .refl _) (.refl _))
      (.bind (.refl _) fun r => .ite (.bind (reborrow_under _ _ _ _) fun _ => .refl _) (.refl _))

theorem validateElemsBorrow_under {m : Mem} {rec rec' : Val → Nat → R Unit} (hr : ∀ e p, Under (rec e p) (rec' e p))
    (src : Val) (width n current : Nat) :
    Under (validateElemsBorrow m rec src width n current) (validateElems m rec' width n current) := by
  induction n generalizing current with
  | zero => exact .refl _
  | succ n ih =>
    refine .bind ?_ fun e => .bind (hr _ _) fun _ => ih _
    unfold fromRawBorrow
    split
    · exact .refl _
    · exact .inr rfl

theorem validateBorrowGo_under (m : Mem) (fuel : Nat) (a w : Bool) (v : Val) (de : Nat) :
    Under (validateBorrowGo m fuel a w v de) (validateGo m fuel a w v de) := by
  induction fuel generalizing a w v de with
  | zero => exact .refl _
  | succ f ih =>
    unfold validateBorrowGo validateGo
    refine .bind (.refl _) fun t => ?_
    have harr : Under (arrayValidateBorrow m (fun w => validateBorrowGo m f true w) v de)
        (arrayValidate m (fun w => validateGo m f true w) v de) := by
      unfold arrayValidateBorrow arrayValidate
      refine .bind (.refl _) fun _ => ?_
      dsimp only
      exact .bind (.refl _) fun _ => .bind (.refl _) fun _ => .bind (.refl _) fun _ => .bind (.refl _) fun _ =>
        .ite (.refl _) (validateElemsBorrow_under (fun e p => ih _ _ _ _) _ _ _ _)
    cases t <;> first
      | exact harr
      | exact .refl _
      | exact .bind (derefCheckedBorrowGo_under _ _ _ _) fun _ => ih _ _ _ _

theorem findRootBorrow_under (m : Mem) : Under (findRootBorrow m) (findRoot m) := by
  unfold findRootBorrow findRoot
  dsimp only
  exact .ite (.refl _) (.bind (.refl _) fun _ => .ite (derefCheckedBorrowGo_under _ _ _ _) (.refl _))

theorem fromBytesBorrow_under (m : Mem) : Under (fromBytesBorrow m) (fromBytes m) :=
  .bind (findRootBorrow_under m) fun _ => .bind (validateBorrowGo_under _ _ _ _ _ _) fun _ => .refl _

theorem fromBytesUncheckedBorrow_under (m : Mem) : Under (fromBytesUncheckedBorrow m) (fromBytesUnchecked m) := by
  unfold fromBytesUncheckedBorrow fromBytesUnchecked
  dsimp only
  exact .ite (.refl _) (.bind (.refl _) fun _ => .ite (derefUncheckedBorrowGo_under _ _ _ _) (.refl _))

/-! ## Pointers -/

/-- The bytes before a reference are not its own. -/
theorem reborrow_back (m : Mem) (v : Val) {o : Nat} (h : 0 < o) (hp : o ≤ v.pos) (len : Nat) : reborrow m v (v.pos - o) len = .ub := by
  unfold reborrow
  rw [if_neg (by omega)]

theorem derefCheckedBorrow_ne (m : Mem) (fuel : Nat) (wide : Bool) (v r : Val) : derefCheckedBorrowGo m fuel wide v ≠ .ok r := by
  intro h
  cases fuel with
  | zero => cases h
  | succ f =>
    unfold derefCheckedBorrowGo at h
    split at h
    · cases h
    · obtain ⟨o, _, h⟩ := bind_eq_ok.mp h
      split at h
      · cases h
      · obtain ⟨b, _, h⟩ := bind_eq_ok.mp h
        split at h
        · cases h
        · split at h
          · cases h
          · rw [reborrow_back m v (by omega) (by omega)] at h
            cases h

theorem type_empty (m : Mem) (p : Nat) : Val.type m ⟨p, 0⟩ = .panic := by
  unfold Val.type Val.byte
  rfl

theorem derefUncheckedBorrow_ne (m : Mem) (fuel : Nat) (wide : Bool) (v r : Val) :
    derefUncheckedBorrowGo m fuel wide v ≠ .ok r := by
  intro h
  cases fuel with
  | zero => cases h
  | succ f =>
    unfold derefUncheckedBorrowGo at h
    obtain ⟨o, _, h⟩ := bind_eq_ok.mp h
    split at h
    · cases h
    · split at h
      · cases h
      · cases o with
        | zero =>
          obtain ⟨tg, htg, h⟩ := bind_eq_ok.mp h
          obtain ⟨t, ht, h⟩ := bind_eq_ok.mp h
          have : tg = ⟨v.pos, 0⟩ := by
            have := (reborrow_under _ _ _ _).ok htg
            unfold mkSlice at this
            split at this
            · cases this; rfl
            · cases this
          rw [this, type_empty] at ht
          cases ht
        | succ o =>
          rw [reborrow_back m v (by omega) (by omega)] at h
          cases h

/-- Whatever would be followed: undefined behaviour. -/
theorem Under.ub_of {α : Type} {x y : R α} (h : Under x y) (hy : ∃ a, y = .ok a) (hx : ∀ a, x ≠ .ok a) : x = .ub := by
  rcases h with rfl | h
  · obtain ⟨a, ha⟩ := hy
    exact absurd ha (hx a)
  · exact h

theorem derefUncheckedBorrow_ub {m : Mem} {fuel : Nat} {wide : Bool} {v r : Val} (h : derefUncheckedGo m fuel wide v = .ok r) :
    derefUncheckedBorrowGo m fuel wide v = .ub :=
  (derefUncheckedBorrowGo_under m fuel wide v).ub_of ⟨r, h⟩ (derefUncheckedBorrow_ne m fuel wide v)

theorem derefCheckedBorrow_ub {m : Mem} {fuel : Nat} {wide : Bool} {v r : Val} (h : derefCheckedGo m fuel wide v = .ok r) :
    derefCheckedBorrowGo m fuel wide v = .ub :=
  (derefCheckedBorrowGo_under m fuel wide v).ub_of ⟨r, h⟩ (derefCheckedBorrow_ne m fuel wide v)

/-! ## Collections -/

/-- A slot that the reference to the collection covers. -/
theorem Coll.getUncheckedBorrow {m : Mem} {v : Val} {w : Bool} {n fp i : Nat} (h : Coll m v w n fp) (hi : i < n)
    (own : fp + n * wof w ≤ v.len) :
    v.getUncheckedBorrow m i = (do
      let t ← (slotAt (v.pos + fp) (wof w) i).type m
      if t = .pointer then derefUncheckedBorrow m w (slotAt (v.pos + fp) (wof w) i)
      else pure (slotAt (v.pos + fp) (wof w) i)) := by
  have hiw : (i + 1) * wof w ≤ n * wof w := Nat.mul_le_mul_right _ hi
  rw [Nat.add_mul] at hiw
  have hs := h.small
  have hin := h.slot_in hi
  unfold Val.In slotAt at hin
  simp only at hin
  have h2 : usizeAdd (ε := DecodeError) m.dbg fp (i * wof w) = .ok (fp + i * wof w) := by
    unfold usizeAdd; rw [if_pos (by omega)]
  unfold Val.getUncheckedBorrow
  rw [width_eq h.wide]
  simp only [ok_bind]
  rw [usizeMul_eq _ (by omega)]
  simp only [ok_bind, h.first, h2]
  have hr : reborrow m v (v.pos + (fp + i * wof w)) (wof w) = .ok (slotAt (v.pos + fp) (wof w) i) := by
    unfold reborrow
    rw [if_pos (by omega), mkSlice_eq (by omega)]
    unfold slotAt
    rw [Nat.add_assoc]
  rw [hr]
  simp only [ok_bind, h.wide]

/-- The first step over two slots or more. -/
theorem Coll.stepBorrow {m : Mem} {v : Val} {w : Bool} {n fp : Nat} (h : Coll m v w n fp) (hn : 2 ≤ n) {x : Val}
    (hx : resolve m w (slotAt (v.pos + fp) (wof w) 0) = .ok x) :
    (v.iterBorrow m >>= fun it => it.stepBorrow m) = .ub := by
  unfold Val.iterBorrow Val.iterFirstBorrow
  rw [h.len]
  simp only [ok_bind]
  rw [if_neg (by omega), h.first, width_eq h.wide]
  simp only [ok_bind]
  rcases reborrow_under m v (v.pos + fp) (wof w) with hr | hr
  · have hin := h.slot_in (i := 0) (by omega)
    unfold Val.In slotAt at hin
    simp only [Nat.zero_mul, Nat.add_zero] at hin
    rw [mkSlice_eq (by omega)] at hr
    rw [hr]
    simp only [ok_bind, pure_eq]
    unfold Iter.stepBorrow
    dsimp only
    rw [if_neg (by omega)]
    unfold resolve slotAt at hx
    simp only [Nat.zero_mul, Nat.add_zero] at hx
    obtain ⟨t, ht, hx⟩ := bind_eq_ok.mp hx
    rw [ht]
    simp only [ok_bind]
    split
    · rename_i hp
      rw [if_pos hp] at hx
      have hw : (wof w == 4) = w := by cases w <;> rfl
      rw [hw]
      unfold derefUncheckedBorrow
      rw [derefUncheckedBorrow_ub hx]
      rfl
    · simp only [pure_eq, ok_bind]
      rw [if_pos (by omega)]
      have hpos := wof_pos w
      unfold reborrow
      simp only
      rw [if_neg (by omega)]
      rfl
  · rw [hr]; rfl

/-- A number that its reference covers. -/
theorem toIntBorrow_eq {m : Mem} {F : FloatOps} {v : Val} {t : ValueType} (ht : v.type m = .ok t)
    (req : t = .int ∨ t = .unsignedInt → ∀ r, v.requiredSize m = .ok r → r ≤ v.len) : v.toIntBorrow m F = v.toInt m F := by
  unfold Val.toIntBorrow Val.toInt
  rw [ht]
  simp only [ok_bind]
  have key : t = .int ∨ t = .unsignedInt → ∀ b, v.byte m 0 = .ok b →
      rawReadBorrow m v (v.pos + 1) ((b &&& 0x07).toNat + 1) = rawRead m (v.pos + 1) ((b &&& 0x07).toNat + 1) := by
    intro hor b hb
    have := req hor (2 + (b &&& 0x07).toNat) (by
      unfold Val.requiredSize
      rw [ht]
      rcases hor with rfl | rfl <;> simp only [ok_bind, hb, pure_eq])
    unfold rawReadBorrow
    rw [if_pos (by omega)]
  cases t <;> first
    | rfl
    | (dsimp only
       cases hb : v.byte m 0 with
       | ok b => simp only [ok_bind, key (by simp) b hb]
       | _ => rfl)

end Fleece
