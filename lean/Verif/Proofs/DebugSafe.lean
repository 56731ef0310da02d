import Verif.Proofs.Debug
import Verif.Proofs.Total

/-! # Formatting deeply valid values

`x.Fine p`: `x` is not an access out of bounds, and if `p` holds it is not running out of recursion depth either. -/

namespace Fleece
open Res

namespace Res
variable {ε α β : Type}

/-- See the module comment. -/
def Fine (p : Prop) (x : Res ε α) : Prop := x ≠ .ub ∧ (p → x ≠ .diverge)

theorem Fine.ok {p : Prop} {a : α} : (Res.ok a : Res ε α).Fine p := ⟨nofun, fun _ => nofun⟩
theorem Fine.err {p : Prop} {e : ε} : (Res.err e : Res ε α).Fine p := ⟨nofun, fun _ => nofun⟩
theorem Fine.panic {p : Prop} : (Res.panic : Res ε α).Fine p := ⟨nofun, fun _ => nofun⟩
theorem Fine.diverge {p : Prop} (h : ¬ p) : (Res.diverge : Res ε α).Fine p := ⟨nofun, fun hp => absurd hp h⟩

theorem Fine.of_safe {p : Prop} {x : Res ε α} (h : x.Safe) : x.Fine p :=
  ⟨((safe_iff x).mp h).1, fun _ => ((safe_iff x).mp h).2⟩

theorem Fine.mono {p q : Prop} {x : Res ε α} (h : x.Fine p) (hq : q → p) : x.Fine q := ⟨h.1, fun hq' => h.2 (hq hq')⟩

theorem Fine.bind {p : Prop} {x : Res ε α} {f : α → Res ε β} (hx : x.Fine p) (hf : ∀ a, x = .ok a → (f a).Fine p) :
    (x >>= f).Fine p := by
  cases x with
  | ok a => exact hf a rfl
  | err e => exact .err
  | panic => exact .panic
  | ub => exact absurd rfl hx.1
  | diverge => exact .diverge fun hp => hx.2 hp rfl

end Res

section
variable {m : Mem} {v : Val} {w : Bool} {n fp : Nat}

theorem Coll.debugItems_fine (h : Coll m v w n fp) (he : Elems m v w n fp) {p : Prop} {f : Val → R Text}
    (hf : ∀ i e, i < n → resolve m w (slotAt (v.pos + fp) (wof w) i) = .ok e → (f e).Fine p) :
    ∀ (k i : Nat), n - i < k → ((iterAt (v.pos + fp) (wof w) n i).debugItems m f k).Fine p
  | 0, _ => fun hk => by omega
  | k + 1, i => fun hk => by
    unfold Iter.debugItems
    by_cases hi : i < n
    · obtain ⟨e, h1, _⟩ := he i hi
      rw [h.step hi h1]
      simp only [ok_bind]
      exact (hf i e hi h1).bind fun _ _ => (debugItems_fine h he hf k (i + 1) (by omega)).bind fun _ _ => .ok
    · rw [iterAt_step_end hi]; exact .ok

theorem Coll.debugEntries_fine (h : Coll m v w n fp) (he : Elems m v w n fp) (P : Printer) (scope : Option SharedKeys) {p : Prop}
    {f : Val → R Text}
    (hf : ∀ i e, i < n → resolve m w (slotAt (v.pos + fp) (wof w) i) = .ok e → (f e).Fine p) :
    ∀ (k i : Nat), n - i < k → ((iterAt (v.pos + fp) (wof w) n i).debugEntries P m scope f k).Fine p
  | 0, _ => fun hk => by omega
  | k + 1, i => fun hk => by
    unfold Iter.debugEntries
    rcases h.dictStep_cases scope he i with ⟨key, e, hi, _, hg, h1⟩ | ⟨j, _, h1⟩
    · rw [h1]
      simp only [ok_bind]
      rw [h.getUnchecked hi] at hg
      exact (hf (i + 1) e hi hg).bind fun _ _ => (debugEntries_fine h he P scope hf k (i + 2) (by omega)).bind fun _ _ => .ok
    · rw [h1]; exact .ok

/-- Formatting a deeply valid value never reads out of bounds, and ends. -/
theorem DeepOK.debug_fine (P : Printer) (F : FloatOps) (scope : Option SharedKeys) (h : DeepOK m v) :
    ∃ N, ∀ fuel, (v.debug P m F scope fuel).Fine (N ≤ fuel) := by
  induction h with
  | @scalar v t r hin len ty na nd np req fits =>
    have h : DeepOK m v := .scalar hin len ty na nd np req fits
    refine ⟨1, fun fuel => ?_⟩
    cases fuel with
    | zero => exact .diverge (by omega)
    | succ fuel =>
      unfold Val.debug
      rw [ty]
      simp only [ok_bind]
      refine Fine.bind ?_ fun _ _ => .ok
      unfold Val.debugField
      cases t <;> first
        | exact .ok
        | contradiction
        | exact .of_safe (Safe.bind (h.toShort_safe F) (by simp))
        | exact .of_safe (Safe.bind (h.toInt_safe F) (by simp))
        | exact .of_safe (Safe.bind (h.toUnsignedInt_safe F) (by simp))
        | exact .of_safe (Safe.bind (h.toDouble_safe F) (by simp))
        | exact .of_safe (Safe.bind (toStr_safe h.inb) (by simp))
        | exact .of_safe (Safe.bind (toData_safe h.inb) (by simp))
  | @coll v t w n fp hin ty ad wide len first small fits slots elems ih =>
    have hc : Coll m v w n fp := ⟨hin, wide, len, first, small, fits⟩
    have he : Elems m v w n fp := fun i hi => by
      obtain ⟨e, h1⟩ := slots i hi; exact ⟨e, h1, elems i e hi h1⟩
    obtain ⟨N, hN⟩ := exists_bound n
      (fun i f => ∀ e, resolve m w (slotAt (v.pos + fp) (wof w) i) = .ok e →
        ∀ fuel, (e.debug P m F scope fuel).Fine (f ≤ fuel))
      (fun i f g hfg hp e he k => (hp e he k).mono (by omega))
      (fun i hi => by
        obtain ⟨e, h1⟩ := slots i hi
        obtain ⟨f, hf⟩ := ih i e hi h1
        refine ⟨f, fun e' he' => ?_⟩
        rw [h1] at he'; cases he'; exact hf)
    refine ⟨N + 1, fun fuel => ?_⟩
    cases fuel with
    | zero => exact .diverge (by omega)
    | succ fuel =>
      have hf : ∀ i e, i < n → resolve m w (slotAt (v.pos + fp) (wof w) i) = .ok e →
          (e.debug P m F scope fuel).Fine (N + 1 ≤ fuel + 1) :=
        fun i e hi h1 => (hN i hi e h1 fuel).mono (by omega)
      unfold Val.debug
      rw [ty]
      simp only [ok_bind]
      refine Fine.bind ?_ fun _ _ => .ok
      rcases ad with rfl | rfl
      · unfold Val.debugField Val.debugArray
        rw [hc.iter]
        simp only [ok_bind]
        exact (hc.debugItems_fine he hf _ _ (by simp [iterAt])).bind fun _ _ => .ok
      · unfold Val.debugField Val.debugDict Val.dictIter
        rw [hc.iter]
        simp only [ok_bind]
        exact (hc.debugEntries_fine he P scope hf _ _ (by simp [iterAt])).bind fun _ _ => .ok

/-- As `DeepOK.debug_fine`, for `Array::fmt`. -/
theorem DeepOK.debugArray_fine (P : Printer) (F : FloatOps) (scope : Option SharedKeys) (h : DeepOK m v) (ht : v.type m = .ok .array) :
    ∃ N, ∀ fuel, (v.debugArray m (Val.debug P m F scope fuel)).Fine (N ≤ fuel) := by
  obtain ⟨N, hN⟩ := h.debug_fine P F scope
  refine ⟨N, fun fuel => ?_⟩
  have := hN (fuel + 1)
  unfold Val.debug at this
  rw [ht] at this
  simp only [ok_bind, Val.debugField] at this
  refine Fine.mono ?_ (show N ≤ fuel → N ≤ fuel + 1 by omega)
  constructor
  · intro h
    rw [h] at this
    exact this.1 rfl
  · intro hp h
    rw [h] at this
    exact this.2 hp rfl

/-! ## Without short floats it returns -/

theorem Reach.head {scope : Option SharedKeys} {a x y : Val} (hy : Reach m scope x y) (h : Child m scope a x) :
    Reach m scope a y := by
  induction hy with
  | root => exact .child .root h
  | child _ hc ih => exact .child ih hc

theorem DeepOK.toShort_ok' (F : FloatOps) (h : DeepOK m v) (ht : v.type m = .ok .short) : ∃ i, v.toShort m F = .ok i := by
  unfold Val.toShort
  rw [ht]
  exact shortInt_ok h.inb h.len2

/-- If all floats a client can reach have all their bytes, formatting returns. -/
theorem DeepOK.debug_ok (P : Printer) (F : FloatOps) (scope : Option SharedKeys) (h : DeepOK m v)
    (hfit : ∀ y, Reach m scope v y → FloatFits m y) : ∃ N, ∀ fuel, N ≤ fuel → ∃ s, v.debug P m F scope fuel = .ok s := by
  induction h with
  | @scalar v t r hin len ty na nd np req fits =>
    have h : DeepOK m v := .scalar hin len ty na nd np req fits
    have hff := hfit v .root
    refine ⟨1, fun fuel hN => ?_⟩
    obtain ⟨fuel, rfl⟩ : ∃ k, fuel = k + 1 := ⟨fuel - 1, by omega⟩
    unfold Val.debug
    rw [ty]
    simp only [ok_bind]
    have hint := h.toInt_ok F hff
    suffices ∃ s, v.debugField P m F scope (Val.debug P m F scope fuel) t = .ok s by
      obtain ⟨s, hs⟩ := this
      rw [hs]
      exact ⟨_, rfl⟩
    unfold Val.debugField
    cases t <;> first
      | contradiction
      | exact ⟨_, rfl⟩
      | (obtain ⟨i, hi⟩ := h.toShort_ok' F ty; simp only [hi]; exact ⟨_, rfl⟩)
      | (obtain ⟨i, hi⟩ := hint; simp only [hi]; exact ⟨_, rfl⟩)
      | (obtain ⟨i, hi⟩ := hint; unfold Val.toUnsignedInt; simp only [hi]; exact ⟨_, rfl⟩)
      | (obtain ⟨i, hi⟩ := h.toDouble_ok F hff; simp only [hi]; exact ⟨_, rfl⟩)
      | (obtain ⟨i, hi⟩ := h.toStr_ok; simp only [hi]; exact ⟨_, rfl⟩)
      | (obtain ⟨i, hi⟩ := h.toData_ok; simp only [hi]; exact ⟨_, rfl⟩)
  | @coll v t w n fp hin ty ad wide len first small fits slots elems ih =>
    have hc : Coll m v w n fp := ⟨hin, wide, len, first, small, fits⟩
    have he : Elems m v w n fp := fun i hi => by
      obtain ⟨e, h1⟩ := slots i hi; exact ⟨e, h1, elems i e hi h1⟩
    rcases ad with rfl | rfl
    · have has : v.asArray m = .ok (some v) := by unfold Val.asArray; simp only [ty, ok_bind, if_true]; rfl
      obtain ⟨N, hN⟩ := exists_bound n
        (fun i f => ∀ e, resolve m w (slotAt (v.pos + fp) (wof w) i) = .ok e →
          ∀ fuel, f ≤ fuel → ∃ s, e.debug P m F scope fuel = .ok s)
        (fun i f g hfg hp e he k hk => hp e he k (by omega))
        (fun i hi => by
          obtain ⟨e, h1⟩ := slots i hi
          have hch : Child m scope v e := .index has hc.len hi (by
            unfold Val.get
            simp only [hc.len, ok_bind]
            rw [if_neg (by omega), hc.getUnchecked hi, h1]; rfl)
          obtain ⟨f, hf⟩ := ih i e hi h1 (fun y hy => hfit y (hy.head hch))
          refine ⟨f, fun e' he' => ?_⟩
          rw [h1] at he'; cases he'; exact hf)
      refine ⟨N + 1, fun fuel hfu => ?_⟩
      obtain ⟨fuel, rfl⟩ : ∃ k, fuel = k + 1 := ⟨fuel - 1, by omega⟩
      unfold Val.debug
      rw [ty]
      simp only [ok_bind]
      unfold Val.debugField Val.debugArray
      rw [hc.iter]
      simp only [ok_bind]
      have loop : ∀ (k i : Nat), n - i < k →
          ∃ ss, (iterAt (v.pos + fp) (wof w) n i).debugItems m (Val.debug P m F scope fuel) k = .ok ss := by
        intro k
        induction k with
        | zero => intro i hk; omega
        | succ k ihk =>
          intro i hk
          unfold Iter.debugItems
          by_cases hi : i < n
          · obtain ⟨e, h1, _⟩ := he i hi
            rw [hc.step hi h1]
            obtain ⟨s, hs⟩ := hN i hi e h1 fuel (by omega)
            obtain ⟨ss, hss⟩ := ihk (i + 1) (by omega)
            exact ⟨s :: ss, by simp only [ok_bind, hs, hss, pure_eq]⟩
          · rw [iterAt_step_end hi]; exact ⟨[], rfl⟩
      obtain ⟨ss, hss⟩ := loop ((iterAt (v.pos + fp) (wof w) n 0).len + 1) 0 (by simp [iterAt])
      rw [hss]
      exact ⟨_, rfl⟩
    · have has : v.asDict m = .ok (some v) := by unfold Val.asDict; simp only [ty, ok_bind, if_true]; rfl
      have hstart : DictIterState m scope v (iterAt (v.pos + fp) (wof w) n 0) := .start (by
        unfold Val.dictIter; rw [hc.iter])
      -- the elements that are visited
      have loop : ∀ (k i : Nat), n - i < k → DictIterState m scope v (iterAt (v.pos + fp) (wof w) n i) →
          ∃ N, ∀ fuel, N ≤ fuel →
            ∃ ss, (iterAt (v.pos + fp) (wof w) n i).debugEntries P m scope (Val.debug P m F scope fuel) k = .ok ss := by
        intro k
        induction k with
        | zero => intro i hk; omega
        | succ k ihk =>
          intro i hk hst
          rcases hc.dictStep_cases scope he i with ⟨key, e, hi, _, hg, h1⟩ | ⟨j, _, h1⟩
          · have hch : Child m scope v e := .entry has hst h1
            rw [hc.getUnchecked hi] at hg
            obtain ⟨N, hN⟩ := ih (i + 1) e hi hg (fun y hy => hfit y (hy.head hch))
            obtain ⟨N', hN'⟩ := ihk (i + 2) (by omega) (hst.next h1)
            refine ⟨max N N', fun fuel hfu => ?_⟩
            unfold Iter.debugEntries
            rw [h1]
            obtain ⟨s, hs⟩ := hN fuel (by omega)
            obtain ⟨ss, hss⟩ := hN' fuel (by omega)
            exact ⟨(P.strText key, s) :: ss, by simp only [ok_bind, hs, hss, pure_eq]⟩
          · refine ⟨0, fun fuel _ => ?_⟩
            unfold Iter.debugEntries
            rw [h1]; exact ⟨[], rfl⟩
      obtain ⟨N, hN⟩ := loop (n + 1) 0 (by omega) hstart
      refine ⟨N + 1, fun fuel hfu => ?_⟩
      obtain ⟨fuel, rfl⟩ : ∃ k, fuel = k + 1 := ⟨fuel - 1, by omega⟩
      unfold Val.debug
      rw [ty]
      simp only [ok_bind]
      unfold Val.debugField Val.debugDict Val.dictIter
      rw [hc.iter]
      simp only [ok_bind]
      obtain ⟨ss, hss⟩ := hN fuel (by omega)
      have : (iterAt (v.pos + fp) (wof w) n 0).len + 1 = n + 1 := rfl
      rw [this, hss]
      exact ⟨_, rfl⟩

end

end Fleece
