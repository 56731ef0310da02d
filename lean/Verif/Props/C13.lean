import Verif.Proofs.Total

/-! # C13 Array iteration agrees with len and indexing -/

namespace Fleece.Props
open Fleece Res

/-- The iterator of `a` after `i` calls of `next`, all of which returned. -/
inductive AfterSteps (m : Mem) (a : Val) : Nat → Iter → Prop where
  | zero {it : Iter} : a.iter m = .ok it → AfterSteps m a 0 it
  | succ {i : Nat} {it it' : Iter} {x : Option Val} : AfterSteps m a i it → it.step m = .ok (x, it') →
      AfterSteps m a (i + 1) it'

/-- **C13.** For every array reachable in an accepted document, in either profile: running its iterator to the end gives
a list of exactly `len` values whose `i`-th member is what `get(i)` returns. -/
theorem C13_iteration_agrees (m : Mem) (hdbg : m.dbg = true) (root : Val) (hok : fromBytes m = .ok root)
    (m' : Mem) (hm : m' = m ∨ m' = { m with dbg := false }) (scope : Option SharedKeys)
    (a : Val) (ha : Reach m' scope root a) (harr : a.asArray m' = .ok (some a)) :
    ∃ n it xs, a.arrayLen m' = .ok n ∧ a.iter m' = .ok it ∧
      collect m' (fun x => .ok x) (n + 1) it = .ok xs ∧ xs.length = n ∧
      ∀ i x, xs[i]? = some x → a.get m' i = .ok (some x) := by
  have hd : DeepOK m root := fromBytesGo_deep hdbg _ _ hok
  have hd' : DeepOK m' root := by
    rcases hm with rfl | rfl
    · exact hd
    · exact hd.rel hdbg
  obtain ⟨w, n, fp, hc, he⟩ := (hd'.reach ha).coll_of (asArray_type harr) (Or.inl rfl)
  have hsel : ∀ i, ∃ e, i < n → resolve m' w (slotAt (a.pos + fp) (wof w) i) = .ok e := by
    intro i
    by_cases hi : i < n
    · obtain ⟨e, h1, _⟩ := he i hi; exact ⟨e, fun _ => h1⟩
    · exact ⟨⟨0, 0⟩, fun h => absurd h hi⟩
  obtain ⟨e, hsel⟩ := Classical.axiomOfChoice hsel
  refine ⟨n, _, (List.range' 0 (n - 0)).map e, hc.len, hc.iter,
    hc.collect_ok _ 0 (n + 1) (by omega) e e hsel (fun _ _ => rfl), by simp, ?_⟩
  intro i x hx
  simp only [List.getElem?_map, Option.map_eq_some_iff] at hx
  obtain ⟨j, hj, rfl⟩ := hx
  rw [List.getElem?_eq_some_iff] at hj
  obtain ⟨hlt, hj⟩ := hj
  simp at hlt hj
  subst hj
  unfold Val.get
  simp only [hc.len, ok_bind, hc.getUnchecked hlt, hsel i hlt]
  rw [if_neg (by omega)]; rfl

/-- **C13.** After `i ≤ len` steps the `i`-th call of `next` returned `get(i)`, and `size_hint` is `len - i`, the number of
values still to come; from then on `next` returns `None` and `size_hint` is 0. -/
theorem C13_steps_and_size_hint (m : Mem) (hdbg : m.dbg = true) (root : Val) (hok : fromBytes m = .ok root)
    (m' : Mem) (hm : m' = m ∨ m' = { m with dbg := false }) (scope : Option SharedKeys)
    (a : Val) (ha : Reach m' scope root a) (harr : a.asArray m' = .ok (some a)) :
    ∃ n, a.arrayLen m' = .ok n ∧ ∀ i it, AfterSteps m' a i it →
      it.sizeHint m'.dbg = .ok (n - i) ∧
      (i < n → ∃ x it', it.step m' = .ok (some x, it') ∧ a.get m' i = .ok (some x)) ∧
      (n ≤ i → it.step m' = .ok (none, it)) := by
  have hd : DeepOK m root := fromBytesGo_deep hdbg _ _ hok
  have hd' : DeepOK m' root := by
    rcases hm with rfl | rfl
    · exact hd
    · exact hd.rel hdbg
  obtain ⟨w, n, fp, hc, he⟩ := (hd'.reach ha).coll_of (asArray_type harr) (Or.inl rfl)
  refine ⟨n, hc.len, ?_⟩
  have key : ∀ i it, AfterSteps m' a i it → it = iterAt (a.pos + fp) (wof w) n (min i n) := by
    intro i it h
    induction h with
    | zero h => rw [hc.iter] at h; cases h; simp
    | @succ i it it' x _ hs ih =>
      subst ih
      by_cases hi : i < n
      · have h1 : min i n = i := by omega
        have h2 : min (i + 1) n = i + 1 := by omega
        rw [h1] at hs
        obtain ⟨e, hr, _⟩ := he i hi
        rw [hc.step hi hr] at hs; cases hs
        rw [h2]
      · have h1 : min i n = n := by omega
        have h2 : min (i + 1) n = n := by omega
        rw [h1, iterAt_step_end (by omega)] at hs; cases hs
        rw [h2]
  intro i it hit
  have hk := key i it hit
  subst hk
  refine ⟨?_, ?_, ?_⟩
  · unfold Iter.sizeHint usizeSub iterAt
    simp only
    rw [if_pos (by omega)]
    congr 1; omega
  · intro hi
    have h1 : min i n = i := by omega
    rw [h1]
    obtain ⟨e, hr, _⟩ := he i hi
    refine ⟨e, _, hc.step hi hr, ?_⟩
    unfold Val.get
    simp only [hc.len, ok_bind, hc.getUnchecked hi, hr]
    rw [if_neg (by omega)]; rfl
  · intro hi
    have h1 : min i n = n := by omega
    rw [h1]; exact iterAt_step_end (by omega)

/-- `[5, [], 6]`. -/
example : fromBytes { data := [0x60, 0, 0x60, 0x03, 0, 5, 0x80, 0x03, 0, 6, 0x80, 0x04] } = .ok ⟨2, 8⟩ := by
  decide +kernel

end Fleece.Props
