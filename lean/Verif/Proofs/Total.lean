import Verif.Proofs.NoPanic

/-! # Calls on deeply valid values that return normally -/

namespace Fleece
open Res

section
variable {m : Mem} {v : Val} (F : FloatOps)

theorem floatBits_ok (hv : v.In m) (d : Bool) (hl : (if d then 10 else 6) ≤ v.len) :
    ∃ x, v.floatBits m F d = .ok x := by
  unfold Val.In at hv
  unfold Val.floatBits Val.slice
  cases d <;> simp only [Bool.false_eq_true, if_false, if_true] at hl ⊢
  · rw [if_pos (by omega), rawRead_eq (by omega)]; exact ⟨_, rfl⟩
  · rw [if_pos (by omega), rawRead_eq (by omega)]; exact ⟨_, rfl⟩

theorem shortInt_ok (hv : v.In m) (hl : 2 ≤ v.len) : ∃ x, v.shortInt m = .ok x := by
  unfold Val.shortInt
  obtain ⟨s, hs⟩ := getShort_eq hv hl
  simp only [hs, ok_bind]
  split <;> exact ⟨_, rfl⟩

/-- The slice is long enough for the float it holds. -/
def FloatFits (m : Mem) (v : Val) : Prop :=
  ((v.type m = .ok .float ∨ v.type m = .ok .double32) → 6 ≤ v.len) ∧ (v.type m = .ok .double64 → 10 ≤ v.len)

theorem DeepOK.toInt_ok (h : DeepOK m v) (hf : FloatFits m v) : ∃ i, v.toInt m F = .ok i := by
  obtain ⟨t, ht, hnp⟩ := h.not_pointer
  by_cases hi : t = .int ∨ t = .unsignedInt
  · exact h.toInt_int F ht hi
  · obtain ⟨x, hx⟩ := shortInt_ok h.inb h.len2
    unfold FloatFits at hf
    rw [ht] at hf
    unfold Val.toInt
    rw [ht]
    simp only [ok_bind]
    cases t <;> first
      | exact ⟨_, rfl⟩
      | exact absurd (Or.inl rfl) hi
      | exact absurd (Or.inr rfl) hi
      | exact ⟨x, hx⟩
      | (obtain ⟨y, hy⟩ := floatBits_ok F h.inb false (by simpa using hf.1)
         simp only [hy]; exact ⟨_, rfl⟩)
      | (obtain ⟨y, hy⟩ := floatBits_ok F h.inb true (by simpa using hf.2)
         simp only [hy]; exact ⟨_, rfl⟩)

theorem DeepOK.toDouble_ok (h : DeepOK m v) (hf : FloatFits m v) : ∃ i, v.toDouble m F = .ok i := by
  obtain ⟨t, ht, hnp⟩ := h.not_pointer
  obtain ⟨i, hi⟩ := h.toInt_ok F hf
  unfold FloatFits at hf
  rw [ht] at hf
  unfold Val.toDouble
  rw [ht]
  simp only [ok_bind, hi]
  cases t <;> first
    | exact ⟨_, rfl⟩
    | exact floatBits_ok F h.inb false (by simpa using hf.1)
    | exact floatBits_ok F h.inb true (by simpa using hf.2)

theorem DeepOK.toData_ok (h : DeepOK m v) : ∃ d, v.toData m = .ok d := by
  obtain ⟨t, ht, _⟩ := h.not_pointer
  unfold Val.toData
  rw [ht]
  simp only [ok_bind]
  cases t <;> first
    | exact ⟨_, rfl⟩
    | exact h.getData_ok ht (Or.inl rfl)
    | exact h.getData_ok ht (Or.inr rfl)

end

section
variable {m : Mem} {v : Val}

/-- All keys (elements at even index) are strings or shared-key integers. -/
def KeysOK (m : Mem) (v : Val) (n : Nat) : Prop :=
  ∀ i k, 2 * i < n → v.getUnchecked m (2 * i) = .ok k → k.type m = .ok .string ∨ k.type m = .ok .short

theorem dictKeyCmp_ok {k : Val} (h : DeepOK m k) (key : Key) (w : Bool)
    (hk : k.type m = .ok .string ∨ k.type m = .ok .short) : ∃ o, dictKeyCmp m key k w = .ok o := by
  unfold dictKeyCmp
  obtain ⟨s, hs⟩ := h.toStr_ok
  obtain ⟨g, hg⟩ := getShort_eq h.inb h.len2
  rcases hk with hk | hk
  · simp only [hk, ok_bind]
    rw [if_neg (by simp)]
    cases key
    · exact ⟨_, rfl⟩
    · simp only [hs, ok_bind]; exact ⟨_, rfl⟩
  · simp only [hk, ok_bind]
    rw [if_neg (by simp)]
    cases key
    · simp only [hg, ok_bind]; exact ⟨_, rfl⟩
    · exact ⟨_, rfl⟩

theorem Coll.searchLoop_total {w : Bool} {n fp : Nat} (h : Coll m v w n fp) (he : Elems m v w n fp)
    (hk : KeysOK m v n) (key : Key) (fuel l r : Nat) (hf : r - l ≤ fuel) (hr : 2 * r ≤ n) :
    ∃ x, v.searchLoop m key fuel l r = .ok x := by
  induction fuel generalizing l r with
  | zero => unfold Val.searchLoop; rw [if_neg (by omega)]; exact ⟨_, rfl⟩
  | succ f ih =>
    unfold Val.searchLoop
    split
    · obtain ⟨a, b, hp, hga, _, hda, hdb⟩ := h.pair he (i := l + (r - l) / 2) (by omega)
      obtain ⟨o, ho⟩ := dictKeyCmp_ok hda key w (hk _ a (by omega) hga)
      simp only [hp, ok_bind, h.wide, ho]
      cases o
      · exact ih _ _ (by omega) (by omega)
      · exact ⟨_, rfl⟩
      · exact ih _ _ (by omega) (by omega)
    · exact ⟨_, rfl⟩

theorem Coll.search_total {w : Bool} {n fp : Nat} (h : Coll m v w n fp) (he : Elems m v w n fp)
    (hk : KeysOK m v n) (key : Key) : ∃ x, v.search m key = .ok x := by
  unfold Val.search Val.dictLen
  simp only [h.len, ok_bind]
  exact h.searchLoop_total he hk key _ _ _ (by simp) (by omega)

/-- Running the iterator to its end gives the elements in order. -/
theorem Coll.collect_ok {α : Type} (f : Val → R α) {w : Bool} {n fp : Nat} (h : Coll m v w n fp)
    (i : Nat) (fuel : Nat) (hfuel : n - i < fuel) (e : Nat → Val) (a : Nat → α)
    (he : ∀ j, j < n → resolve m w (slotAt (v.pos + fp) (wof w) j) = .ok (e j))
    (ha : ∀ j, j < n → f (e j) = .ok (a j)) :
    collect m f fuel (iterAt (v.pos + fp) (wof w) n i) = .ok ((List.range' i (n - i)).map a) := by
  induction fuel generalizing i with
  | zero => omega
  | succ fuel ih =>
    unfold collect
    by_cases hi : i < n
    · rw [h.step hi (he i hi)]
      simp only [ok_bind, ha i hi, ih (i + 1) (by omega)]
      obtain ⟨k, hk⟩ : ∃ k, n - i = k + 1 := ⟨n - i - 1, by omega⟩
      have : n - (i + 1) = k := by omega
      rw [hk, this]
      rfl
    · rw [iterAt_step_end hi]
      have : n - i = 0 := by omega
      rw [this]; rfl

end

end Fleece
