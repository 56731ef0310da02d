import Verif.Proofs.Access

/-! # C12 Array::get is Some exactly below len -/

namespace Fleece.Props
open Fleece Res

/-- **C12**, as far as it holds: on every array reachable in an accepted document, in either profile, `get(i)` is `Some`
for `i < len` and `None` for `i > len`. The full statement includes `i = len`, where it is false:
`C12_get_at_len`, `C12_get_at_len_reads_outside`. -/
theorem C12_get_partial (m : Mem) (hdbg : m.dbg = true) (root : Val) (hok : fromBytes m = .ok root)
    (m' : Mem) (hm : m' = m ∨ m' = { m with dbg := false }) (scope : Option SharedKeys)
    (a : Val) (ha : Reach m' scope root a) (harr : a.asArray m' = .ok (some a)) :
    ∃ n, a.arrayLen m' = .ok n ∧ (∀ i, i < n → ∃ x, a.get m' i = .ok (some x)) ∧
      ∀ i, n < i → a.get m' i = .ok none := by
  have hd : DeepOK m root := fromBytesGo_deep hdbg _ _ hok
  have hd' : DeepOK m' root := by
    rcases hm with rfl | rfl
    · exact hd
    · exact hd.rel hdbg
  obtain ⟨w, n, fp, hc, he⟩ := (hd'.reach ha).coll_of (asArray_type harr) (Or.inl rfl)
  refine ⟨n, hc.len, ?_, ?_⟩
  · intro i hi
    obtain ⟨e, h1, _⟩ := hc.get_elem he hi
    unfold Val.get
    simp only [hc.len, ok_bind, h1]
    rw [if_neg (by omega)]
    exact ⟨_, rfl⟩
  · intro i hi
    unfold Val.get
    simp only [hc.len, ok_bind]
    rw [if_pos hi]; rfl

/-- At `i = len` the answer is wrong for every array whatsoever: `get(len)` never returns `None`. -/
theorem C12_get_at_len (m : Mem) (a : Val) (n : Nat) (hn : a.arrayLen m = .ok n) : a.get m n ≠ .ok none := by
  unfold Val.get
  simp only [hn, ok_bind]
  rw [if_neg (by omega)]
  intro h
  rw [bind_eq_ok] at h
  obtain ⟨x, _, h⟩ := h
  cases h

/-- In the accepted document `[[], 5]` the empty array's `get(0)` returns the value behind it; in the four-byte document
`[]` (wide) it reads past the end of the buffer. -/
theorem C12_get_at_len_reads_outside :
    (fromBytes { data := [0x60, 0, 0x60, 0x02, 0x80, 0x02, 0x00, 0x05, 0x80, 0x03] } = .ok ⟨2, 6⟩ ∧
      (⟨2, 6⟩ : Val).get { data := [0x60, 0, 0x60, 0x02, 0x80, 0x02, 0x00, 0x05, 0x80, 0x03] } 0 = .ok (some ⟨0, 4⟩) ∧
      (⟨0, 4⟩ : Val).arrayLen { data := [0x60, 0, 0x60, 0x02, 0x80, 0x02, 0x00, 0x05, 0x80, 0x03] } = .ok 0 ∧
      (⟨0, 4⟩ : Val).get { data := [0x60, 0, 0x60, 0x02, 0x80, 0x02, 0x00, 0x05, 0x80, 0x03] } 0 = .ok (some ⟨2, 2⟩)) ∧
    (fromBytes { data := [0x68, 0, 0x80, 0x01] } = .ok ⟨0, 2⟩ ∧
      (⟨0, 2⟩ : Val).arrayLen { data := [0x68, 0, 0x80, 0x01] } = .ok 0 ∧
      (⟨0, 2⟩ : Val).get { data := [0x68, 0, 0x80, 0x01] } 0 = .ub) := by
  decide +kernel

end Fleece.Props
