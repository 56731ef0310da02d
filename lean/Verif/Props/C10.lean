import Verif.Proofs.Total

/-! # C10 Accessors do not panic on accepted documents -/

namespace Fleece.Props
open Fleece Res

/-- **C10**, as far as it holds. For every value reachable in a document accepted by the overflow-checked decoder, in
either profile, these calls return normally:
* `value_type`, `to_str`, `to_data`, `as_array`, `as_dict`;
* all numeric conversions and `to_bool`, unless the value is a float whose slice is shorter than 6 (10) bytes;
* on an array `len`, `iter`, every step of the iterator, `get` below `len`;
* on a dict `len`, `first`, `iter`, every step of the iterator, and every lookup if the dict's keys are strings or
  integers.
The two provisos are necessary: `C10_panics`. -/
theorem C10_accessors_return_partial (m : Mem) (hdbg : m.dbg = true) (root : Val) (hok : fromBytes m = .ok root)
    (m' : Mem) (hm : m' = m ∨ m' = { m with dbg := false }) (F : FloatOps) (scope : Option SharedKeys)
    (v : Val) (hv : Reach m' scope root v) :
    (∃ x, v.type m' = .ok x) ∧ (∃ x, v.toStr m' = .ok x) ∧ (∃ x, v.toData m' = .ok x) ∧
    (∃ x, v.asArray m' = .ok x) ∧ (∃ x, v.asDict m' = .ok x) ∧
    (((v.type m' = .ok .float ∨ v.type m' = .ok .double32) → 6 ≤ v.len) ∧
        (v.type m' = .ok .double64 → 10 ≤ v.len) →
      (∃ x, v.toInt m' F = .ok x) ∧ (∃ x, v.toUnsignedInt m' F = .ok x) ∧ (∃ x, v.toShort m' F = .ok x) ∧
      (∃ x, v.toUnsignedShort m' F = .ok x) ∧ (∃ x, v.toDouble m' F = .ok x) ∧ (∃ x, v.toFloat m' F = .ok x) ∧
      (∃ x, v.toBool m' F = .ok x)) ∧
    (v.asArray m' = .ok (some v) → ∃ n, v.arrayLen m' = .ok n ∧ (∃ x, v.iter m' = .ok x) ∧
      (∀ it, IterState m' v it → ∃ x, it.step m' = .ok x) ∧ ∀ i, i < n → ∃ x, v.get m' i = .ok x) ∧
    (v.asDict m' = .ok (some v) → ∃ n, v.dictLen m' = .ok n ∧ (∃ x, v.dictFirst m' = .ok x) ∧
      (∃ x, v.dictIter m' = .ok x) ∧
      (∀ it, DictIterState m' scope v it → ∃ x, it.dictStep m' scope = .ok x) ∧
      ((∀ i k, i < n → v.getUnchecked m' (2 * i) = .ok k → k.type m' = .ok .string ∨ k.type m' = .ok .short) →
        ∀ k, (∃ x, v.dictGet m' scope k = .ok x) ∧ (∃ x, v.containsKey m' scope k = .ok x) ∧
          ∀ sk, ∃ x, v.dictGetWith m' sk k = .ok x)) := by
  have hd : DeepOK m root := fromBytesGo_deep hdbg _ _ hok
  have hd' : DeepOK m' root := by
    rcases hm with rfl | rfl
    · exact hd
    · exact hd.rel hdbg
  have h := hd'.reach hv
  obtain ⟨t, ht, hnp⟩ := h.not_pointer
  refine ⟨⟨t, ht⟩, h.toStr_ok, h.toData_ok, ?_, ?_, ?_, ?_, ?_⟩
  · unfold Val.asArray; rw [ht]; exact ⟨_, rfl⟩
  · unfold Val.asDict; rw [ht]; exact ⟨_, rfl⟩
  · intro hf
    obtain ⟨i, hi⟩ := h.toInt_ok F hf
    obtain ⟨d, hdd⟩ := h.toDouble_ok F hf
    obtain ⟨s, hs⟩ := shortInt_ok h.inb h.len2
    obtain ⟨g, hg⟩ := getShort_eq h.inb h.len2
    have hu : v.toUnsignedInt m' F = .ok (i % (2 ^ 64 : Int)).toNat := by
      unfold Val.toUnsignedInt; rw [hi]; rfl
    refine ⟨⟨i, hi⟩, ⟨_, hu⟩, ?_, ?_, ⟨d, hdd⟩, ?_, ?_⟩
    · unfold Val.toShort; simp only [ht, ok_bind, hs, hi, hdd]; cases t <;> exact ⟨_, rfl⟩
    · unfold Val.toUnsignedShort; simp only [ht, ok_bind, hg, hu, hdd]; cases t <;> exact ⟨_, rfl⟩
    · unfold Val.toFloat; rw [hdd]; exact ⟨_, rfl⟩
    · unfold Val.toBool; simp only [ht, ok_bind, hi]; cases t <;> exact ⟨_, rfl⟩
  · intro ha
    obtain ⟨w, n, fp, hc, he⟩ := h.coll_of (asArray_type ha) (Or.inl rfl)
    refine ⟨n, hc.len, ⟨_, hc.iter⟩, ?_, ?_⟩
    · intro it hit
      obtain ⟨i, rfl⟩ := hc.iterState he hit
      rcases hc.step_cases he i with ⟨e, _, _, h1⟩ | ⟨_, h1⟩ <;> exact ⟨_, h1⟩
    · intro i hi
      obtain ⟨e, h1, _⟩ := hc.get_elem he hi
      unfold Val.get
      simp only [hc.len, ok_bind, h1]
      split <;> exact ⟨_, rfl⟩
  · intro ha
    obtain ⟨w, n, fp, hc, he⟩ := h.coll_of (asDict_type ha) (Or.inr rfl)
    have hev := arrayLen_even (asDict_type ha) hc.len
    refine ⟨n / 2, by simp [Val.dictLen, hc.len], ?_, ⟨_, hc.iter⟩, ?_, ?_⟩
    · unfold Val.dictFirst
      simp only [hc.len, ok_bind]
      split
      · exact ⟨_, rfl⟩
      · obtain ⟨a, b, hp, _⟩ := hc.pair he (i := 0) (by omega)
        rw [hp]; exact ⟨_, rfl⟩
    · intro it hit
      obtain ⟨i, rfl⟩ := hc.dictIterState scope he hit
      rcases hc.dictStep_cases scope he i with ⟨k, e, _, _, _, h1⟩ | ⟨j, _, h1⟩ <;> exact ⟨_, h1⟩
    · intro hkeys k
      have hk : KeysOK m' v n := fun i k hi hg => hkeys i k (by omega) hg
      have hget : ∃ x, v.dictGet m' scope k = .ok x := by
        unfold Val.dictGet
        obtain ⟨k', hk'⟩ := hc.encodeKey_ok he hev k none scope
        simp only [hk', ok_bind]
        exact hc.search_total he hk _
      refine ⟨hget, ?_, ?_⟩
      · obtain ⟨x, hx⟩ := hget
        unfold Val.containsKey; rw [hx]; exact ⟨_, rfl⟩
      · intro sk
        unfold Val.dictGetWith
        obtain ⟨k', hk'⟩ := hc.encodeKey_ok he hev k (some sk) none
        simp only [hk', ok_bind]
        exact hc.search_total he hk _

/-- Some float conversions, for the examples. -/
def zeroFloat : FloatOps := ⟨fun _ => 0, fun _ => 0, fun _ => 0, fun _ => 0, fun _ => 0, fun _ => 0⟩

set_option maxRecDepth 20000 in
/-- The full statement of C10 is false: both documents are accepted; on the first `to_double` and `to_int` of the
root panic (whatever the float hardware), on the second every `Dict::get` panics. -/
theorem C10_panics :
    (fromBytes { data := [0x20, 0, 1, 2, 0x80, 0x02] } = .ok ⟨0, 4⟩ ∧
     ∀ F, (⟨0, 4⟩ : Val).toDouble { data := [0x20, 0, 1, 2, 0x80, 0x02] } F = .panic ∧
          (⟨0, 4⟩ : Val).toInt { data := [0x20, 0, 1, 2, 0x80, 0x02] } F = .panic) ∧
    (fromBytes { data := [0x70, 0x01, 0x30, 0, 0, 0, 0x80, 0x03] } = .ok ⟨0, 6⟩ ∧
     ∀ k, (⟨0, 6⟩ : Val).dictGet { data := [0x70, 0x01, 0x30, 0, 0, 0, 0x80, 0x03] } none k = .panic) := by
  refine ⟨⟨by decide +kernel, fun F => ⟨rfl, rfl⟩⟩, by decide +kernel, fun k => rfl⟩

example : fromBytes { data := [0x70, 0x01, 0x41, 0x61, 0, 7, 0x80, 0x03] } = .ok ⟨0, 6⟩ := by decide +kernel
example : (⟨0, 6⟩ : Val).dictGet { data := [0x70, 0x01, 0x41, 0x61, 0, 7, 0x80, 0x03] } none [0x61]
    = .ok (some ⟨4, 2⟩) := by decide +kernel

end Fleece.Props
