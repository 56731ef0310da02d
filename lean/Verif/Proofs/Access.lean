import Verif.Proofs.Deep
import Verif.Spec.Tree

/-! # Accessors on deeply valid values -/

namespace Fleece
open Res

section scalar
variable {m : Mem} {v : Val} (F : FloatOps)

theorem floatBits_safe (hv : v.In m) (d : Bool) : (v.floatBits m F d).Safe := by
  unfold Val.floatBits
  cases d <;> exact Safe.bind (slice_safe hv _ _) (by simp)

theorem shortInt_safe (hv : v.In m) : (v.shortInt m).Safe := by
  unfold Val.shortInt
  apply Safe.bind (getShort_safe hv); intro i _; split <;> trivial

theorem requiredSize_int {t : ValueType} {r : Nat} {b : UInt8} (ht : v.type m = .ok t)
    (hi : t = .int ∨ t = .unsignedInt) (hb : v.byte m 0 = .ok b) (hr : v.requiredSize m = .ok r) :
    r = 2 + (b &&& 0x07).toNat := by
  unfold Val.requiredSize at hr
  rcases hi with rfl | rfl <;>
  · simp only [ht, hb, ok_bind] at hr
    cases hr; rfl

theorem DeepOK.toInt_int {t : ValueType} (h : DeepOK m v) (ht : v.type m = .ok t)
    (hi : t = .int ∨ t = .unsignedInt) : ∃ i, v.toInt m F = .ok i := by
  obtain ⟨hl, r, hr, hf⟩ := h.scalar_of ht (by rcases hi with rfl | rfl <;> simp)
    (by rcases hi with rfl | rfl <;> simp)
  obtain ⟨b, _, hb⟩ := byte_eq h.inb (show 0 < v.len by omega)
  have := requiredSize_int ht hi hb hr
  unfold Val.toInt
  rw [ht]
  simp only [ok_bind]
  rcases hi with rfl | rfl <;>
  · simp only [hb, ok_bind]
    rw [rawRead_eq (by omega)]
    exact ⟨_, rfl⟩

theorem DeepOK.toInt_safe (h : DeepOK m v) : (v.toInt m F).Safe := by
  obtain ⟨t, ht, hnp⟩ := h.not_pointer
  by_cases hi : t = .int ∨ t = .unsignedInt
  · obtain ⟨i, hi⟩ := h.toInt_int F ht hi
    simp [hi]
  · unfold Val.toInt
    rw [ht]
    simp only [ok_bind]
    cases t <;> first
      | trivial
      | exact absurd (Or.inl rfl) hi
      | exact absurd (Or.inr rfl) hi
      | exact shortInt_safe h.inb
      | exact Safe.bind (floatBits_safe F h.inb _) (by simp)

theorem DeepOK.toUnsignedInt_safe (h : DeepOK m v) : (v.toUnsignedInt m F).Safe := by
  unfold Val.toUnsignedInt; exact Safe.bind (h.toInt_safe F) (by simp)

theorem DeepOK.toDouble_safe (h : DeepOK m v) : (v.toDouble m F).Safe := by
  unfold Val.toDouble
  apply Safe.bind (type_safe h.inb)
  intro t _
  cases t <;> first
    | exact floatBits_safe F h.inb _
    | exact Safe.bind (h.toInt_safe F) (by simp)

theorem DeepOK.toFloat_safe (h : DeepOK m v) : (v.toFloat m F).Safe := by
  unfold Val.toFloat; exact Safe.bind (h.toDouble_safe F) (by simp)

theorem DeepOK.toShort_safe (h : DeepOK m v) : (v.toShort m F).Safe := by
  unfold Val.toShort
  apply Safe.bind (type_safe h.inb)
  intro t _
  cases t <;> first
    | trivial
    | exact shortInt_safe h.inb
    | exact Safe.bind (h.toInt_safe F) (by simp)
    | exact Safe.bind (h.toDouble_safe F) (by simp)

theorem DeepOK.toUnsignedShort_safe (h : DeepOK m v) : (v.toUnsignedShort m F).Safe := by
  unfold Val.toUnsignedShort
  apply Safe.bind (type_safe h.inb)
  intro t _
  cases t <;> first
    | trivial
    | exact getShort_safe h.inb
    | exact Safe.bind (h.toUnsignedInt_safe F) (by simp)
    | exact Safe.bind (h.toDouble_safe F) (by simp)

theorem DeepOK.toBool_safe (h : DeepOK m v) : (v.toBool m F).Safe := by
  unfold Val.toBool
  apply Safe.bind (type_safe h.inb)
  intro t _
  cases t <;> first
    | trivial
    | exact Safe.bind (h.toInt_safe F) (by simp)

theorem toStr_safe (hv : v.In m) : (v.toStr m).Safe := by
  unfold Val.toStr
  apply Safe.bind (type_safe hv)
  intro t _
  cases t <;> first
    | trivial
    | exact Safe.bind (getData_safe hv) (by simp)

theorem toData_safe (hv : v.In m) : (v.toData m).Safe := by
  unfold Val.toData
  apply Safe.bind (type_safe hv)
  intro t _
  cases t <;> first
    | trivial
    | exact getData_safe hv

theorem DeepOK.getData_ok {t : ValueType} (h : DeepOK m v) (ht : v.type m = .ok t)
    (hs : t = .string ∨ t = .data) : ∃ d, v.getData m = .ok d := by
  obtain ⟨hl, r, hr, hf⟩ := h.scalar_of ht (by rcases hs with rfl | rfl <;> simp)
    (by rcases hs with rfl | rfl <;> simp)
  unfold Val.requiredSize at hr
  rw [ht] at hr
  simp only [ok_bind] at hr
  rcases hs with rfl | rfl <;>
  · dsimp only at hr
    rw [bind_eq_ok] at hr
    obtain ⟨d, hd, _⟩ := hr
    exact ⟨d, hd⟩

theorem getShort_eq (hv : v.In m) (hl : 2 ≤ v.len) : ∃ s, v.getShort m = .ok s := by
  unfold Val.In at hv
  unfold Val.getShort Val.slice
  rw [if_pos (by omega), rawRead_eq (by omega)]
  simp only [ok_bind]
  have : ((m.data.drop (v.pos + 0)).take (2 - 0)).length = 2 := by simp; omega
  match hm : (m.data.drop (v.pos + 0)).take (2 - 0) with
  | [a, b] => exact ⟨_, rfl⟩
  | [] | [_] | _ :: _ :: _ :: _ => rw [hm] at this; simp at this

end scalar

section collections
variable {m : Mem} {v : Val}

/-- A dict has an even number of slots. -/
theorem arrayLen_even {n : Nat} (ht : v.type m = .ok .dict) (h : v.arrayLen m = .ok n) : n % 2 = 0 := by
  have hmul : ∀ {s : Nat}, usizeMul (ε := DecodeError) m.dbg s 2 = .ok n → n % 2 = 0 := by
    intro s h
    unfold usizeMul at h
    split at h
    · cases h; omega
    · split at h
      · cases h
      · cases h; omega
  unfold Val.arrayLen at h
  rw [bind_eq_ok] at h; obtain ⟨s, _, h⟩ := h
  dsimp only at h
  split at h
  · rw [bind_eq_ok] at h; obtain ⟨rest, _, h⟩ := h
    rw [bind_eq_ok] at h; obtain ⟨⟨a, b⟩, _, h⟩ := h
    dsimp only at h
    split at h
    · cases h; rfl
    · rw [ht] at h; simp only [ok_bind, if_true] at h; exact hmul h
  · rw [ht] at h; simp only [ok_bind, if_true] at h; exact hmul h

/-- Deeply valid elements of a collection. -/
def Elems (m : Mem) (v : Val) (w : Bool) (n fp : Nat) : Prop :=
  ∀ i, i < n → ∃ e, resolve m w (slotAt (v.pos + fp) (wof w) i) = .ok e ∧ DeepOK m e

theorem Coll.get_elem {w : Bool} {n fp : Nat} (h : Coll m v w n fp) (he : Elems m v w n fp) {i : Nat}
    (hi : i < n) : ∃ e, v.getUnchecked m i = .ok e ∧ DeepOK m e := by
  obtain ⟨e, h1, h2⟩ := he i hi
  exact ⟨e, by rw [h.getUnchecked hi, h1], h2⟩

theorem Coll.pair {w : Bool} {n fp : Nat} (h : Coll m v w n fp) (he : Elems m v w n fp) {i : Nat}
    (hi : 2 * i + 1 < n) :
    ∃ a b, v.pairUnchecked m i = .ok (a, b) ∧ v.getUnchecked m (2 * i) = .ok a ∧
      v.getUnchecked m (2 * i + 1) = .ok b ∧ DeepOK m a ∧ DeepOK m b := by
  obtain ⟨a, ha, hda⟩ := h.get_elem he (show 2 * i < n by omega)
  obtain ⟨b, hb, hdb⟩ := h.get_elem he hi
  refine ⟨a, b, ?_, ha, hb, hda, hdb⟩
  have hs := h.small
  have : n * 2 ≤ n * wof w := Nat.mul_le_mul_left _ (wof_pos w)
  have hm : usizeMul (ε := DecodeError) m.dbg 2 i = .ok (2 * i) := by
    unfold usizeMul; rw [if_pos (by omega)]
  unfold Val.pairUnchecked
  rw [hm]
  simp only [ok_bind, ha, hb]
  rfl

/-- The iterator states of a collection are the expected ones. -/
theorem Coll.iterState {w : Bool} {n fp : Nat} (h : Coll m v w n fp) (he : Elems m v w n fp) {it : Iter}
    (hit : IterState m v it) : ∃ i, it = iterAt (v.pos + fp) (wof w) n i := by
  induction hit with
  | start hs => rw [h.iter] at hs; cases hs; exact ⟨0, rfl⟩
  | next _ hs ih =>
    obtain ⟨i, rfl⟩ := ih
    by_cases hi : i < n
    · obtain ⟨e, h1, _⟩ := he i hi
      rw [h.step hi h1] at hs; cases hs; exact ⟨i + 1, rfl⟩
    · rw [iterAt_step_end hi] at hs; cases hs; exact ⟨i, rfl⟩

theorem Coll.step_cases {w : Bool} {n fp : Nat} (h : Coll m v w n fp) (he : Elems m v w n fp) (i : Nat) :
    (∃ e, i < n ∧ DeepOK m e ∧ (iterAt (v.pos + fp) (wof w) n i).step m
        = .ok (some e, iterAt (v.pos + fp) (wof w) n (i + 1))) ∨
    (n ≤ i ∧ (iterAt (v.pos + fp) (wof w) n i).step m = .ok (none, iterAt (v.pos + fp) (wof w) n i)) := by
  by_cases hi : i < n
  · obtain ⟨e, h1, h2⟩ := he i hi
    exact Or.inl ⟨e, hi, h2, h.step hi h1⟩
  · exact Or.inr ⟨by omega, iterAt_step_end hi⟩

theorem DeepOK.toStr_ok {v : Val} (h : DeepOK m v) : ∃ s, v.toStr m = .ok s := by
  obtain ⟨t, ht, _⟩ := h.not_pointer
  unfold Val.toStr
  rw [ht]
  simp only [ok_bind]
  cases t <;> first
    | exact ⟨_, rfl⟩
    | skip
  obtain ⟨d, hd⟩ := h.getData_ok ht (Or.inl rfl)
  simp only [hd]
  exact ⟨_, rfl⟩

/-- One step of the dict iterator, from any position. -/
theorem Coll.dictStep_cases (scope : Option SharedKeys) {w : Bool} {n fp : Nat} (h : Coll m v w n fp)
    (he : Elems m v w n fp) (i : Nat) :
    (∃ k e, i + 1 < n ∧ DeepOK m e ∧ v.getUnchecked m (i + 1) = .ok e ∧
        (iterAt (v.pos + fp) (wof w) n i).dictStep m scope
        = .ok (some (k, e), iterAt (v.pos + fp) (wof w) n (i + 2))) ∨
    (∃ j, i ≤ j ∧ (iterAt (v.pos + fp) (wof w) n i).dictStep m scope
        = .ok (none, iterAt (v.pos + fp) (wof w) n j)) := by
  unfold Iter.dictStep
  rcases h.step_cases he i with ⟨e, hi, hd, hs⟩ | ⟨hi, hs⟩
  · rw [hs]
    simp only [ok_bind]
    obtain ⟨t, ht, hnp⟩ := hd.not_pointer
    rw [ht]
    simp only [ok_bind]
    obtain ⟨s, hstr⟩ := hd.toStr_ok
    obtain ⟨g, hg⟩ := getShort_eq hd.inb hd.len2
    have finish : ∀ key : List UInt8,
        (∃ k e, i + 1 < n ∧ DeepOK m e ∧ v.getUnchecked m (i + 1) = .ok e ∧ (do
            let (x, it2) ← (iterAt (v.pos + fp) (wof w) n (i + 1)).step m
            match x with
            | none => pure (none, it2)
            | some x => pure (some (key, x), it2) : R (Option (List UInt8 × Val) × Iter))
          = .ok (some (k, e), iterAt (v.pos + fp) (wof w) n (i + 2))) ∨
        (∃ j, i ≤ j ∧ (do
            let (x, it2) ← (iterAt (v.pos + fp) (wof w) n (i + 1)).step m
            match x with
            | none => pure (none, it2)
            | some x => pure (some (key, x), it2) : R (Option (List UInt8 × Val) × Iter))
          = .ok (none, iterAt (v.pos + fp) (wof w) n j)) := by
      intro key
      rcases h.step_cases he (i + 1) with ⟨e', hi', hd', hs'⟩ | ⟨hi', hs'⟩
      · left
        refine ⟨key, e', hi', hd', ?_, ?_⟩
        · obtain ⟨e2, h1, _⟩ := he (i + 1) hi'
          rw [h.getUnchecked hi', h1]
          rw [h.step hi' h1] at hs'
          cases hs'; rfl
        · rw [hs']; rfl
      · right; refine ⟨i + 1, by omega, ?_⟩; rw [hs']; rfl
    by_cases hsh : t = .short
    · subst hsh
      simp only [if_true, hg]
      cases scope with
      | none => right; exact ⟨i + 1, by omega, rfl⟩
      | some sk =>
        simp only [ok_bind]
        cases hdec : sk.decode g with
        | none => right; refine ⟨i + 1, by omega, ?_⟩; simp
        | some key => simp only [pure_eq, ok_bind]; exact finish key
    · rw [if_neg hsh]
      simp only [hstr, ok_bind, pure_eq]
      exact finish s
  · right; refine ⟨i, by omega, ?_⟩; rw [hs]; rfl

theorem Coll.dictIterState (scope : Option SharedKeys) {w : Bool} {n fp : Nat} (h : Coll m v w n fp)
    (he : Elems m v w n fp) {it : Iter} (hit : DictIterState m scope v it) :
    ∃ i, it = iterAt (v.pos + fp) (wof w) n i := by
  induction hit with
  | start hs => unfold Val.dictIter at hs; rw [h.iter] at hs; cases hs; exact ⟨0, rfl⟩
  | next _ hs ih =>
    obtain ⟨i, rfl⟩ := ih
    rcases h.dictStep_cases scope he i with ⟨k, e, _, _, _, h1⟩ | ⟨j, _, h1⟩
    · rw [h1] at hs; cases hs; exact ⟨_, rfl⟩
    · rw [h1] at hs; cases hs; exact ⟨_, rfl⟩

/-! ### Dict lookup -/

theorem DeepOK.dictKeyCmp_safe {k : Val} (h : DeepOK m k) (key : Key) (w : Bool) :
    (dictKeyCmp m key k w).Safe := by
  obtain ⟨t, ht, hnp⟩ := h.not_pointer
  unfold dictKeyCmp
  rw [ht]
  simp only [ok_bind]
  split
  · trivial
  · cases key <;> cases t <;> first
      | trivial
      | exact absurd rfl hnp
      | exact Safe.bind (getShort_safe h.inb) (by simp)
      | exact Safe.bind (toStr_safe h.inb) (by simp)

theorem Coll.searchLoop_safe {w : Bool} {n fp : Nat} (h : Coll m v w n fp) (he : Elems m v w n fp) (key : Key)
    (fuel l r : Nat) (hf : r - l ≤ fuel) (hr : 2 * r ≤ n) : (v.searchLoop m key fuel l r).Safe := by
  induction fuel generalizing l r with
  | zero =>
    unfold Val.searchLoop; rw [if_neg (by omega)]; trivial
  | succ f ih =>
    unfold Val.searchLoop
    split
    · obtain ⟨a, b, hp, _, _, hda, hdb⟩ := h.pair he (i := l + (r - l) / 2) (by omega)
      simp only [hp, ok_bind, h.wide]
      apply Safe.bind (hda.dictKeyCmp_safe key w)
      intro o _
      cases o
      · exact ih _ _ (by omega) (by omega)
      · trivial
      · exact ih _ _ (by omega) (by omega)
    · trivial

/-- Everything found by binary search is an element of the dict. -/
theorem Coll.searchLoop_ok {w : Bool} {n fp : Nat} (h : Coll m v w n fp) (he : Elems m v w n fp) (key : Key)
    (fuel l r : Nat) (hr : 2 * r ≤ n) {x : Val} (hx : v.searchLoop m key fuel l r = .ok (some x)) :
    ∃ i, i < n ∧ v.getUnchecked m i = .ok x := by
  induction fuel generalizing l r with
  | zero =>
    unfold Val.searchLoop at hx
    split at hx <;> cases hx
  | succ f ih =>
    unfold Val.searchLoop at hx
    split at hx
    · obtain ⟨a, b, hp, _, hgb, hda, hdb⟩ := h.pair he (i := l + (r - l) / 2) (by omega)
      simp only [hp, ok_bind, h.wide] at hx
      rw [bind_eq_ok] at hx
      obtain ⟨o, _, hx⟩ := hx
      cases o
      · exact ih _ _ (by omega) hx
      · cases hx; exact ⟨_, by omega, hgb⟩
      · exact ih _ _ (by omega) hx
    · cases hx

theorem Coll.usesSharedKeys_ok {w : Bool} {n fp : Nat} (h : Coll m v w n fp) (he : Elems m v w n fp)
    (hev : n % 2 = 0) : ∃ b, v.usesSharedKeys m = .ok b := by
  unfold Val.usesSharedKeys
  rw [h.len]
  simp only [ok_bind]
  by_cases hn : n = 0
  · rw [if_pos hn]; exact ⟨_, rfl⟩
  · rw [if_neg hn]
    obtain ⟨a, b, hp, _, _, hda, _⟩ := h.pair he (i := 0) (by omega)
    obtain ⟨t, ht, _⟩ := hda.not_pointer
    simp only [hp, ok_bind, ht]
    exact ⟨_, rfl⟩

theorem Coll.encodeKey_ok {w : Bool} {n fp : Nat} (h : Coll m v w n fp) (he : Elems m v w n fp)
    (hev : n % 2 = 0) (key : List UInt8) (given scope : Option SharedKeys) :
    ∃ k, v.encodeKey m key given scope = .ok k := by
  unfold Val.encodeKey
  cases given with
  | some sk =>
    dsimp only
    cases sk.encode key <;> exact ⟨_, rfl⟩
  | none =>
    obtain ⟨b, hb⟩ := h.usesSharedKeys_ok he hev
    simp only [hb, ok_bind]
    split
    · cases scope.bind (·.encode key) <;> exact ⟨_, rfl⟩
    · exact ⟨_, rfl⟩

theorem Coll.search_safe {w : Bool} {n fp : Nat} (h : Coll m v w n fp) (he : Elems m v w n fp) (key : Key) :
    (v.search m key).Safe := by
  unfold Val.search Val.dictLen
  simp only [h.len, ok_bind]
  exact h.searchLoop_safe he key _ _ _ (by simp) (by omega)

theorem Coll.search_ok {w : Bool} {n fp : Nat} (h : Coll m v w n fp) (he : Elems m v w n fp) (key : Key)
    {x : Val} (hx : v.search m key = .ok (some x)) : ∃ i, i < n ∧ v.getUnchecked m i = .ok x := by
  unfold Val.search Val.dictLen at hx
  simp only [h.len, ok_bind] at hx
  exact h.searchLoop_ok he key _ _ _ (by omega) hx

end collections

theorem asArray_type {m : Mem} {v : Val} (h : v.asArray m = .ok (some v)) : v.type m = .ok .array := by
  unfold Val.asArray at h
  rw [bind_eq_ok] at h
  obtain ⟨t, ht, h⟩ := h
  split at h
  · rename_i hh; rw [ht, hh]
  · cases h

theorem asDict_type {m : Mem} {v : Val} (h : v.asDict m = .ok (some v)) : v.type m = .ok .dict := by
  unfold Val.asDict at h
  rw [bind_eq_ok] at h
  obtain ⟨t, ht, h⟩ := h
  split at h
  · rename_i hh; rw [ht, hh]
  · cases h

/-- What the API hands out is one of the collection's elements. -/
theorem DeepOK.child {m : Mem} {scope : Option SharedKeys} {a x : Val} (ha : DeepOK m a)
    (h : Child m scope a x) : ∃ t w n fp i, a.type m = .ok t ∧ (t = .array ∨ t = .dict) ∧ Coll m a w n fp ∧
      i < n ∧ resolve m w (slotAt (a.pos + fp) (wof w) i) = .ok x := by
  suffices ∃ t w n fp i, a.type m = .ok t ∧ (t = .array ∨ t = .dict) ∧ Coll m a w n fp ∧
      i < n ∧ a.getUnchecked m i = .ok x by
    obtain ⟨t, w, n, fp, i, ht, had, hc, hi, hg⟩ := this
    exact ⟨t, w, n, fp, i, ht, had, hc, hi, by rw [← hc.getUnchecked hi]; exact hg⟩
  cases h with
  | index has hn hi hg =>
    obtain ⟨w, n, fp, hc, he⟩ := ha.coll_of (asArray_type has) (Or.inl rfl)
    rw [hc.len] at hn; cases hn
    refine ⟨_, w, _, fp, _, asArray_type has, Or.inl rfl, hc, hi, ?_⟩
    obtain ⟨e, h1, h2⟩ := hc.get_elem he hi
    unfold Val.get at hg
    simp only [hc.len, ok_bind, h1] at hg
    rw [if_neg (by omega)] at hg
    cases hg; exact h1
  | item has hs hst =>
    obtain ⟨w, n, fp, hc, he⟩ := ha.coll_of (asArray_type has) (Or.inl rfl)
    obtain ⟨i, rfl⟩ := hc.iterState he hs
    by_cases hi : i < n
    · obtain ⟨e, h1, _⟩ := he i hi
      rw [hc.step hi h1] at hst; cases hst
      exact ⟨_, w, n, fp, i, asArray_type has, Or.inl rfl, hc, hi, by rw [hc.getUnchecked hi, h1]⟩
    · rw [iterAt_step_end hi] at hst; cases hst
  | entry has hs hst =>
    obtain ⟨w, n, fp, hc, he⟩ := ha.coll_of (asDict_type has) (Or.inr rfl)
    obtain ⟨i, rfl⟩ := hc.dictIterState scope he hs
    rcases hc.dictStep_cases scope he i with ⟨k, e, hi, hd, hg, h1⟩ | ⟨j, _, h1⟩
    · rw [h1] at hst; cases hst
      exact ⟨_, w, n, fp, _, asDict_type has, Or.inr rfl, hc, hi, hg⟩
    · rw [h1] at hst; cases hst
  | firstKey has hf =>
    obtain ⟨w, n, fp, hc, he⟩ := ha.coll_of (asDict_type has) (Or.inr rfl)
    have hev := arrayLen_even (asDict_type has) hc.len
    unfold Val.dictFirst at hf
    simp only [hc.len, ok_bind] at hf
    split at hf
    · cases hf
    · obtain ⟨a, b, hp, hga, _, hda, _⟩ := hc.pair he (i := 0) (by omega)
      rw [hp] at hf; cases hf
      exact ⟨_, w, n, fp, 0, asDict_type has, Or.inr rfl, hc, by omega, hga⟩
  | firstValue has hf =>
    obtain ⟨w, n, fp, hc, he⟩ := ha.coll_of (asDict_type has) (Or.inr rfl)
    have hev := arrayLen_even (asDict_type has) hc.len
    unfold Val.dictFirst at hf
    simp only [hc.len, ok_bind] at hf
    split at hf
    · cases hf
    · obtain ⟨a, b, hp, _, hgb, _, hdb⟩ := hc.pair he (i := 0) (by omega)
      rw [hp] at hf; cases hf
      exact ⟨_, w, n, fp, 1, asDict_type has, Or.inr rfl, hc, by omega, hgb⟩
  | lookup has hg =>
    obtain ⟨w, n, fp, hc, he⟩ := ha.coll_of (asDict_type has) (Or.inr rfl)
    unfold Val.dictGet at hg
    rw [bind_eq_ok] at hg; obtain ⟨k, _, hg⟩ := hg
    obtain ⟨i, hi, hgi⟩ := hc.search_ok he k hg
    exact ⟨_, w, n, fp, i, asDict_type has, Or.inr rfl, hc, hi, hgi⟩
  | lookupWith has hg =>
    obtain ⟨w, n, fp, hc, he⟩ := ha.coll_of (asDict_type has) (Or.inr rfl)
    unfold Val.dictGetWith at hg
    rw [bind_eq_ok] at hg; obtain ⟨k, _, hg⟩ := hg
    obtain ⟨i, hi, hgi⟩ := hc.search_ok he k hg
    exact ⟨_, w, n, fp, i, asDict_type has, Or.inr rfl, hc, hi, hgi⟩

theorem DeepOK.child_deep {m : Mem} {scope : Option SharedKeys} {a x : Val} (ha : DeepOK m a)
    (h : Child m scope a x) : DeepOK m x := by
  obtain ⟨t, w, n, fp, i, ht, had, hc, hi, hr⟩ := ha.child h
  obtain ⟨w', n', fp', hc', he⟩ := ha.coll_of ht had
  have e1 := hc.wide; rw [hc'.wide] at e1; cases e1
  have e2 := hc.len; rw [hc'.len] at e2; cases e2
  have e3 := hc.first; rw [hc'.first] at e3; cases e3
  obtain ⟨e, h1, h2⟩ := he i hi
  rw [h1] at hr; cases hr; exact h2

/-- Everything reachable from a deeply valid value is deeply valid. -/
theorem DeepOK.reach {m : Mem} {scope : Option SharedKeys} {root v : Val} (hroot : DeepOK m root)
    (h : Reach m scope root v) : DeepOK m v := by
  induction h with
  | root => exact hroot
  | child _ hc ih => exact ih.child_deep hc

/-- No endless descent from a deeply valid value. -/
theorem DeepOK.no_descent {m : Mem} {scope : Option SharedKeys} {v : Val} (h : DeepOK m v)
    (f : Nat → Val) (h0 : f 0 = v) : ¬ ∀ n, Child m scope (f n) (f (n + 1)) := by
  induction h generalizing f with
  | @scalar v t r hin len ty na nd np req fits =>
    intro hf
    have hd : DeepOK m v := .scalar hin len ty na nd np req fits
    have := hf 0
    rw [h0] at this
    obtain ⟨t', w, n, fp, i, ht, had, _⟩ := hd.child this
    rw [ty] at ht; cases ht
    rcases had with rfl | rfl <;> contradiction
  | @coll v t w n fp hin ty ad wide len first small fits slots elems ih =>
    intro hf
    have hd : DeepOK m v := .coll hin ty ad wide len first small fits slots elems
    have := hf 0
    rw [h0] at this
    obtain ⟨t', w', n', fp', i, ht, had, hc, hi, hr⟩ := hd.child this
    have e1 := hc.wide; rw [wide] at e1; cases e1
    have e2 := hc.len; rw [len] at e2; cases e2
    have e3 := hc.first; rw [first] at e3; cases e3
    exact ih i _ hi hr (fun k => f (k + 1)) rfl (fun k => hf (k + 1))

/-! ## Traversal terminates -/

theorem Coll.collect_safe {α : Type} {m : Mem} {v : Val} (f : Val → R α) {w : Bool} {n fp : Nat}
    (h : Coll m v w n fp) (he : Elems m v w n fp)
    (hf : ∀ i e, i < n → resolve m w (slotAt (v.pos + fp) (wof w) i) = .ok e → (f e).Safe)
    (fuel i : Nat) (hfuel : n - i < fuel) :
    (collect m f fuel (iterAt (v.pos + fp) (wof w) n i)).Safe := by
  induction fuel generalizing i with
  | zero => omega
  | succ fuel ih =>
    unfold collect
    by_cases hi : i < n
    · obtain ⟨e, h1, _⟩ := he i hi
      rw [h.step hi h1]
      simp only [ok_bind]
      apply Safe.bind (hf i e hi h1); intro a _
      apply Safe.bind (ih (i + 1) (by omega)); intro _ _; trivial
    · rw [iterAt_step_end hi]; trivial

theorem Coll.collectDict_safe {α : Type} {m : Mem} {v : Val} (scope : Option SharedKeys) (f : Val → R α)
    {w : Bool} {n fp : Nat} (h : Coll m v w n fp) (he : Elems m v w n fp)
    (hf : ∀ i e, i < n → resolve m w (slotAt (v.pos + fp) (wof w) i) = .ok e → (f e).Safe)
    (fuel i : Nat) (hfuel : n - i < fuel) :
    (collectDict m scope f fuel (iterAt (v.pos + fp) (wof w) n i)).Safe := by
  induction fuel generalizing i with
  | zero => omega
  | succ fuel ih =>
    unfold collectDict
    rcases h.dictStep_cases scope he i with ⟨k, e, hi, _, hg, h1⟩ | ⟨j, _, h1⟩
    · rw [h1]
      simp only [ok_bind]
      rw [h.getUnchecked hi] at hg
      apply Safe.bind (hf (i + 1) e hi hg); intro a _
      apply Safe.bind (ih (i + 2) (by omega)); intro _ _; trivial
    · rw [h1]; trivial

theorem exists_bound (n : Nat) (P : Nat → Nat → Prop) (hmono : ∀ i f g, f ≤ g → P i f → P i g)
    (h : ∀ i, i < n → ∃ f, P i f) : ∃ f, ∀ i, i < n → P i f := by
  induction n with
  | zero => exact ⟨0, by omega⟩
  | succ n ih =>
    obtain ⟨f, hf⟩ := ih (fun i hi => h i (by omega))
    obtain ⟨g, hg⟩ := h n (by omega)
    refine ⟨max f g, fun i hi => ?_⟩
    by_cases hin : i < n
    · exact hmono i f _ (Nat.le_max_left _ _) (hf i hin)
    · have : i = n := by omega
      subst this; exact hmono i g _ (Nat.le_max_right _ _) hg

/-- A complete traversal of a deeply valid value ends, and stays in bounds. -/
theorem DeepOK.readTree_safe {m : Mem} (F : FloatOps) (scope : Option SharedKeys) {v : Val} (h : DeepOK m v) :
    ∃ f, ∀ g, f ≤ g → (readTree m F scope g v).Safe := by
  induction h with
  | @scalar v t r hin len ty na nd np req fits =>
    refine ⟨1, fun g hg => ?_⟩
    obtain ⟨g, rfl⟩ : ∃ g', g = g' + 1 := ⟨g - 1, by omega⟩
    have h : DeepOK m v := .scalar hin len ty na nd np req fits
    unfold readTree
    rw [ty]
    simp only [ok_bind]
    cases t <;> first
      | trivial
      | contradiction
      | exact Safe.bind (h.toInt_safe F) (by simp)
      | exact Safe.bind (h.toUnsignedInt_safe F) (by simp)
      | exact Safe.bind (h.toDouble_safe F) (by simp)
      | exact Safe.bind (toStr_safe h.inb) (by simp)
      | exact Safe.bind (toData_safe h.inb) (by simp)
  | @coll v t w n fp hin ty ad wide len first small fits slots elems ih =>
    have hc : Coll m v w n fp := ⟨hin, wide, len, first, small, fits⟩
    have he : Elems m v w n fp := fun i hi => by
      obtain ⟨e, h1⟩ := slots i hi; exact ⟨e, h1, elems i e hi h1⟩
    obtain ⟨f, hf⟩ := exists_bound n
      (fun i f => ∀ e, resolve m w (slotAt (v.pos + fp) (wof w) i) = .ok e →
        ∀ g, f ≤ g → (readTree m F scope g e).Safe)
      (fun i f g hfg hp e he k hk => hp e he k (by omega))
      (fun i hi => by
        obtain ⟨e, h1⟩ := slots i hi
        obtain ⟨f, hf⟩ := ih i e hi h1
        refine ⟨f, fun e' he' g hg => ?_⟩
        rw [h1] at he'; cases he'; exact hf g hg)
    refine ⟨f + 1, fun g hg => ?_⟩
    obtain ⟨g, rfl⟩ : ∃ g', g = g' + 1 := ⟨g - 1, by omega⟩
    unfold readTree
    rw [ty]
    simp only [ok_bind]
    rcases ad with rfl | rfl
    · dsimp only
      rw [hc.iter]
      simp only [ok_bind]
      apply Safe.bind
      · exact hc.collect_safe _ he (fun i e hi h1 => hf i hi e h1 g (by omega)) _ _ (by simp [iterAt])
      · intro _ _; trivial
    · dsimp only
      unfold Val.dictIter
      rw [hc.iter]
      simp only [ok_bind]
      apply Safe.bind
      · exact hc.collectDict_safe scope _ he (fun i e hi h1 => hf i hi e h1 g (by omega)) _ _ (by simp [iterAt])
      · intro _ _; trivial

/-- Every reader call on a deeply valid value stays in bounds and returns or panics. -/
theorem DeepOK.everyCall {m : Mem} (F : FloatOps) (scope : Option SharedKeys) {v : Val} (h : DeepOK m v) :
    EveryCall (fun x => x.Safe) m F scope v where
  type := type_safe h.inb
  toBool := h.toBool_safe F
  toInt := h.toInt_safe F
  toUnsignedInt := h.toUnsignedInt_safe F
  toShort := h.toShort_safe F
  toUnsignedShort := h.toUnsignedShort_safe F
  toDouble := h.toDouble_safe F
  toFloat := h.toFloat_safe F
  toData := toData_safe h.inb
  toStr := toStr_safe h.inb
  asArray := by unfold Val.asArray; exact Safe.bind (type_safe h.inb) (by simp)
  asDict := by unfold Val.asDict; exact Safe.bind (type_safe h.inb) (by simp)
  array := by
    intro ha
    obtain ⟨w, n, fp, hc, he⟩ := h.coll_of (asArray_type ha) (Or.inl rfl)
    refine ⟨by simp [hc.len], by simp [hc.iter], ?_, ?_⟩
    · intro it hit
      obtain ⟨i, rfl⟩ := hc.iterState he hit
      rcases hc.step_cases he i with ⟨e, _, _, h1⟩ | ⟨_, h1⟩ <;> simp [h1]
    · intro n' i hn hi
      rw [hc.len] at hn; cases hn
      obtain ⟨e, h1, _⟩ := hc.get_elem he hi
      unfold Val.get
      simp only [hc.len, ok_bind, h1]
      split <;> trivial
  dict := by
    intro hd
    obtain ⟨w, n, fp, hc, he⟩ := h.coll_of (asDict_type hd) (Or.inr rfl)
    have hev := arrayLen_even (asDict_type hd) hc.len
    have hget : ∀ k, (v.dictGet m scope k).Safe := by
      intro k
      unfold Val.dictGet
      obtain ⟨k', hk⟩ := hc.encodeKey_ok he hev k none scope
      simp only [hk, ok_bind]
      exact hc.search_safe he _
    refine ⟨by simp [Val.dictLen, hc.len], ?_, by simp [Val.dictIter, hc.iter], ?_, ?_⟩
    · unfold Val.dictFirst
      simp only [hc.len, ok_bind]
      split
      · trivial
      · obtain ⟨a, b, hp, _⟩ := hc.pair he (i := 0) (by omega)
        rw [hp]; trivial
    · intro it hit
      obtain ⟨i, rfl⟩ := hc.dictIterState scope he hit
      rcases hc.dictStep_cases scope he i with ⟨k, e, _, _, _, h1⟩ | ⟨j, _, h1⟩ <;> simp [h1]
    · intro k
      refine ⟨hget k, ?_, ?_⟩
      · unfold Val.containsKey; exact Safe.bind (hget k) (by simp)
      · intro sk
        unfold Val.dictGetWith
        obtain ⟨k', hk⟩ := hc.encodeKey_ok he hev k (some sk) none
        simp only [hk, ok_bind]
        exact hc.search_safe he _

end Fleece
