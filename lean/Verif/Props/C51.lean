import Verif.Model.Owned

/-!
# C51 Owned values are equal if they are the same

`Alloced` is compared by the address of its value. The statement is about the owned values that are alive at one moment:
each was created with a buffer of its own, or is a clone, or a `to_array` or `to_dict`, of one that was.
-/

namespace Fleece.Props
open Fleece Res

/-- The ways to create an owned value with a buffer. -/
inductive Created : Alloced → Prop where
  /-- `Value::clone_from_bytes` -/
  | checked {dbg : Bool} {base : Nat} {data : List UInt8} {a : Alloced} : cloneFromBytes dbg base data = .ok a → Created a
  /-- `Value::clone_from_bytes_unchecked` -/
  | unchecked {dbg : Bool} {base : Nat} {data : List UInt8} {a : Alloced} :
      cloneFromBytesUnchecked dbg base data = .ok a → Created a
  /-- `Array::clone_from_bytes` -/
  | array {dbg : Bool} {base : Nat} {data : List UInt8} {a : Alloced} : arrayCloneFromBytes dbg base data = .ok a → Created a
  /-- `Dict::clone_from_bytes` -/
  | dict {dbg : Bool} {base : Nat} {data : List UInt8} {a : Alloced} : dictCloneFromBytes dbg base data = .ok a → Created a
  /-- `Encoder::finish_value` -/
  | finished {c : Cfg} {base : Nat} {e : Enc} {a : Alloced} : e.finishValue c base = .ok a → Created a
  /-- `fleece!` -/
  | fleece {c : Cfg} {base : Nat} {l : Lit} {a : Alloced} : l.fleece c base = .ok a → Created a
  /-- the constant behind `AllocedArray::empty` -/
  | emptyArray {dbg : Bool} {base : Nat} : Created (.emptyArray dbg base)
  /-- the constant behind `AllocedDict::empty` -/
  | emptyDict {dbg : Bool} {base : Nat} : Created (.emptyDict dbg base)

/-- An owned value that comes from `a` without a new buffer. -/
inductive From (a : Alloced) : Alloced → Prop where
  | self : From a a
  | clone {b : Alloced} : From a b → From a b.clone
  | toArray {b b' : Alloced} : From a b → b.toArray = .ok (some b') → From a b'
  | toDict {b b' : Alloced} : From a b → b.toDict = .ok (some b') → From a b'

/-- Two buffers that are in memory together. -/
def Apart (a b : Alloced) : Prop :=
  a.mem.base + a.mem.data.length ≤ b.mem.base ∨ b.mem.base + b.mem.data.length ≤ a.mem.base

theorem type_pos {m : Mem} {v : Val} {t : ValueType} (h : v.type m = .ok t) : v.pos < m.data.length := by
  unfold Val.type Val.byte at h
  split at h
  · cases hb : m.data[v.pos + 0]? with
    | none => rw [hb] at h; cases h
    | some b => exact (List.getElem?_eq_some_iff.mp hb).1
  · cases h

theorem derefChecked_pos {m : Mem} : ∀ {fuel : Nat} {wide : Bool} {v r : Val}, derefCheckedGo m fuel wide v = .ok r →
    r.pos < m.data.length := by
  intro fuel
  induction fuel with
  | zero => intro wide v r h; cases h
  | succ fuel ih =>
    intro wide v r h
    unfold derefCheckedGo at h
    split at h
    · cases h
    · obtain ⟨o, _, h⟩ := bind_eq_ok.mp h
      split at h
      · cases h
      · obtain ⟨b, _, h⟩ := bind_eq_ok.mp h
        split at h
        · cases h
        · split at h
          · cases h
          · obtain ⟨tg, _, h⟩ := bind_eq_ok.mp h
            obtain ⟨t, ht, h⟩ := bind_eq_ok.mp h
            split at h
            · exact ih h
            · cases h; exact type_pos ht

theorem derefUnchecked_pos {m : Mem} : ∀ {fuel : Nat} {wide : Bool} {v r : Val}, derefUncheckedGo m fuel wide v = .ok r →
    r.pos < m.data.length := by
  intro fuel
  induction fuel with
  | zero => intro wide v r h; cases h
  | succ fuel ih =>
    intro wide v r h
    unfold derefUncheckedGo at h
    obtain ⟨o, _, h⟩ := bind_eq_ok.mp h
    split at h
    · cases h
    · split at h
      · cases h
      · obtain ⟨tg, _, h⟩ := bind_eq_ok.mp h
        obtain ⟨t, ht, h⟩ := bind_eq_ok.mp h
        split at h
        · exact ih h
        · cases h; exact type_pos ht

theorem checked_pos {dbg : Bool} {base : Nat} {data : List UInt8} {a : Alloced} (h : cloneFromBytes dbg base data = .ok a) :
    a.value.pos < a.mem.data.length := by
  unfold cloneFromBytes at h
  obtain ⟨v, hv, h⟩ := bind_eq_ok.mp h
  cases h
  unfold fromBytes fromBytesGo at hv
  obtain ⟨r, hr, hv⟩ := bind_eq_ok.mp hv
  obtain ⟨_, _, hv⟩ := bind_eq_ok.mp hv
  cases hv
  unfold findRoot at hr
  dsimp only at hr
  split at hr
  · cases hr
  · obtain ⟨t, ht, hr⟩ := bind_eq_ok.mp hr
    split at hr
    · exact derefChecked_pos hr
    · split at hr
      · cases hr; exact type_pos ht
      · cases hr

theorem unchecked_pos {dbg : Bool} {base : Nat} {data : List UInt8} {a : Alloced}
    (h : cloneFromBytesUnchecked dbg base data = .ok a) : a.value.pos < a.mem.data.length := by
  unfold cloneFromBytesUnchecked at h
  obtain ⟨v, hv, h⟩ := bind_eq_ok.mp h
  cases h
  unfold fromBytesUnchecked at hv
  dsimp only at hv
  split at hv
  · cases hv
  · obtain ⟨t, ht, hv⟩ := bind_eq_ok.mp hv
    split at hv
    · exact derefUnchecked_pos hv
    · split at hv
      · cases hv; exact type_pos ht
      · cases hv

theorem unwrap_ok {α : Type} {x : R α} {a : α} (h : unwrap x = .ok a) : x = .ok a := by
  cases x with
  | ok b => cases h; rfl
  | _ => cases h

theorem toArray_same {a b : Alloced} (h : a.toArray = .ok (some b)) : b = a := by
  unfold Alloced.toArray at h
  obtain ⟨t, _, h⟩ := bind_eq_ok.mp h
  split at h
  · cases h; rfl
  · cases h

theorem toDict_same {a b : Alloced} (h : a.toDict = .ok (some b)) : b = a := by
  unfold Alloced.toDict at h
  obtain ⟨t, _, h⟩ := bind_eq_ok.mp h
  split at h
  · cases h; rfl
  · cases h

theorem finished_pos {c : Cfg} {base : Nat} {e : Enc} {a : Alloced} (h : e.finishValue c base = .ok a) :
    a.value.pos < a.mem.data.length := by
  unfold Enc.finishValue at h
  obtain ⟨out, _, h⟩ := bind_eq_ok.mp h
  split at h
  · exact checked_pos (unwrap_ok h)
  · exact unchecked_pos (unwrap_ok h)

theorem Created.pos {a : Alloced} (h : Created a) : a.value.pos < a.mem.data.length := by
  cases h with
  | checked h => exact checked_pos h
  | unchecked h => exact unchecked_pos h
  | array h =>
    unfold arrayCloneFromBytes at h
    obtain ⟨b, hb, h⟩ := bind_eq_ok.mp h
    obtain ⟨o, ho, h⟩ := bind_eq_ok.mp h
    cases o with
    | none => cases h
    | some o => cases h; rw [toArray_same ho]; exact checked_pos hb
  | dict h =>
    unfold dictCloneFromBytes at h
    obtain ⟨b, hb, h⟩ := bind_eq_ok.mp h
    obtain ⟨o, ho, h⟩ := bind_eq_ok.mp h
    cases o with
    | none => cases h
    | some o => cases h; rw [toDict_same ho]; exact checked_pos hb
  | finished h => exact finished_pos h
  | fleece h =>
    unfold Lit.fleece at h
    obtain ⟨e, _, h⟩ := bind_eq_ok.mp h
    obtain ⟨b, hb, h⟩ := bind_eq_ok.mp h
    have key : ∀ d, someUnchecked d = .ok a → unwrap b.toDict = .ok d ∨ unwrap b.toArray = .ok d → a = b := by
      intro d hd hs
      cases d with
      | none => cases hd
      | some d =>
        cases hd
        rcases hs with hs | hs
        · exact toDict_same (unwrap_ok hs)
        · exact toArray_same (unwrap_ok hs)
    have : a = b := by
      split at h
      · obtain ⟨d, h1, h2⟩ := bind_eq_ok.mp h; exact key d h2 (Or.inl h1)
      · obtain ⟨d, h1, h2⟩ := bind_eq_ok.mp h; exact key d h2 (Or.inr h1)
    rw [this]
    exact finished_pos hb
  | emptyArray => exact Nat.zero_lt_two
  | emptyDict => exact Nat.zero_lt_two

theorem From.same {a b : Alloced} (h : From a b) : b = a := by
  induction h with
  | self => rfl
  | clone _ ih => rw [ih]; rfl
  | toArray _ h ih => rw [toArray_same h, ih]
  | toDict _ h ih => rw [toDict_same h, ih]

/-- Of values alive together, those at one address are one value. -/
theorem addr_inj {l : List Alloced} (hc : ∀ a ∈ l, Created a) (hd : l.Pairwise Apart) {i j : Nat} {a b : Alloced}
    (hi : l[i]? = some a) (hj : l[j]? = some b) (h : a.addr = b.addr) : i = j := by
  have key : ∀ {i j : Nat} {a b : Alloced}, l[i]? = some a → l[j]? = some b → i < j → a.addr ≠ b.addr := by
    intro i j a b hi hj hij h
    obtain ⟨hi1, hi2⟩ := List.getElem?_eq_some_iff.mp hi
    obtain ⟨hj1, hj2⟩ := List.getElem?_eq_some_iff.mp hj
    have hap := List.pairwise_iff_getElem.mp hd i j hi1 hj1 hij
    rw [hi2, hj2] at hap
    have ha := (hc a (List.mem_of_getElem? hi)).pos
    have hb := (hc b (List.mem_of_getElem? hj)).pos
    unfold Alloced.addr at h
    rcases hap with hap | hap <;> omega
  rcases Nat.lt_trichotomy i j with hij | hij | hij
  · exact absurd h (key hi hj hij)
  · exact hij
  · exact absurd h.symm (key hj hi hij)

/-- **C51, equality.** `l` are the owned values created and still in memory, at addresses of the allocator's choice. Two owned
values are equal if and only if they come from the same creation, whatever their contents; then they are the same value of
the same buffer. -/
theorem C51_eq (l : List Alloced) (hc : ∀ a ∈ l, Created a) (hd : l.Pairwise Apart) (i j : Nat) (a b a' b' : Alloced)
    (hi : l[i]? = some a) (hj : l[j]? = some b) (ha : From a a') (hb : From b b') :
    (a'.eq b' = true ↔ i = j) ∧ (i = j → a' = b') := by
  rw [ha.same, hb.same]
  have hij : i = j → a = b := fun h => by subst h; rw [hi] at hj; cases hj; rfl
  refine ⟨⟨fun h => addr_inj hc hd hi hj (by simpa [Alloced.eq] using h), fun h => ?_⟩, hij⟩
  rw [hij h]
  simp [Alloced.eq]

theorem cmpNat_eq {x y : Nat} : cmpNat x y = .eq ↔ x = y := by
  unfold cmpNat
  split
  · simp; omega
  · split
    · simp; omega
    · simp; omega

theorem cmpNat_lt {x y : Nat} : cmpNat x y = .lt ↔ x < y := by
  unfold cmpNat
  split
  · simpa
  · split <;> simp <;> omega

theorem cmpNat_gt {x y : Nat} : cmpNat x y = .gt ↔ y < x := by
  unfold cmpNat
  split
  · simp; omega
  · split
    · simpa
    · simp; omega

/-- **C51, order.** For all owned values: `cmp` is a total order, `Equal` where `==` holds, so that they can be keys of a
`BTreeMap`. -/
theorem C51_order (a b c : Alloced) : (a.cmp b = .eq ↔ a.eq b = true) ∧ (a.cmp b = .lt ↔ b.cmp a = .gt) ∧
    (a.cmp b = .lt ∨ a.cmp b = .eq ∨ b.cmp a = .lt) ∧ (a.cmp b = .lt → b.cmp c = .lt → a.cmp c = .lt) ∧
    (a.cmp b = .eq → b.cmp c = .eq → a.cmp c = .eq) ∧ (a.cmp b = .eq → a.cmp c = b.cmp c) := by
  unfold Alloced.cmp Alloced.eq
  simp only [cmpNat_eq, cmpNat_lt, cmpNat_gt, beq_iff_eq]
  refine ⟨trivial, trivial, by omega, by omega, by omega, fun h => by rw [h]⟩

/-- **C51, pointers as keys.** What `Borrow<*const T>` gives compares like the owned values, as `Borrow` demands, although
pointers to slices also compare lengths: a `BTreeMap` with owned values as keys can be searched by pointer. -/
theorem C51_borrow (l : List Alloced) (hc : ∀ a ∈ l, Created a) (hd : l.Pairwise Apart) (i j : Nat) (a b a' b' : Alloced)
    (hi : l[i]? = some a) (hj : l[j]? = some b) (ha : From a a') (hb : From b b') :
    a'.ptrEq b' = a'.eq b' ∧ a'.ptrCmp b' = a'.cmp b' := by
  rw [ha.same, hb.same]
  by_cases h : a.addr = b.addr
  · have hij := addr_inj hc hd hi hj h
    subst hij
    rw [hi] at hj
    cases hj
    simp [Alloced.ptrEq, Alloced.eq, Alloced.ptrCmp, Alloced.cmp, cmpNat]
  · have hne : cmpNat a.addr b.addr ≠ .eq := fun hh => h (cmpNat_eq.mp hh)
    refine ⟨by simp [Alloced.ptrEq, Alloced.eq, h], ?_⟩
    unfold Alloced.ptrCmp Alloced.cmp
    cases hx : cmpNat a.addr b.addr with
    | eq => exact absurd hx hne
    | lt => rfl
    | gt => rfl

/-- Two clones of the bytes of `[5]` and the empty array, in memory together: the first two have the same contents and are
not equal. -/
example : ∃ a b : Alloced, cloneFromBytes true 4096 [0x60, 1, 0, 5, 0x80, 2] = .ok a ∧
    cloneFromBytes true 4112 [0x60, 1, 0, 5, 0x80, 2] = .ok b ∧ [a, b, .emptyArray true 64].Pairwise Apart ∧
    a.eq b = false ∧ a.mem.data = b.mem.data ∧ a.value = b.value :=
  ⟨⟨⟨[0x60, 1, 0, 5, 0x80, 2], 4096, true⟩, ⟨0, 4⟩⟩, ⟨⟨[0x60, 1, 0, 5, 0x80, 2], 4112, true⟩, ⟨0, 4⟩⟩, by rfl, by rfl,
    by simp [Apart, Alloced.emptyArray], by rfl, rfl, rfl⟩

end Fleece.Props
