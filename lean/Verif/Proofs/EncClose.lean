import Verif.Proofs.EncBasic
import Verif.Proofs.Shared

/-! # What closing a collection computes, in closed form -/

namespace Fleece
open Res

/-- A slot value that, if it is a pointer, points at or before position `n`. -/
def SizedValue.Bounded (s : SizedValue) (n : Nat) : Prop := s.type = .pointer → s.pointerOffset ≤ n

/-- The same for a key; codes fit an inline integer. -/
def DictKey.Bounded : DictKey → Nat → Prop
  | .inline s, _ => s.type ≠ .pointer
  | .shared c, _ => c ≤ 2047
  | .pointer _ off, n => off ≤ n

/-- The same for a collection. -/
def Collection.Bounded : Collection → Nat → Prop
  | .arr vs, n => ∀ v ∈ vs, v.Bounded n
  | .dict els nk, n => (∀ el ∈ els, el.key.Bounded n ∧ el.val.Bounded n) ∧ ∀ k, nk = some k → k.Bounded n

theorem SizedValue.Bounded.mono {s : SizedValue} {n k : Nat} (h : s.Bounded n) (hnk : n ≤ k) : s.Bounded k :=
  fun ht => Nat.le_trans (h ht) hnk

theorem DictKey.Bounded.mono {s : DictKey} {n k : Nat} (h : s.Bounded n) (hnk : n ≤ k) : s.Bounded k := by
  cases s with
  | inline s => exact h
  | shared c => exact h
  | pointer a off => exact Nat.le_trans h hnk

theorem Collection.Bounded.mono {s : Collection} {n k : Nat} (h : s.Bounded n) (hnk : n ≤ k) : s.Bounded k := by
  cases s with
  | arr vs => exact fun v hv => (h v hv).mono hnk
  | dict els nk =>
    exact ⟨fun el hel => ⟨(h.1 el hel).1.mono hnk, (h.1 el hel).2.mono hnk⟩, fun q hq => (h.2 q hq).mono hnk⟩

namespace Enc

/-! ## Width -/

/-- A slot that would make an array wide. -/
def slotFar (outLen : Nat) (s : SizedValue) : Bool :=
  decide (s.type = .pointer) && decide (outLen - s.pointerOffset > SizedValue.maxNarrow)

theorem actualPointerOffset_eq (dbg : Bool) {s : SizedValue} {n : Nat} (hs : s.pointerOffset ≤ n) (hn : n < 2 ^ 32) :
    s.actualPointerOffset dbg n = .ok (n - s.pointerOffset) := by
  unfold SizedValue.actualPointerOffset usizeSub
  rw [if_pos hs]
  simp only [ok_bind, pure_eq]
  rw [Nat.mod_eq_of_lt (by omega)]

theorem arrayWide_eq (dbg : Bool) {n : Nat} (hn : n < 2 ^ 32) {vs : List SizedValue} (hv : ∀ v ∈ vs, v.Bounded n) :
    arrayWide dbg n vs = .ok (vs.any (slotFar n)) := by
  induction vs with
  | nil => rfl
  | cons v vs ih =>
    have ih := ih fun v hv' => hv v (List.mem_cons_of_mem _ hv')
    unfold arrayWide
    rw [List.any_cons]
    by_cases ht : v.type = .pointer
    · rw [if_pos ht, actualPointerOffset_eq dbg (hv v (by simp) ht) hn]
      simp only [ok_bind]
      unfold slotFar
      by_cases hf : n - v.pointerOffset > SizedValue.maxNarrow
      · simp [ht, hf]
      · rw [if_neg hf, ih]; simp only [ht, hf]; rfl
    · rw [if_neg ht, ih]; simp [slotFar, ht]

/-- A pair that makes a dict wide. A key counts by its absolute position. -/
def pairFar (outLen : Nat) (el : DictElem) : Bool :=
  (match el.key with
    | .pointer _ off => decide (off > SizedValue.maxNarrow)
    | _ => false) || slotFar outLen el.val

theorem dictWide_eq (dbg : Bool) {n : Nat} (hn : n < 2 ^ 32) {els : List DictElem} (len : Nat) (hlen : n ≤ len)
    (hv : ∀ el ∈ els, el.key.Bounded n ∧ el.val.Bounded n) :
    dictWide dbg n len els = .ok (els.any (pairFar n)) := by
  induction els generalizing len with
  | nil => rfl
  | cons el els ih =>
    have ih := ih (len + 2) (by omega) fun v hv' => hv v (List.mem_cons_of_mem _ hv')
    obtain ⟨hk, hb⟩ := hv el (by simp)
    unfold dictWide
    rw [List.any_cons]
    have hkey : keyFar dbg len el.key = .ok (match el.key with
        | .pointer _ off => decide (off > SizedValue.maxNarrow)
        | _ => false) := by
      cases hke : el.key with
      | inline s => rfl
      | shared c => rfl
      | pointer k off =>
        rw [hke] at hk
        simp only [DictKey.Bounded] at hk
        simp only [keyFar, usizeSub]
        rw [if_pos (by omega)]
        simp only [ok_bind]
        rw [if_pos (by omega)]
        simp only [ok_bind, pure_eq]
        rw [show len - (len - off) = off by omega]
    rw [hkey]
    simp only [ok_bind]
    unfold pairFar
    cases (match el.key with
        | .pointer _ off => decide (off > SizedValue.maxNarrow)
        | _ => false : Bool) with
    | true => simp
    | false =>
      simp only [Bool.false_eq_true, if_false, Bool.false_or]
      by_cases ht : el.val.type = .pointer
      · rw [if_pos ht, actualPointerOffset_eq dbg (hb ht) hn]
        simp only [ok_bind]
        by_cases hf : n - el.val.pointerOffset > SizedValue.maxNarrow
        · rw [if_pos hf]; simp [slotFar, ht, hf]
        · rw [if_neg hf, ih]; simp only [slotFar, ht, hf]; rfl
      · rw [if_neg ht, ih]; simp only [slotFar, ht]; rfl

/-! ## Pointers made relative -/

/-- A slot, its pointer made relative to the position `len` of the slot. -/
def relSlot (s : SizedValue) (len : Nat) : SizedValue :=
  if s.type = .pointer then (SizedValue.newPointer (len - s.pointerOffset)).getD s else s

theorem fixSlot_eq (dbg : Bool) {s : SizedValue} {len : Nat} (hs : s.Bounded len) (hl : len ≤ SizedValue.maxWide) :
    fixSlot dbg s len = .ok (relSlot s len) := by
  unfold fixSlot relSlot
  by_cases ht : s.type = .pointer
  · rw [if_pos ht, if_pos ht]
    unfold fixPointer
    rw [actualPointerOffset_eq dbg (hs ht) (by unfold SizedValue.maxWide at hl; omega)]
    obtain ⟨p, hp, _⟩ := SizedValue.newPointer_spec (off := len - s.pointerOffset) (by omega)
    simp only [ok_bind, hp, Option.getD_some, pure_eq]
  · rw [if_neg ht, if_neg ht]

theorem u32Add_eq {ε : Type} (dbg : Bool) {a b : Nat} (h : a + b < 2 ^ 32) : u32Add (ε := ε) dbg a b = .ok (a + b) := by
  unfold u32Add; rw [if_pos h]

theorem u32Sub_eq {ε : Type} (dbg : Bool) {a b : Nat} (h : b ≤ a) : u32Sub (ε := ε) dbg a b = .ok (a - b) := by
  unfold u32Sub; rw [if_pos h]

/-- All slots of an array, the first at position `len`. -/
def relArray (wide : Bool) : Nat → List SizedValue → List SizedValue
  | _, [] => []
  | len, v :: vs => relSlot v len :: relArray wide (len + slotWidth wide) vs

theorem slotWidth_le (w : Bool) : slotWidth w ≤ 4 := by cases w <;> simp [slotWidth]

theorem fixArray_eq (dbg wide : Bool) {vs : List SizedValue} : ∀ {len : Nat}, (∀ v ∈ vs, v.Bounded len) →
    len + 4 * vs.length ≤ SizedValue.maxWide → fixArray dbg wide len vs = .ok (relArray wide len vs) := by
  have hw := slotWidth_le wide
  induction vs with
  | nil => intros; rfl
  | cons v vs ih =>
    intro len hv hl
    simp only [List.length_cons] at hl
    unfold fixArray relArray
    rw [fixSlot_eq dbg (hv v (by simp)) (by omega)]
    simp only [ok_bind]
    rw [u32Add_eq dbg (by unfold SizedValue.maxWide at hl; omega)]
    simp only [ok_bind]
    rw [ih (fun v hv' => (hv v (List.mem_cons_of_mem _ hv')).mono (by omega)) (by omega)]
    rfl

theorem relArray_length (wide : Bool) (vs : List SizedValue) : ∀ len, (relArray wide len vs).length = vs.length := by
  induction vs with
  | nil => intro; rfl
  | cons v vs ih => intro len; simp [relArray, ih]

/-- A key, made relative. -/
def relKey : DictKey → Nat → DictKey
  | .pointer k off, len => .pointer k (len - off)
  | k, _ => k

/-- All pairs of a dict, the first at position `len`. -/
def relDict (wide : Bool) : Nat → List DictElem → List DictElem
  | _, [] => []
  | len, el :: els =>
    ⟨relKey el.key len, relSlot el.val (len + slotWidth wide)⟩ :: relDict wide (len + slotWidth wide + slotWidth wide) els

theorem fixDict_eq (dbg wide : Bool) {els : List DictElem} : ∀ {len : Nat},
    (∀ el ∈ els, el.key.Bounded len ∧ el.val.Bounded len) →
    len + 8 * els.length ≤ SizedValue.maxWide → fixDict dbg wide len els = .ok (relDict wide len els) := by
  have hw := slotWidth_le wide
  induction els with
  | nil => intros; rfl
  | cons el els ih =>
    intro len hv hl
    simp only [List.length_cons] at hl
    obtain ⟨hk, hb⟩ := hv el (by simp)
    have hl32 : SizedValue.maxWide < 2 ^ 32 := by decide
    have hkey : fixKey dbg len el.key = .ok (relKey el.key len) := by
      cases hke : el.key with
      | inline s => rfl
      | shared c => rfl
      | pointer k off =>
        rw [hke] at hk
        simp only [fixKey]
        rw [u32Sub_eq dbg hk]; rfl
    unfold fixDict relDict
    rw [hkey]
    simp only [ok_bind]
    rw [u32Add_eq dbg (by omega)]
    simp only [ok_bind]
    rw [fixSlot_eq dbg (hb.mono (by omega)) (by omega)]
    simp only [ok_bind]
    rw [u32Add_eq dbg (by omega)]
    simp only [ok_bind]
    rw [ih (fun v hv' => ⟨(hv v (List.mem_cons_of_mem _ hv')).1.mono (by omega),
      (hv v (List.mem_cons_of_mem _ hv')).2.mono (by omega)⟩) (by omega)]
    rfl

/-- The slot of a key whose offset is already relative. -/
def keySlotVal : DictKey → SizedValue
  | .inline s => s
  | .shared c => SizedValue.newNarrow (UInt8.ofNat (c / 256)) (UInt8.ofNat c)
  | .pointer _ off => (SizedValue.newPointer off).getD (SizedValue.newNarrow 0 0)

theorem keySlot_eq {k : DictKey} {n : Nat} (hk : k.Bounded n) (hn : n ≤ SizedValue.maxWide) :
    keySlot k = .ok (some (keySlotVal k)) := by
  cases k with
  | inline s => rfl
  | shared c =>
    simp only [DictKey.Bounded] at hk
    simp only [keySlot, keySlotVal, u16Sized]
    rw [if_neg (by omega)]
  | pointer k off =>
    simp only [DictKey.Bounded] at hk
    obtain ⟨p, hp, _⟩ := SizedValue.newPointer_spec (off := off) (by omega)
    simp only [keySlot, keySlotVal, hp, Option.getD_some]

/-- The bytes of a list of pairs (relative). -/
def pairsBytes (wide : Bool) (els : List DictElem) : List UInt8 :=
  (els.map fun el => slotBytes wide (keySlotVal el.key) ++ slotBytes wide el.val).flatten

theorem writePairs_eq (c : Cfg) (wide : Bool) {n : Nat} (hn : n ≤ SizedValue.maxWide) (els : List DictElem) :
    ∀ (e : Enc), e.out.length % 2 = 0 → (∀ el ∈ els, el.key.Bounded n) →
    writePairs c wide e els = Enc.done { e with out := e.out ++ pairsBytes wide els } := by
  induction els with
  | nil => intro e _ _; simp [writePairs, pairsBytes]
  | cons el els ih =>
    intro e he hk
    have h1 := slotBytes_even wide (keySlotVal el.key)
    have h2 := slotBytes_even wide el.val
    unfold writePairs
    rw [keySlot_eq (hk el (by simp)) hn]
    simp only [ok_bind]
    rw [write_sized c e he]
    simp only [ok_bind]
    rw [write_sized c _ (by simp; omega)]
    simp only [ok_bind]
    rw [ih _ (by simp; omega) (fun el hel => hk el (List.mem_cons_of_mem _ hel))]
    simp [pairsBytes]

theorem relDict_bounded (wide : Bool) {els : List DictElem} : ∀ {len N : Nat},
    (∀ el ∈ els, el.key.Bounded len) → len + 8 * els.length ≤ N → ∀ el ∈ relDict wide len els, el.key.Bounded N := by
  have hw := slotWidth_le wide
  induction els with
  | nil => intro len N _ _ el hel; cases hel
  | cons el els ih =>
    intro len N hb hl el' hel
    simp only [List.length_cons] at hl
    unfold relDict at hel
    rcases List.mem_cons.mp hel with rfl | hel
    · have := hb el (by simp)
      cases hk : el.key with
      | inline s => rw [hk] at this; exact this
      | shared s => rw [hk] at this; exact this
      | pointer k off =>
        simp only [relKey, DictKey.Bounded]; omega
    · exact ih (fun el hel => (hb el (List.mem_cons_of_mem _ hel)).mono (by omega)) (by omega) el' hel

/-! ## Closing -/

/-- The output after an array has been written. -/
def arrOut (out : List UInt8) (vs : List SizedValue) : List UInt8 :=
  let w := vs.any (slotFar out.length)
  let o := padEven (out ++ headerBytes 0x60 vs.length w)
  o ++ ((relArray w o.length vs).map (slotBytes w)).flatten

/-- The output after a dict has been written; `els` is sorted, `w` its width. -/
def dictOut (out : List UInt8) (w : Bool) (els : List DictElem) : List UInt8 :=
  let o := padEven (out ++ headerBytes 0x70 els.length w)
  o ++ pairsBytes w (relDict w o.length els)

theorem padEven_header_length {out : List UInt8} (he : out.length % 2 = 0) (tag : UInt8) {n : Nat} (hn : n < 2 ^ 64)
    (w : Bool) : (padEven (out ++ headerBytes tag n w)).length ≤ out.length + 12 := by
  rw [padEven_length, List.length_append, headerBytes_length _ hn]
  have := headerSize_le hn
  omega

/-- `end_array` up to `_finished_collection`. -/
theorem endArray_eq (c : Cfg) (e : Enc) {vs : List SizedValue} {rest : List Collection}
    (hs : e.stack = .arr vs :: rest) (he : e.out.length % 2 = 0) (hb : ∀ v ∈ vs, v.Bounded e.out.length)
    (hsz : e.out.length + 12 + 4 * vs.length ≤ SizedValue.maxWide) :
    e.endArray c = Enc.finishedCollection c { e with stack := rest, out := arrOut e.out vs } e.out.length := by
  have hl32 : SizedValue.maxWide < 2 ^ 32 := by decide
  have hn : vs.length < 2 ^ 64 := by omega
  unfold endArray
  rw [hs]
  simp only
  rw [arrayWide_eq c.dbg (by omega) hb]
  simp only [ok_bind]
  have hwr := write_header c { e with stack := rest } hn false (vs.any (slotFar e.out.length))
  simp only [Bool.false_eq_true, if_false] at hwr
  rw [hwr]
  simp only [ok_bind]
  have hlen := padEven_header_length he 0x60 hn (vs.any (slotFar e.out.length))
  have hge : e.out.length ≤ (padEven (e.out ++ headerBytes 0x60 vs.length (vs.any (slotFar e.out.length)))).length := by
    rw [padEven_length]; simp; omega
  rw [Nat.mod_eq_of_lt (a := (padEven _).length) (by omega), fixArray_eq c.dbg _ (fun v hv => (hb v hv).mono hge) (by omega)]
  simp only [ok_bind]
  rw [writeSlots_eq c _ _ _ (padEven_even _)]
  simp only [ok_bind]
  rw [Nat.mod_eq_of_lt (by omega)]
  rfl

/-- `end_dict` up to `_finished_collection`. -/
theorem endDict_eq (c : Cfg) (e : Enc) {els : List DictElem} {rest : List Collection}
    (hs : e.stack = .dict els none :: rest) (he : e.out.length % 2 = 0)
    (hb : ∀ el ∈ els, el.key.Bounded e.out.length ∧ el.val.Bounded e.out.length)
    (hsz : e.out.length + 12 + 8 * els.length ≤ SizedValue.maxWide) :
    e.endDict c = Enc.finishedCollection c { e with stack := rest, out := dictOut e.out (els.any (pairFar e.out.length)) (c.sort.run els) }
      e.out.length := by
  have hl32 : SizedValue.maxWide < 2 ^ 32 := by decide
  have hn : els.length < 2 ^ 64 := by omega
  have hperm := c.sort.perm els
  have hplen : (c.sort.run els).length = els.length := hperm.length_eq
  unfold endDict
  rw [hs]
  simp only
  rw [dictWide_eq c.dbg (by omega) _ (Nat.le_refl _) hb]
  simp only [ok_bind]
  have hwr := write_header c { e with stack := rest } hn true (els.any (pairFar e.out.length))
  simp only [if_true] at hwr
  rw [hwr]
  simp only [ok_bind]
  have hlen := padEven_header_length he 0x70 hn (els.any (pairFar e.out.length))
  have hge : e.out.length ≤ (padEven (e.out ++ headerBytes 0x70 els.length (els.any (pairFar e.out.length)))).length := by
    rw [padEven_length]; simp; omega
  have hb' : ∀ el ∈ c.sort.run els, el.key.Bounded e.out.length ∧ el.val.Bounded e.out.length :=
    fun el hel => hb el (hperm.mem_iff.mp hel)
  rw [Nat.mod_eq_of_lt (a := (padEven _).length) (by omega),
    fixDict_eq c.dbg _ (fun v hv => ⟨(hb' v hv).1.mono hge, (hb' v hv).2.mono hge⟩) (by omega)]
  simp only [ok_bind]
  rw [writePairs_eq c _ (n := SizedValue.maxWide) (Nat.le_refl _) _ _ (padEven_even _)
    (relDict_bounded _ (fun v hv => (hb' v hv).1.mono hge) (by omega))]
  simp only [Enc.done, ok_bind]
  rw [Nat.mod_eq_of_lt (by omega)]
  simp only [dictOut, hplen]

end Enc
end Fleece
