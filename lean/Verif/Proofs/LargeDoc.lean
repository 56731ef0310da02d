import Verif.Proofs.SmallDoc
import Verif.Spec.Layout

/-! # In roomy documents every collection fits its width -/

namespace Fleece
open Res

variable {P : List UInt8 → Prop}

/-! ## Sums -/

theorem lows_append (sh : Bool) (xs ys : List Tree) : Tree.lows sh (xs ++ ys) = Tree.lows sh xs + Tree.lows sh ys := by
  induction xs with
  | nil => simp [Tree.lows]
  | cons x xs ih => simp only [List.cons_append, Tree.lows, ih]; omega

theorem highs_append (xs ys : List Tree) : Tree.highs (xs ++ ys) = Tree.highs xs + Tree.highs ys := by
  induction xs with
  | nil => simp [Tree.highs]
  | cons x xs ih => simp only [List.cons_append, Tree.highs, ih]; omega

theorem entryLows_append (sh : Bool) (xs ys : List (List UInt8 × Tree)) :
    Tree.entryLows sh (xs ++ ys) = Tree.entryLows sh xs + Tree.entryLows sh ys := by
  induction xs with
  | nil => simp [Tree.entryLows]
  | cons x xs ih => simp only [List.cons_append, Tree.entryLows, ih]; omega

theorem entryHighs_append (xs ys : List (List UInt8 × Tree)) :
    Tree.entryHighs (xs ++ ys) = Tree.entryHighs xs + Tree.entryHighs ys := by
  induction xs with
  | nil => simp [Tree.entryHighs]
  | cons x xs ih => simp only [List.cons_append, Tree.entryHighs, ih]; omega

theorem high_le_highs {xs : List Tree} {x : Tree} (h : x ∈ xs) : x.high ≤ Tree.highs xs := by
  induction xs with
  | nil => cases h
  | cons y ys ih =>
    simp only [Tree.highs]
    rcases List.mem_cons.mp h with rfl | h
    · omega
    · have := ih h; omega

theorem keyLow_le (sh : Bool) (k : List UInt8) : keyLow sh k ≤ k.length := by unfold keyLow; split <;> omega

/-! ## Lower bounds on what is written -/

theorem slotBytes_length_ge (wide : Bool) (s : SizedValue) : 2 ≤ (slotBytes wide s).length := by
  unfold slotBytes
  split
  · rw [ptrBytes_length]; split <;> omega
  · cases wide <;> simp [SizedValue.bytes]

theorem flatten_ge (l : List (List UInt8)) (n : Nat) (h : ∀ x ∈ l, n ≤ x.length) : n * l.length ≤ l.flatten.length := by
  induction l with
  | nil => simp
  | cons a l ih =>
    have h1 := ih fun x hx => h x (List.mem_cons_of_mem _ hx)
    have h2 := h a (by simp)
    simp only [List.flatten_cons, List.length_append, List.length_cons, Nat.mul_succ]
    omega

theorem arrOut_ge {out : List UInt8} (he : out.length % 2 = 0) (vs : List SizedValue) (hn : vs.length < 2 ^ 64) :
    out.length + 2 + 2 * vs.length ≤ (Enc.arrOut out vs).length := by
  have h1 := padHeader_length he 0x60 hn (vs.any (Enc.slotFar out.length))
  have h2 := hdrLen_ge vs.length
  have h4 := flatten_ge ((Enc.relArray (vs.any (Enc.slotFar out.length))
    (padEven (out ++ headerBytes 0x60 vs.length (vs.any (Enc.slotFar out.length)))).length vs).map
    (slotBytes (vs.any (Enc.slotFar out.length)))) 2 (by
      intro x hx
      obtain ⟨s, _, rfl⟩ := List.mem_map.mp hx
      exact slotBytes_length_ge _ _)
  rw [List.length_map, Enc.relArray_length] at h4
  simp only [Enc.arrOut, List.length_append]
  omega

theorem dictOut_ge {out : List UInt8} (he : out.length % 2 = 0) (w : Bool) (els : List DictElem) (hn : els.length < 2 ^ 64) :
    out.length + 2 + 4 * els.length ≤ (Enc.dictOut out w els).length := by
  have h1 := padHeader_length he 0x70 hn w
  have h2 := hdrLen_ge els.length
  have h4 := flatten_ge ((Enc.relDict w (padEven (out ++ headerBytes 0x70 els.length w)).length els).map
    fun el => slotBytes w (Enc.keySlotVal el.key) ++ slotBytes w el.val) 4 (by
      intro x hx
      obtain ⟨s, _, rfl⟩ := List.mem_map.mp hx
      have := slotBytes_length_ge w s.val
      have := slotBytes_length_ge w (Enc.keySlotVal s.key)
      simp only [List.length_append]
      omega)
  rw [List.length_map, relDict_length] at h4
  simp only [Enc.dictOut, Enc.pairsBytes, List.length_append]
  omega

theorem dataSize_ge {n : Nat} : n ≤ dataSize n := by
  unfold dataSize; split
  · omega
  · split <;> omega

theorem Scalar.size_pos (x : Scalar) : 0 < x.size := by
  have h1 : ∀ n, 0 < u64Size n := by intro n; unfold u64Size; split <;> omega
  have h2 : ∀ n, 0 < dataSize n := by
    intro n; unfold dataSize; split
    · omega
    · split <;> omega
  cases x <;> simp only [Scalar.size] <;> first | exact h1 _ | exact h2 _ | omega

/-- What a surviving scalar takes. -/
theorem Scalar.bounds (sh : Bool) (F : FloatOps) {x : Scalar} (hx : x.Survives) :
    (x.toSized = none → (x.tree F).low sh ≤ x.size ∧ x.size + x.size % 2 ≤ (x.tree F).high ∧
      (x.tree F).rear sh = (x.tree F).low sh) ∧
    (x.toSized ≠ none → (x.tree F).low sh = 0 ∧ ¬ (x.tree F).Apart) ∧
    ((x.tree F).Tiny ↔ x.Tiny) := by
  have hi : ∀ n : Int, ShortRange n → i16Sized n ≠ none := by
    intro n h
    obtain ⟨b0, b1, h, _⟩ := i16Sized_ok h
    rw [h]; simp
  have hu : ∀ n : Nat, n ≤ 2047 → u16Sized n ≠ none := by
    intro n h
    obtain ⟨b0, b1, h, _⟩ := u16Sized_ok h
    rw [h]; simp
  cases x with
  | i8 n => exact ⟨fun h => absurd h (hi _ (shortRange_i8 n)), fun _ => ⟨rfl, fun h => h⟩, Iff.rfl⟩
  | i16 n => exact ⟨fun h => absurd h (hi _ hx), fun _ => ⟨rfl, fun h => h⟩, Iff.rfl⟩
  | i32 n =>
    refine ⟨fun h => absurd h ?_, fun _ => ⟨rfl, fun h => h⟩, Iff.rfl⟩
    simp only [Scalar.toSized, i64Sized_eq, bmod16_of_short hx]
    exact hi _ hx
  | i64 n =>
    refine ⟨fun h => absurd h ?_, fun _ => ⟨rfl, fun h => h⟩, Iff.rfl⟩
    simp only [Scalar.toSized, i64Sized_eq, bmod16_of_short hx]
    exact hi _ hx
  | u8 n => exact ⟨fun h => absurd h (hu _ (by have := n.toNat_lt; omega)), fun _ => ⟨rfl, fun h => h⟩, Iff.rfl⟩
  | u16 n => exact ⟨fun h => absurd h (hu _ hx), fun _ => ⟨rfl, fun h => h⟩, Iff.rfl⟩
  | u32 n =>
    refine ⟨fun h => ?_, fun _ => ⟨rfl, fun h => h⟩, Iff.rfl⟩
    simp only [Scalar.toSized] at h
    split at h
    · next hle => exact absurd h (hu _ hle)
    · next hgt =>
      have := u64Size_le n.toNat
      refine ⟨Nat.zero_le _, ?_, rfl⟩
      simp only [Scalar.size, Scalar.tree, Tree.high]
      rw [if_neg (by omega)]
      omega
  | u64 n =>
    refine ⟨fun h => ?_, fun _ => ⟨rfl, fun h => h⟩, Iff.rfl⟩
    simp only [Scalar.toSized] at h
    split at h
    · next hle => exact absurd h (hu _ hle)
    · next hgt =>
      have := u64Size_le n.toNat
      refine ⟨Nat.zero_le _, ?_, rfl⟩
      simp only [Scalar.size, Scalar.tree, Tree.high]
      rw [if_neg (by omega)]
      omega
  | f32 b => exact ⟨fun _ => ⟨Nat.zero_le _, by simp [Scalar.size, Scalar.tree, Tree.high], rfl⟩, fun h => absurd rfl h, Iff.rfl⟩
  | f64 b => exact ⟨fun _ => ⟨Nat.zero_le _, by simp [Scalar.size, Scalar.tree, Tree.high], rfl⟩, fun h => absurd rfl h, Iff.rfl⟩
  | bool b => exact ⟨(fun h => by cases h), fun _ => ⟨rfl, fun h => h⟩, Iff.rfl⟩
  | null => exact ⟨(fun h => by cases h), fun _ => ⟨rfl, fun h => h⟩, Iff.rfl⟩
  | undefined => exact ⟨(fun h => by cases h), fun _ => ⟨rfl, fun h => h⟩, Iff.rfl⟩
  | str s =>
    have hds := dataSize_le (n := s.bytes.length) (by simp only [Scalar.Survives] at hx; omega)
    have hdg := dataSize_ge (n := s.bytes.length)
    refine ⟨fun h => ?_, fun h => ?_, Iff.rfl⟩
    · have h2 := dataSized_none.mp h
      refine ⟨?_, ?_, rfl⟩
      · simp only [Scalar.size, Scalar.tree, Tree.low]
        rw [if_neg (by omega)]
        omega
      · simp only [Scalar.size, Scalar.tree, Tree.high]
        rw [if_neg (by omega)]
        omega
    · have h2 : ¬ 2 ≤ s.bytes.length := fun h2 => h (dataSized_none.mpr h2)
      simp only [Scalar.tree, Tree.low, Tree.Apart]
      rw [if_pos (by omega)]
      exact ⟨rfl, h2⟩
  | data s =>
    have hds := dataSize_le (n := s.length) (by simp only [Scalar.Survives] at hx; omega)
    have hdg := dataSize_ge (n := s.length)
    refine ⟨fun h => ?_, fun h => ?_, Iff.rfl⟩
    · have h2 := dataSized_none.mp h
      refine ⟨?_, ?_, rfl⟩
      · simp only [Scalar.size, Scalar.tree, Tree.low]
        rw [if_neg (by omega)]
        omega
      · simp only [Scalar.size, Scalar.tree, Tree.high]
        rw [if_neg (by omega)]
        omega
    · have h2 : ¬ 2 ≤ s.length := fun h2 => h (dataSized_none.mpr h2)
      simp only [Scalar.tree, Tree.low, Tree.Apart]
      rw [if_pos (by omega)]
      exact ⟨rfl, h2⟩

/-! ## Where the contents of open collections lie -/

/-- A slot of an open collection whose contents begin at `s`, the output ending at `n`, with at least `after` bytes of
later contents. -/
def SlotLaid (sh : Bool) (s n after : Nat) (v : SizedValue) (x : Tree) : Prop :=
  (v.type = .pointer → s ≤ v.pointerOffset ∧ 0 < x.high) ∧
  (x.Apart → v.type = .pointer ∧ v.pointerOffset + x.rear sh + after ≤ n) ∧
  (v.type ≠ .pointer → ¬ x.Tiny → v.b0.toNat < 64)

def KeyLaid (sh : Bool) (lo : Nat) : DictKey → List UInt8 → Prop
  | .inline _, k => k.length < 2
  | .shared _, _ => sh = true
  | .pointer _ off, _ => lo ≤ off

def pendingLow (sh : Bool) : Option (List UInt8) → Nat
  | none => 0
  | some k => keyLow sh k

def pendingHigh : Option (List UInt8) → Nat
  | none => 0
  | some k => 12 + k.length

/-- The contents of an open collection lie between `s` and `n`. -/
def LaidFrame (sh : Bool) (n s : Nat) : Collection → Frame → Prop
  | .arr vs, .arr xs => s + Tree.lows sh xs ≤ n ∧ n ≤ s + Tree.highs xs ∧ vs.length = xs.length ∧
      ∀ (i : Nat) v x, vs[i]? = some v → xs[i]? = some x → SlotLaid sh s n (Tree.lows sh (xs.drop (i + 1))) v x
  | .dict els nk, .dict kvs q => s + Tree.entryLows sh kvs + pendingLow sh q ≤ n ∧
      n ≤ s + Tree.entryHighs kvs + pendingHigh q ∧ els.length = kvs.length ∧
      (∀ (i : Nat) el e, els[i]? = some el → kvs[i]? = some e →
        KeyLaid sh (s + Tree.entryLows sh (kvs.take i)) el.key e.1 ∧
        SlotLaid sh s n (Tree.entryLows sh (kvs.drop (i + 1)) + pendingLow sh q) el.val e.2) ∧
      ∀ dk k, nk = some dk → q = some k → KeyLaid sh (s + Tree.entryLows sh kvs) dk k
  | _, _ => False

/-- The same for all open collections: the contents of each end where those of the next begin. -/
def LaidStack (sh : Bool) : Nat → List Collection → List Frame → Prop
  | _, [], [] => True
  | n, c :: cs, f :: fs => ∃ s, LaidFrame sh n s c f ∧ LaidStack sh s cs fs
  | _, _, _ => False

theorem SlotLaid.grow {sh : Bool} {s n after : Nat} {v : SizedValue} {x : Tree} (h : SlotLaid sh s n after v x) {n' after' : Nat}
    (hg : after' + n ≤ after + n') : SlotLaid sh s n' after' v x :=
  ⟨h.1, fun ha => ⟨(h.2.1 ha).1, by have := (h.2.1 ha).2; omega⟩, h.2.2⟩

/-- A value is added. -/
theorem LaidFrame.put {sh : Bool} {n s n' : Nat} {coll : Collection} {f : Frame} (h : LaidFrame sh n s coll f) {v : SizedValue}
    {x : Tree} (hlo : n + x.low sh ≤ n') (hhi : n' ≤ n + x.high) (hv : SlotLaid sh s n' 0 v x)
    (hc : ∀ els, coll ≠ .dict els none) :
    match f with
    | .arr xs => LaidFrame sh n' s (coll.put v) (.arr (xs ++ [x]))
    | .dict kvs (some k) => (∃ els dk, coll = .dict els (some dk)) →
        LaidFrame sh n' s (coll.put v) (.dict (kvs ++ [(k, x)]) none)
    | .dict _ none => True := by
  cases coll with
  | arr vs =>
    cases f with
    | dict kvs q =>
      cases h
    | arr xs =>
      obtain ⟨h1, h2, h3, h4⟩ := h
      refine ⟨?_, ?_, by simp [h3], ?_⟩
      · rw [lows_append]; simp only [Tree.lows]; omega
      · rw [highs_append]; simp only [Tree.highs]; omega
      · intro i v' x' hv' hx'
        rcases Nat.lt_or_ge i xs.length with hi | hi
        · rw [List.getElem?_append_left (by omega)] at hv'
          rw [List.getElem?_append_left hi] at hx'
          refine (h4 i v' x' hv' hx').grow ?_
          rw [List.drop_append_of_le_length (by omega), lows_append]
          simp only [Tree.lows]; omega
        · rw [List.getElem?_append_right (by omega)] at hv'
          rw [List.getElem?_append_right hi] at hx'
          have hz : i - xs.length = 0 := by
            rcases Nat.eq_zero_or_pos (i - xs.length) with hz | hz
            · exact hz
            · rw [List.getElem?_eq_none (by simp; omega)] at hx'; cases hx'
          rw [hz] at hx'
          rw [h3, hz] at hv'
          cases hx'; cases hv'
          rw [List.drop_eq_nil_of_le (by simp; omega)]
          exact hv
  | dict els nk =>
    cases f with
    | arr xs => cases nk <;> cases h
    | dict kvs q =>
      cases q with
      | none => trivial
      | some k =>
        rintro ⟨els', dk, heq⟩
        cases heq
        obtain ⟨h1, h2, h3, h4, h5⟩ := h
        simp only [pendingLow, pendingHigh] at h1 h2 h4
        have hk := h5 dk k rfl rfl
        refine ⟨?_, ?_, by simp [h3], ?_, fun _ _ h => by cases h⟩
        · rw [entryLows_append]; simp only [Tree.entryLows, pendingLow]; omega
        · rw [entryHighs_append]; simp only [Tree.entryHighs, pendingHigh]; omega
        · intro i el e hel he
          rcases Nat.lt_or_ge i kvs.length with hi | hi
          · rw [List.getElem?_append_left (by omega)] at hel
            rw [List.getElem?_append_left hi] at he
            obtain ⟨g1, g2⟩ := h4 i el e hel he
            rw [List.take_append_of_le_length (by omega)]
            refine ⟨g1, g2.grow ?_⟩
            rw [List.drop_append_of_le_length (by omega), entryLows_append]
            simp only [Tree.entryLows, pendingLow]; omega
          · rw [List.getElem?_append_right (by omega)] at hel
            rw [List.getElem?_append_right hi] at he
            have hz : i - kvs.length = 0 := by
              rcases Nat.eq_zero_or_pos (i - kvs.length) with hz | hz
              · exact hz
              · rw [List.getElem?_eq_none (by simp; omega)] at he; cases he
            rw [hz] at he
            rw [h3, hz] at hel
            cases he; cases hel
            rw [List.drop_eq_nil_of_le (by simp; omega), show i = kvs.length by omega,
              List.take_append_of_le_length (Nat.le_refl _), List.take_length]
            exact ⟨hk, hv⟩

/-- A key is added. -/
theorem LaidFrame.key {sh : Bool} {n s n' : Nat} {els : List DictElem} {kvs : List (List UInt8 × Tree)}
    (h : LaidFrame sh n s (.dict els none) (.dict kvs none)) {dk : DictKey} {k : List UInt8} (hlo : n + keyLow sh k ≤ n')
    (hhi : n' ≤ n + 12 + k.length) (hk : KeyLaid sh n dk k) : LaidFrame sh n' s (.dict els (some dk)) (.dict kvs (some k)) := by
  obtain ⟨h1, h2, h3, h4, _⟩ := h
  simp only [pendingLow, pendingHigh] at h1 h2 h4
  refine ⟨by simp only [pendingLow]; omega, by simp only [pendingHigh]; omega, h3, ?_, ?_⟩
  · intro i el e hel he
    obtain ⟨g1, g2⟩ := h4 i el e hel he
    exact ⟨g1, g2.grow (by simp only [pendingLow]; omega)⟩
  · intro dk' k' e1 e2
    cases e1; cases e2
    cases dk with
    | inline s => exact hk
    | shared c => exact hk
    | pointer a off => simp only [KeyLaid] at hk ⊢; omega

theorem LaidStack.cons {sh : Bool} {n : Nat} {c : Collection} {cs : List Collection} {fs : List Frame}
    (h : LaidStack sh n (c :: cs) fs) : ∃ f fs' s, fs = f :: fs' ∧ LaidFrame sh n s c f ∧ LaidStack sh s cs fs' := by
  cases fs with
  | nil => cases h
  | cons f fs' => obtain ⟨s, h1, h2⟩ := h; exact ⟨f, fs', s, rfl, h1, h2⟩

/-- A value is added to the innermost collection. -/
theorem LaidStack.put {sh : Bool} {n n' : Nat} {coll : Collection} {rest : List Collection} {fs : List Frame}
    (h : LaidStack sh n (coll :: rest) fs) {v : SizedValue} {x : Tree} (hlo : n + x.low sh ≤ n') (hhi : n' ≤ n + x.high)
    (hp : v.type = .pointer → n ≤ v.pointerOffset ∧ 0 < x.high)
    (ha : x.Apart → v.type = .pointer ∧ v.pointerOffset + x.rear sh ≤ n')
    (ht : v.type ≠ .pointer → ¬ x.Tiny → v.b0.toNat < 64)
    (hc : ∀ els, coll ≠ .dict els none) {f : Frame} {fs' : List Frame} (hfs : fs = f :: fs') (hkind : coll.kind = f.kind) :
    LaidStack sh n' (coll.put v :: rest) (Build.close fs x).stack := by
  obtain ⟨f', fs'', s, h1, h2, h3⟩ := h.cons
  rw [hfs] at h1; cases h1
  have hsn : s ≤ n := by
    cases coll with
    | arr vs => obtain ⟨xs, rfl⟩ := kind_arr hkind; have := h2.1; omega
    | dict els nk =>
      cases f with
      | arr xs => cases nk <;> cases h2
      | dict kvs q => have := h2.1; omega
  have hv : SlotLaid sh s n' 0 v x :=
    ⟨fun h => ⟨by have := (hp h).1; omega, (hp h).2⟩, fun h => ⟨(ha h).1, by have := (ha h).2; omega⟩, ht⟩
  have hput := h2.put hlo hhi hv hc
  rw [hfs]
  cases f with
  | arr xs => exact ⟨s, hput, h3⟩
  | dict kvs q =>
    cases q with
    | some k =>
      refine ⟨s, hput ?_, h3⟩
      cases coll with
      | arr vs => cases hkind
      | dict els nk => cases nk with
        | none => exact absurd rfl (hc els)
        | some dk => exact ⟨els, dk, rfl⟩
    | none =>
      cases coll with
      | arr vs => cases hkind
      | dict els nk => cases nk with
        | none => exact absurd rfl (hc els)
        | some dk => cases hkind

/-! ## Fitting -/

theorem narrowReach_eq : narrowReach = SizedValue.maxNarrow := by decide

theorem LaidFrame.arrFits {sh : Bool} {out : List UInt8} {s : Nat} {vs : List SizedValue} {xs : List Tree}
    (h : LaidFrame sh out.length s (.arr vs) (.arr xs)) (hn : vs.length < 2 ^ 64) (hr : (Tree.arr xs).Roomy sh) : ArrFits out vs := by
  obtain ⟨h1, h2, h3, h4⟩ := h
  cases hr with
  | leaf na nd => exact absurd rfl (na xs)
  | arr width of =>
    intro hnar i v hv
    have hh := hdrLen_le hn
    have hi : i < vs.length := (List.getElem?_eq_some_iff.mp hv).1
    rcases width with ⟨j, x, hx, hap, hfar⟩ | ⟨hcomp, htiny⟩
    · have hj : j < vs.length := by have := (List.getElem?_eq_some_iff.mp hx).1; omega
      obtain ⟨g1, g2⟩ := (h4 j vs[j] x (List.getElem?_eq_getElem hj) hx).2.1 hap
      exfalso
      have hany : vs.any (Enc.slotFar out.length) = true := by
        refine List.any_eq_true.mpr ⟨vs[j], List.getElem_mem hj, ?_⟩
        unfold Enc.slotFar
        rw [narrowReach_eq] at hfar
        simp only [g1, decide_true, Bool.true_and, decide_eq_true_eq]
        omega
      rw [hany] at hnar; cases hnar
    · have hx : xs[i]? = some xs[i] := List.getElem?_eq_getElem (by omega)
      have hmem : xs[i] ∈ xs := List.getElem_mem (by omega)
      obtain ⟨g1, _, g3⟩ := h4 i v _ hv hx
      refine ⟨fun hn => g3 hn (htiny _ hmem), fun hp => ?_⟩
      obtain ⟨k1, k2⟩ := g1 hp
      have := high_le_highs hmem
      rw [← narrowReach_eq]
      rcases hcomp with h0 | hle
      · omega
      · omega

theorem LaidFrame.dictFits {sh : Bool} {c : Cfg} {out : List UInt8} {s : Nat} {els : List DictElem} {nk : Option DictKey}
    {kvs : List (List UInt8 × Tree)}
    (h : LaidFrame sh out.length s (.dict els nk) (.dict kvs none)) (hn : els.length < 2 ^ 64) (hr : (Tree.dict kvs).Roomy sh) :
    DictFits out (els.any (Enc.pairFar out.length)) (c.sort.run els) := by
  obtain ⟨h1, h2, h3, h4, _⟩ := h
  simp only [pendingLow, pendingHigh] at h1 h2 h4
  have hperm := c.sort.perm els
  have hlen := hperm.length_eq
  cases hr with
  | leaf na nd => exact absurd rfl (nd kvs)
  | dict width of =>
    intro hnar i el hel
    have hi : i < (c.sort.run els).length := (List.getElem?_eq_some_iff.mp hel).1
    have hh := hdrLen_le (n := (c.sort.run els).length) (by omega)
    have hmem : el ∈ els := hperm.mem_iff.mp (List.mem_of_getElem? hel)
    have hwide : ∀ el ∈ els, Enc.pairFar out.length el = true → False := by
      intro el hel hf
      rw [List.any_eq_true.mpr ⟨el, hel, hf⟩] at hnar; cases hnar
    rcases width with (⟨j, e, he, hap, hfar⟩ | ⟨hsh, j, e, he, hlong, hfar⟩) | ⟨hcomp, htiny⟩
    · have hj : j < els.length := by have := (List.getElem?_eq_some_iff.mp he).1; omega
      obtain ⟨g1, g2⟩ := (h4 j els[j] e (List.getElem?_eq_getElem hj) he).2.2.1 hap
      refine absurd ?_ (hwide els[j] (List.getElem_mem hj))
      unfold Enc.pairFar Enc.slotFar
      rw [narrowReach_eq] at hfar
      simp only [g1, decide_true, Bool.true_and, Bool.or_eq_true, decide_eq_true_eq]
      right; omega
    · have hj : j < els.length := by have := (List.getElem?_eq_some_iff.mp he).1; omega
      have hk := (h4 j els[j] e (List.getElem?_eq_getElem hj) he).1
      refine absurd ?_ (hwide els[j] (List.getElem_mem hj))
      unfold Enc.pairFar
      rw [narrowReach_eq] at hfar
      cases hkey : els[j].key with
      | inline s => rw [hkey] at hk; simp only [KeyLaid] at hk; omega
      | shared q => rw [hkey] at hk; simp only [KeyLaid] at hk; rw [hsh] at hk; cases hk
      | pointer a off =>
        rw [hkey] at hk; simp only [KeyLaid] at hk
        simp only [Bool.or_eq_true, decide_eq_true_eq]
        left; omega
    · obtain ⟨j, hj, hje⟩ := List.mem_iff_getElem.mp hmem
      have hx : kvs[j]? = some kvs[j] := List.getElem?_eq_getElem (by omega)
      obtain ⟨g1, g2, _, g3⟩ := h4 j el kvs[j] (by rw [List.getElem?_eq_getElem hj, hje]) hx
      obtain ⟨t1, t2⟩ := htiny kvs[j] (List.getElem_mem (by omega))
      unfold dictCompact at hcomp
      rw [narrowReach_eq] at hcomp
      refine ⟨?_, fun hn => g3 hn t2, fun hp => by have := (g2 hp).1; omega⟩
      unfold DictKey.FitsNarrow
      cases hkey : el.key with
      | inline s => rw [hkey] at g1; simp only [KeyLaid] at g1; omega
      | shared q => trivial
      | pointer a off => rw [hkey] at g1; simp only [KeyLaid] at g1; simp only; omega

/-! ## Closing -/

theorem closeEnc_laid {sh : Bool} {e : Enc} {fs : List Frame} {n0 o : Nat} {x : Tree} (h : LaidStack sh n0 e.stack fs)
    (hkind : e.stack.map Collection.kind = fs.map Frame.kind) (hd : ∀ els r, e.stack ≠ .dict els none :: r)
    (hlo : n0 + x.low sh ≤ e.out.length) (hhi : e.out.length ≤ n0 + x.high) (ho : n0 ≤ o) (ho' : o ≤ SizedValue.maxWide)
    (hx : 0 < x.high) (hr : o + x.rear sh ≤ e.out.length) :
    LaidStack sh (e.closeEnc o).out.length (e.closeEnc o).stack (Build.close fs x).stack := by
  unfold Enc.closeEnc
  cases hs : e.stack with
  | nil =>
    rw [hs] at hkind
    have : fs = [] := by simpa using hkind.symm
    subst this
    exact True.intro
  | cons coll rest =>
    rw [hs] at h hkind hd
    cases fs with
    | nil => cases h
    | cons f fs' =>
      obtain ⟨_, p2, p3⟩ := ptrSlot_spec ho'
      simp only [List.map_cons, List.cons.injEq] at hkind
      exact h.put hlo hhi (fun _ => ⟨by omega, hx⟩) (fun _ => ⟨p2, by rw [p3]; exact hr⟩) (fun hn => absurd p2 hn)
        (fun els heq => hd els rest (by rw [heq])) rfl hkind.1

/-! ## The document in the making -/

def Frame.Waiting : Frame → Prop
  | .dict _ none => True
  | _ => False

/-- Only the innermost collection may wait for a key; a complete document leaves nothing open. -/
structure Build.Ordered (b : Build) : Prop where
  root : b.root.isSome → b.stack = []
  inner : ∀ f fs, b.stack = f :: fs → ∀ g ∈ fs, ¬ g.Waiting

def Frame.Roomy (sh : Bool) : Frame → Prop
  | .arr xs => ∀ x ∈ xs, x.Roomy sh
  | .dict kvs _ => ∀ e ∈ kvs, e.2.Roomy sh

/-- Everything complete so far is roomy. -/
structure Build.Roomy (sh : Bool) (b : Build) : Prop where
  frames : ∀ f ∈ b.stack, f.Roomy sh
  root : ∀ t, b.root = some t → t.Roomy sh

theorem Build.Ordered.noRoot {b : Build} (h : b.Ordered) {f : Frame} {fs : List Frame} (hs : b.stack = f :: fs) : b.root = none := by
  cases hr : b.root with
  | none => rfl
  | some t => rw [h.root (by rw [hr]; rfl)] at hs; cases hs

theorem Build.close_ordered {rest : List Frame} (t : Tree) (h : ∀ g ∈ rest, ¬ g.Waiting) : (Build.close rest t).Ordered := by
  match rest with
  | [] => exact ⟨fun _ => rfl, fun f fs hs => by cases hs⟩
  | .arr xs :: rest =>
    exact ⟨fun h => (by cases h), fun f fs hs g hg => by cases hs; exact h g (List.mem_cons_of_mem _ hg)⟩
  | .dict kvs (some k) :: rest =>
    exact ⟨fun h => (by cases h), fun f fs hs g hg => by cases hs; exact h g (List.mem_cons_of_mem _ hg)⟩
  | .dict kvs none :: rest => exact absurd True.intro (h (.dict kvs none) (by simp))

theorem Build.close_roomy {sh : Bool} {rest : List Frame} {t : Tree} (h : ∀ g ∈ rest, ¬ g.Waiting)
    (hr : (Build.close rest t).Roomy sh) : t.Roomy sh ∧ ∀ f ∈ rest, f.Roomy sh := by
  match rest with
  | [] => exact ⟨hr.root t rfl, fun f hf => by cases hf⟩
  | .arr xs :: rest =>
    have h0 := hr.frames (.arr (xs ++ [t])) (by simp [Build.close])
    refine ⟨h0 t (by simp), fun f hf => ?_⟩
    rcases List.mem_cons.mp hf with rfl | hf
    · exact fun x hx => h0 x (by simp [hx])
    · exact hr.frames f (by simp [Build.close, hf])
  | .dict kvs (some k) :: rest =>
    have h0 := hr.frames (.dict (kvs ++ [(k, t)]) none) (by simp [Build.close])
    refine ⟨h0 (k, t) (by simp), fun f hf => ?_⟩
    rcases List.mem_cons.mp hf with rfl | hf
    · exact fun x hx => h0 x (by simp [hx])
    · exact hr.frames f (by simp [Build.close, hf])
  | .dict kvs none :: rest => exact absurd True.intro (h (.dict kvs none) (by simp))

/-- What a successful call does, read backwards. -/
theorem Build.step_back (sh : Bool) {F : FloatOps} {b b' : Build} (ho : b.Ordered) {op : Op} (h : b.step F op = .ok b') :
    b'.Ordered ∧ (b'.Roomy sh → b.Roomy sh ∧
      (op = .endArray → ∀ xs rest, b.stack = .arr xs :: rest → (Tree.arr xs).Roomy sh) ∧
      (op = .endDict → ∀ kvs q rest, b.stack = .dict kvs q :: rest → (Tree.dict kvs).Roomy sh)) := by
  have hopen : ∀ (f : Frame) (x : EncodeError), ¬ (∃ k, op = .key k) → op ≠ .endArray → op ≠ .endDict →
      b.open f x = .ok b' → b'.Ordered ∧ (b'.Roomy sh → b.Roomy sh ∧
      (op = .endArray → ∀ xs rest, b.stack = .arr xs :: rest → (Tree.arr xs).Roomy sh) ∧
      (op = .endDict → ∀ kvs q rest, b.stack = .dict kvs q :: rest → (Tree.dict kvs).Roomy sh)) := by
    intro f x _ n1 n2 h
    unfold Build.open at h
    split at h
    · cases h
    · next hr =>
      split at h
      · cases h
      · next hw =>
        cases h
        refine ⟨⟨fun h => absurd h hr, fun g gs hs k hk => ?_⟩, fun hb => ⟨⟨fun g hg => hb.frames g (by simp [hg]), hb.root⟩,
          fun h => absurd h n1, fun h => absurd h n2⟩⟩
        simp only [List.cons.injEq] at hs
        obtain ⟨_, rfl⟩ := hs
        cases hst : b.stack with
        | nil => rw [hst] at hk; cases hk
        | cons g gs =>
          rw [hst] at hk
          rcases List.mem_cons.mp hk with rfl | hk
          · intro hwt
            match k, hwt with
            | .dict kvs none, _ => exact hw kvs gs hst
          · exact ho.inner g gs hst k hk
  cases op with
  | beginArray n => exact hopen _ _ (by rintro ⟨_, h⟩; cases h) (by simp) (by simp) h
  | beginDict => exact hopen _ _ (by rintro ⟨_, h⟩; cases h) (by simp) (by simp) h
  | key k =>
    simp only [Build.step] at h
    split at h
    · next kvs rest hs =>
      cases h
      refine ⟨⟨fun h => ?_, fun f fs hf g hg => ?_⟩, fun hb => ⟨⟨fun f hf => ?_, hb.root⟩, fun h => (by cases h), fun h => by cases h⟩⟩
      · rw [ho.noRoot hs] at h; cases h
      · cases hf; exact ho.inner _ _ hs g hg
      · rw [hs] at hf
        rcases List.mem_cons.mp hf with rfl | hf
        · exact hb.frames (.dict kvs (some k.bytes)) (by simp)
        · exact hb.frames f (by simp [hf])
    · cases h
    · cases h
  | value x =>
    simp only [Build.step, Build.put] at h
    split at h
    · cases h
    · next xs rest hs =>
      cases h
      refine ⟨⟨fun h => ?_, fun f fs hf g hg => ?_⟩, fun hb => ⟨⟨fun f hf => ?_, hb.root⟩, fun h => (by cases h), fun h => by cases h⟩⟩
      · rw [ho.noRoot hs] at h; cases h
      · cases hf; exact ho.inner _ _ hs g hg
      · rw [hs] at hf
        rcases List.mem_cons.mp hf with rfl | hf
        · exact fun y hy => hb.frames (.arr (xs ++ [x.tree F])) (by simp) y (by simp [hy])
        · exact hb.frames f (by simp [hf])
    · next kvs k rest hs =>
      cases h
      refine ⟨⟨fun h => ?_, fun f fs hf g hg => ?_⟩, fun hb => ⟨⟨fun f hf => ?_, hb.root⟩, fun h => (by cases h), fun h => by cases h⟩⟩
      · rw [ho.noRoot hs] at h; cases h
      · cases hf; exact ho.inner _ _ hs g hg
      · rw [hs] at hf
        rcases List.mem_cons.mp hf with rfl | hf
        · exact fun y hy => hb.frames (.dict (kvs ++ [(k, x.tree F)]) none) (by simp) y (by simp [hy])
        · exact hb.frames f (by simp [hf])
    · cases h
  | endArray =>
    simp only [Build.step] at h
    split at h
    · next xs rest hs =>
      cases h
      have hin := ho.inner _ _ hs
      refine ⟨Build.close_ordered _ hin, fun hb => ?_⟩
      obtain ⟨h1, h2⟩ := Build.close_roomy hin hb
      refine ⟨⟨fun f hf => ?_, fun t ht => ?_⟩, fun _ xs' rest' hs' => ?_, fun h => by cases h⟩
      · rw [hs] at hf
        rcases List.mem_cons.mp hf with rfl | hf
        · cases h1 with
          | leaf na nd => exact absurd rfl (na xs)
          | arr w of => exact of
        · exact h2 f hf
      · rw [ho.noRoot hs] at ht; cases ht
      · rw [hs] at hs'; cases hs'; exact h1
    · cases h
  | endDict =>
    simp only [Build.step] at h
    split at h
    · next xs rest hs =>
      cases h
      have hin := ho.inner _ _ hs
      refine ⟨Build.close_ordered _ hin, fun hb => ?_⟩
      obtain ⟨h1, h2⟩ := Build.close_roomy hin hb
      refine ⟨⟨fun f hf => ?_, fun t ht => ?_⟩, fun h => (by cases h), fun _ xs' q rest' hs' => ?_⟩
      · rw [hs] at hf
        rcases List.mem_cons.mp hf with rfl | hf
        · cases h1 with
          | leaf na nd => exact absurd rfl (nd xs)
          | dict w of => exact of
        · exact h2 f hf
      · rw [ho.noRoot hs] at ht; cases ht
      · rw [hs] at hs'; cases hs'; exact h1
    · cases h
    · cases h

theorem Build.run_back (sh : Bool) {F : FloatOps} (ops : List Op) : ∀ {b : Build}, b.Ordered →
    (Build.run F b ops).1.Ordered ∧ ((Build.run F b ops).1.Roomy sh → b.Roomy sh) := by
  induction ops with
  | nil => intro b h; exact ⟨h, fun h => h⟩
  | cons op ops ih =>
    intro b ho
    simp only [Build.run]
    cases hst : b.step F op with
    | error x =>
      have : b.next F op = (b, .error x) := by unfold Build.next; rw [hst]
      rw [this]
      exact ih ho
    | ok b' =>
      have : b.next F op = (b', .ok ()) := by unfold Build.next; rw [hst]
      rw [this]
      obtain ⟨h1, h2⟩ := Build.step_back sh ho hst
      obtain ⟨h3, h4⟩ := ih h1
      exact ⟨h3, fun h => (h2 (h4 h)).1⟩

/-! ## The run -/

theorem Shape.kinds {e : Enc} {b : Build} (h : Shape e b) {coll : Collection} {rest : List Collection}
    (hs : e.stack = coll :: rest) {f : Frame} {fs : List Frame} (hf : b.stack = f :: fs) :
    coll.kind = f.kind ∧ rest.map Collection.kind = fs.map Frame.kind := by
  have := h.stack
  rw [hs, hf] at this
  simpa using this

theorem notWaiting_coll {rest : List Collection} {fs : List Frame} (hk : rest.map Collection.kind = fs.map Frame.kind)
    (hin : ∀ g ∈ fs, ¬ g.Waiting) : ∀ els r, rest ≠ .dict els none :: r := by
  rintro els r rfl
  cases fs with
  | nil => cases hk
  | cons f fs =>
    simp only [List.map_cons, List.cons.injEq] at hk
    obtain ⟨kvs, rfl⟩ := kind_dict_none hk.1
    exact hin (.dict kvs none) (by simp) True.intro

theorem KeyStored.laid {c : Cfg} {e : Enc} (hw : e.WF) {k : List UInt8} (hk : k.length < 2 ^ 64) {dk : DictKey}
    {tail : List UInt8} {sk' : Option SharedKeys} (h : KeyStored c e k dk tail sk') :
    keyLow e.sk.isSome k ≤ tail.length ∧ KeyLaid e.sk.isSome e.out.length dk k := by
  have hds := dataSize_ge (n := k.length)
  cases h with
  | inline h =>
    have : ¬ 2 ≤ k.length := by intro h2; rw [dataSized_none.mpr h2] at h; cases h
    refine ⟨?_, by show k.length < 2; omega⟩
    unfold keyLow; rw [if_pos (.inr (by omega))]; simp
  | shared hsk h2 h =>
    refine ⟨?_, by rw [hsk]; rfl⟩
    unfold keyLow; rw [if_pos (.inl (by rw [hsk]; rfl))]; simp
  | plain hsk h2 hb hl ht =>
    have := tail_length hw.even ht
    have := keyLow_le e.sk.isSome k
    exact ⟨by omega, Nat.le_refl _⟩
  | unshared hsk h2 h hb hl ht =>
    refine ⟨?_, Nat.le_refl _⟩
    unfold keyLow; rw [if_pos (.inl (by rw [hsk]; rfl))]; omega

theorem close_arr_laid {sh : Bool} {e : Enc} {b : Build} (hw : e.WF) (hphi : e.phi ≤ SizedValue.maxWide) (hb : Shape e b)
    (ho : b.Ordered) (hl : LaidStack sh e.out.length e.stack b.stack) {vs : List SizedValue} {rest : List Collection}
    (hs : e.stack = .arr vs :: rest) {xs : List Tree} {fs : List Frame} (hf : b.stack = .arr xs :: fs) :
    let e' := Enc.closeEnc { e with stack := rest, out := Enc.arrOut e.out vs } e.out.length
    LaidStack sh e'.out.length e'.stack (Build.close fs (.arr xs)).stack := by
  intro e'
  have hmw : SizedValue.maxWide < 2 ^ 32 := by decide
  have hp := Enc.phi_cons hs
  simp only [Collection.cost] at hp
  rw [hs, hf] at hl
  obtain ⟨s, hfr, hrest⟩ := hl
  obtain ⟨h1, h2, h3, h4⟩ := hfr
  obtain ⟨hk1, hk2⟩ := hb.kinds hs hf
  have hge := arrOut_ge hw.even vs (by omega)
  have hle := (arrOut_length hw.even vs (by omega)).2.2
  refine closeEnc_laid (n0 := s) hrest hk2 (notWaiting_coll hk2 (ho.inner _ _ hf)) ?_ ?_ ?_ (by omega) ?_ ?_
  · simp only [Tree.low]; omega
  · simp only [Tree.high]; omega
  · omega
  · simp only [Tree.high]; omega
  · simp only [Tree.rear]; omega

theorem close_dict_laid {sh : Bool} {c : Cfg} {e : Enc} {b : Build} (hw : e.WF) (hphi : e.phi ≤ SizedValue.maxWide) (hb : Shape e b)
    (ho : b.Ordered) (hl : LaidStack sh e.out.length e.stack b.stack) {els : List DictElem} {nk : Option DictKey}
    {rest : List Collection} (hs : e.stack = .dict els nk :: rest) {kvs : List (List UInt8 × Tree)} {fs : List Frame}
    (hf : b.stack = .dict kvs none :: fs) :
    let e' := Enc.closeEnc { e with
        stack := rest
        out := Enc.dictOut e.out (els.any (Enc.pairFar e.out.length)) (c.sort.run els) } e.out.length
    LaidStack sh e'.out.length e'.stack (Build.close fs (.dict kvs)).stack := by
  intro e'
  have hmw : SizedValue.maxWide < 2 ^ 32 := by decide
  have hp := Enc.phi_cons hs
  have hlen := (c.sort.perm els).length_eq
  simp only [Collection.cost] at hp
  rw [hs, hf] at hl
  obtain ⟨s, hfr, hrest⟩ := hl
  obtain ⟨h1, h2, h3, h4, _⟩ := hfr
  simp only [pendingLow, pendingHigh] at h1 h2
  obtain ⟨hk1, hk2⟩ := hb.kinds hs hf
  have hge := dictOut_ge hw.even (els.any (Enc.pairFar e.out.length)) (c.sort.run els) (by omega)
  have hle := (dictOut_length hw.even (els.any (Enc.pairFar e.out.length)) (c.sort.run els) (by omega)).2.2
  refine closeEnc_laid (n0 := s) hrest hk2 (notWaiting_coll hk2 (ho.inner _ _ hf)) ?_ ?_ ?_ (by omega) ?_ ?_
  · simp only [Tree.low]; omega
  · simp only [Tree.high]; omega
  · omega
  · simp only [Tree.high]; omega
  · simp only [Tree.rear]; omega

/-- One call in a roomy document. -/
theorem roomy_step {c : Cfg} {F : FloatOps} {e e' : Enc} {b b' : Build} {op : Op} {r : Except EncodeError Unit} (hw : e.WF)
    (hphi : e.phi ≤ SizedValue.maxWide) (hwt : op.weight < 2 ^ 64) (hb : Shape e b) (ho : b.Ordered)
    (hl : LaidStack e.sk.isSome e.out.length e.stack b.stack) (hp : op.Sound e.sk.isSome) (hstep : b.step F op = .ok b')
    (hr : b'.Roomy e.sk.isSome) (h : e.step c op = .ok (e', r)) :
    StepOK c e op ∧ LaidStack e.sk.isSome e'.out.length e'.stack b'.stack := by
  have hmw : SizedValue.maxWide < 2 ^ 32 := by decide
  have hout := e.phi_out
  obtain ⟨_, hback⟩ := Build.step_back e.sk.isSome ho hstep
  obtain ⟨_, hra, hrd⟩ := hback hr
  have ht := Enc.step_trans hw hphi hwt h
  constructor
  · cases op with
    | beginArray n => trivial
    | beginDict => trivial
    | key k =>
      refine ⟨?_, hp⟩
      rw [hb.closed]
      simp only [Build.step] at hstep
      split at hstep
      · next hs => rw [ho.noRoot hs]; rfl
      · cases hstep
      · cases hstep
    | value x => exact hp
    | endArray =>
      refine ⟨?_, fun vs rest hs => ?_⟩
      · cases hk : e.waitingForKey with
        | false => rfl
        | true =>
          obtain ⟨kvs, rest, hk⟩ := hb.waiting hk
          simp only [Build.step, hk] at hstep
          cases hstep
      · obtain ⟨f, fs, hf, hk, _⟩ := hb.cons hs
        obtain ⟨xs, rfl⟩ := kind_arr hk
        have hpc := Enc.phi_cons hs
        simp only [Collection.cost] at hpc
        rw [hs, hf] at hl
        obtain ⟨s, hfr, _⟩ := hl
        exact hfr.arrFits (by omega) (hra rfl xs fs hf)
    | endDict =>
      intro els rest hs
      obtain ⟨f, fs, hf, hk, _⟩ := hb.cons hs
      obtain ⟨kvs, rfl⟩ := kind_dict_none hk
      have hpc := Enc.phi_cons hs
      simp only [Collection.cost] at hpc
      rw [hs, hf] at hl
      obtain ⟨s, hfr, _⟩ := hl
      exact hfr.dictFits (by omega) (hrd rfl kvs none fs hf)
  · cases ht with
    | reject hx heven hl hsk hwf _ => rw [hx F b hb] at hstep; cases hstep
    | @discard els rest hs =>
      obtain ⟨f, fs, hf, hk, _⟩ := hb.cons hs
      obtain ⟨kvs, rfl⟩ := kind_dict_none hk
      simp only [Build.step, hf] at hstep; cases hstep
    | openArr hcl hk =>
      simp only [Build.step, Build.open] at hstep
      split at hstep
      · cases hstep
      · split at hstep
        · cases hstep
        · cases hstep
          exact ⟨e.out.length, ⟨by simp [Tree.lows], by simp, rfl, fun i v x hv => by simp at hv⟩, hl⟩
    | openDict hcl hk =>
      simp only [Build.step, Build.open] at hstep
      split at hstep
      · cases hstep
      · split at hstep
        · cases hstep
        · cases hstep
          exact ⟨e.out.length, ⟨by simp [Tree.entryLows, pendingLow], by simp [pendingHigh, Tree.entryHighs], rfl,
            fun i v x hv => by simp at hv, fun _ _ h => by cases h⟩, hl⟩
    | @key k dk tail sk' els rest hs hk =>
      obtain ⟨f, fs, hf, hkd, _⟩ := hb.cons hs
      obtain ⟨kvs, rfl⟩ := kind_dict_none hkd
      simp only [Build.step, hf] at hstep
      cases hstep
      rw [hs, hf] at hl
      obtain ⟨s, hfr, hrest⟩ := hl
      have hk64 : k.bytes.length < 2 ^ 64 := by simp only [Op.weight] at hwt; omega
      obtain ⟨k1, k2⟩ := hk.laid hw hk64
      have k3 := (hk.facts hw hk64).2.1
      exact ⟨s, hfr.key (by simp only [List.length_append]; omega) (by simp only [List.length_append]; omega) k2, hrest⟩
    | @value x s tail coll rest hs hcd hv =>
      obtain ⟨f, fs, hf, hkd, _⟩ := hb.cons hs
      obtain ⟨hn, hsz, hty⟩ := Scalar.bounds e.sk.isSome F hp
      rw [hs] at hl
      have hclose : (Build.close b.stack (x.tree F)).stack = b'.stack := by
        simp only [Build.step, Build.put, hf] at hstep
        rw [hf]
        cases f with
        | arr xs => cases hstep; rfl
        | dict kvs q =>
          cases q with
          | some k => cases hstep; rfl
          | none => cases hstep
      rw [← hclose]
      cases hv with
      | inline hin =>
        obtain ⟨z1, z2⟩ := hsz (by rw [hin]; simp)
        have hnp := Scalar.toSized_notPointer hin
        refine hl.put ?_ ?_ (fun h => absurd h hnp) (fun h => absurd h z2)
          (fun _ hny => (Scalar.toSized_ok (F := F) hp hin).2 fun h => hny (hty.mpr h)) hcd hf hkd
        · simp [z1]
        · simp
      | pointer hno hbs hlen htail =>
        obtain ⟨z1, z2, z3⟩ := hn hno
        have htl := tail_length hw.even htail
        obtain ⟨_, p2, p3⟩ := ptrSlot_spec (off := e.out.length) (by omega)
        have hpos := x.size_pos
        refine hl.put ?_ ?_ (fun _ => ⟨by omega, by omega⟩) (fun _ => ⟨p2, ?_⟩) (fun h => absurd p2 h) hcd hf hkd
        · simp only [List.length_append]; omega
        · simp only [List.length_append]; omega
        · simp only [List.length_append]; omega
    | @endArr vs rest hs =>
      obtain ⟨f, fs, hf, hk, _⟩ := hb.cons hs
      obtain ⟨xs, rfl⟩ := kind_arr hk
      simp only [Build.step, hf] at hstep
      cases hstep
      exact close_arr_laid hw hphi hb ho hl hs hf
    | @endDict els rest hs =>
      obtain ⟨f, fs, hf, hk, _⟩ := hb.cons hs
      obtain ⟨xs, rfl⟩ := kind_dict_none hk
      simp only [Build.step, hf] at hstep
      cases hstep
      exact close_dict_laid hw hphi hb ho hl hs hf

theorem roomy_run {c : Cfg} {F : FloatOps} (ops : List Op) : ∀ {e e' : Enc} {b : Build} {rs : List (Except EncodeError Unit)},
    e.WF → e.phi + Op.total ops ≤ SizedValue.maxWide → Shape e b → b.Ordered →
    LaidStack e.sk.isSome e.out.length e.stack b.stack → (∀ op ∈ ops, op.Sound e.sk.isSome) → AllOk F b ops →
    (Build.run F b ops).1.Roomy e.sk.isSome → e.run c ops = .ok (e', rs) →
    RunOK c e ops ∧ e'.sk.isSome = e.sk.isSome ∧ Shape e' (Build.run F b ops).1 ∧
      LaidStack e.sk.isSome e'.out.length e'.stack (Build.run F b ops).1.stack := by
  have hmw : SizedValue.maxWide < 2 ^ 32 := by decide
  induction ops with
  | nil => intro e e' b rs _ _ hb _ hl _ _ _ h; cases h; exact ⟨trivial, rfl, hb, hl⟩
  | cons op ops ih =>
    intro e e' b rs hw hp hb ho hl hpl hall hr h
    rw [Op.total_cons] at hp
    obtain ⟨e1, r, rs', h1, h2, rfl⟩ := Enc.run_cons h
    have ht := Enc.step_trans hw (by omega) (by omega) h1
    obtain ⟨hw1, hp1⟩ := ht.inv hw (by omega) (by omega)
    have hor := hall.orderly (op :: ops) ho.root
    have hnext : ∃ b', b.step F op = .ok b' := by
      have := hall (b.next F op).2 (by simp [Build.run])
      unfold Build.next at this
      cases hst : b.step F op with
      | ok b' => exact ⟨b', rfl⟩
      | error x => rw [hst] at this; cases this
    obtain ⟨b', hst⟩ := hnext
    have hnx : b.next F op = (b', .ok ()) := by unfold Build.next; rw [hst]
    have hall' : AllOk F b' ops := fun r hr => hall r (by simp only [Build.run, hnx]; exact List.mem_cons_of_mem _ hr)
    simp only [Build.run, hnx] at hr ⊢
    obtain ⟨ho', _⟩ := Build.step_back e.sk.isSome ho hst
    have hr' := (Build.run_back e.sk.isSome (F := F) ops ho').2 hr
    obtain ⟨hok, hl'⟩ := roomy_step hw (by omega) (by omega) hb ho hl (hpl op (by simp)) hst hr' h1
    have hshape := (ht.shape hw F hb).2 (by
      rintro ⟨ho, hk⟩
      obtain ⟨kvs, rest, hk⟩ := hb.waiting hk
      exact hor.1 ho kvs rest hk)
    rw [hnx] at hshape
    have hsk := (ht.sk_isSome hw (by omega)).isSome
    obtain ⟨hrun, g1, g2, g3⟩ := ih hw1 (by omega) hshape ho' (by rw [hsk]; exact hl')
      (fun op hop => by rw [hsk]; exact hpl op (List.mem_cons_of_mem _ hop)) hall' (by rw [hsk]; exact hr) h2
    refine ⟨⟨hok, fun e2 r2 he2 => ?_⟩, by rw [g1, hsk], g2, by rw [hsk] at g3; exact g3⟩
    rw [h1] at he2; cases he2
    exact hrun

/-! ## Closing what is open -/

/-- No key waits for its value. -/
def Build.NoDangling (b : Build) : Prop := ∀ kvs k rest, b.stack ≠ .dict kvs (some k) :: rest

theorem Build.closeTop_back (sh : Bool) {b : Build} (ho : b.Ordered) (hd : b.NoDangling) :
    b.closeTop.Ordered ∧ b.closeTop.NoDangling ∧ (b.closeTop.Roomy sh → b.Roomy sh ∧
      (∀ xs rest, b.stack = .arr xs :: rest → (Tree.arr xs).Roomy sh) ∧
      (∀ kvs q rest, b.stack = .dict kvs q :: rest → (Tree.dict kvs).Roomy sh)) := by
  have hclose : ∀ (rest : List Frame) (t : Tree), (∀ g ∈ rest, ¬ g.Waiting) → (Build.close rest t).NoDangling := by
    intro rest t h kvs k r
    match rest with
    | [] => simp [Build.close]
    | .arr xs :: rest => simp [Build.close]
    | .dict _ (some _) :: rest => simp [Build.close]
    | .dict kvs none :: rest => exact absurd True.intro (h (.dict kvs none) (by simp))
  unfold Build.closeTop
  split
  · next hs =>
    exact ⟨ho, hd, fun hr => ⟨hr, fun xs rest h => (by rw [hs] at h; cases h), fun kvs q rest h => by rw [hs] at h; cases h⟩⟩
  · next xs rest hs =>
    have hin := ho.inner _ _ hs
    refine ⟨Build.close_ordered _ hin, hclose _ _ hin, fun hb => ?_⟩
    obtain ⟨h1, h2⟩ := Build.close_roomy hin hb
    refine ⟨⟨fun f hf => ?_, fun t ht => ?_⟩, fun xs' rest' hs' => ?_, fun kvs q rest h => by rw [hs] at h; cases h⟩
    · rw [hs] at hf
      rcases List.mem_cons.mp hf with rfl | hf
      · cases h1 with
        | leaf na nd => exact absurd rfl (na xs)
        | arr w of => exact of
      · exact h2 f hf
    · rw [ho.noRoot hs] at ht; cases ht
    · rw [hs] at hs'; cases hs'; exact h1
  · next xs q rest hs =>
    have hin := ho.inner _ _ hs
    refine ⟨Build.close_ordered _ hin, hclose _ _ hin, fun hb => ?_⟩
    obtain ⟨h1, h2⟩ := Build.close_roomy hin hb
    refine ⟨⟨fun f hf => ?_, fun t ht => ?_⟩, fun xs' rest' hs' => (by rw [hs] at hs'; cases hs'), fun kvs q rest hs' => ?_⟩
    · rw [hs] at hf
      rcases List.mem_cons.mp hf with rfl | hf
      · cases h1 with
        | leaf na nd => exact absurd rfl (nd xs)
        | dict w of => exact of
      · exact h2 f hf
    · rw [ho.noRoot hs] at ht; cases ht
    · rw [hs] at hs'; cases hs'; exact h1

theorem Build.closeN_back (sh : Bool) (n : Nat) : ∀ {b : Build}, b.Ordered → b.NoDangling →
    (b.closeN n).Roomy sh → b.Roomy sh := by
  induction n with
  | zero => intro b _ _ h; exact h
  | succ n ih =>
    intro b ho hd h
    obtain ⟨h1, h2, h3⟩ := Build.closeTop_back sh ho hd
    exact (h3 (ih h1 h2 h)).1

theorem roomy_finish {c : Cfg} (n : Nat) : ∀ {e : Enc} {b : Build}, e.WF → e.phi ≤ SizedValue.maxWide → Shape e b → b.Ordered →
    b.NoDangling → LaidStack e.sk.isSome e.out.length e.stack b.stack → (b.closeN n).Roomy e.sk.isSome → FinishOK c n e := by
  have hmw : SizedValue.maxWide < 2 ^ 32 := by decide
  induction n with
  | zero => intros; trivial
  | succ n ih =>
    intro e b hw hphi hb ho hd hl hr
    obtain ⟨h1, h2, _, _, hsk⟩ := Enc.closeTop_inv (c := c) hw hphi
    obtain ⟨ho', hd', hback⟩ := Build.closeTop_back e.sk.isSome ho hd
    have hr' : (b.closeTop.closeN n).Roomy e.sk.isSome := hr
    obtain ⟨_, hra, hrd⟩ := hback (Build.closeN_back _ n ho' hd' hr')
    refine ⟨⟨fun vs rest hs => ?_, fun els nk rest hs => ?_⟩, ?_⟩
    · obtain ⟨f, fs, hf, hk, _⟩ := hb.cons hs
      obtain ⟨xs, rfl⟩ := kind_arr hk
      have hpc := Enc.phi_cons hs
      simp only [Collection.cost] at hpc
      rw [hs, hf] at hl
      obtain ⟨s, hfr, _⟩ := hl
      exact hfr.arrFits (by omega) (hra xs fs hf)
    · obtain ⟨f, fs, hf, hk, _⟩ := hb.cons hs
      have hnk : nk = none := by
        cases nk with
        | none => rfl
        | some dk => obtain ⟨kvs, k, rfl⟩ := kind_dict_some hk; exact absurd hf (hd kvs k fs)
      subst hnk
      obtain ⟨kvs, rfl⟩ := kind_dict_none hk
      have hpc := Enc.phi_cons hs
      simp only [Collection.cost] at hpc
      rw [hs, hf] at hl
      obtain ⟨s, hfr, _⟩ := hl
      exact hfr.dictFits (by omega) (hrd kvs none fs hf)
    · refine ih h1 (by omega) (Enc.closeTop_shape hw hb) ho' hd' ?_ (by rw [hsk]; exact hr')
      rw [hsk]
      cases hs : e.stack with
      | nil =>
        have hbs := hb.nil hs
        have e1 : e.closeTop c = e := by unfold Enc.closeTop; rw [hs]
        have e2 : b.closeTop = b := by unfold Build.closeTop; rw [hbs]
        rw [e1, e2]; exact hl
      | cons coll rest =>
        obtain ⟨f, fs, hf, hk, _⟩ := hb.cons hs
        cases coll with
        | arr vs =>
          obtain ⟨xs, rfl⟩ := kind_arr hk
          have := close_arr_laid hw hphi hb ho hl hs hf
          unfold Enc.closeTop Build.closeTop
          rw [hs, hf]
          exact this
        | dict els nk =>
          have hnk : nk = none := by
            cases nk with
            | none => rfl
            | some dk => obtain ⟨kvs, k, rfl⟩ := kind_dict_some hk; exact absurd hf (hd kvs k fs)
          subst hnk
          obtain ⟨kvs, rfl⟩ := kind_dict_none hk
          have := close_dict_laid (c := c) hw hphi hb ho hl hs hf
          unfold Enc.closeTop Build.closeTop
          rw [hs, hf]
          exact this

end Fleece
