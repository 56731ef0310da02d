import Verif.Proofs.EncClose
import Verif.Proofs.ScalarWrite
import Verif.Spec.Build

/-! # The calls of the encoder, one by one, in closed form -/

namespace Fleece
open Res

/-! ## Invariant -/

/-- Invariant of the encoder, without its content. -/
structure Enc.WF (e : Enc) : Prop where
  even : e.out.length % 2 = 0
  bounded : ∀ coll ∈ e.stack, coll.Bounded e.out.length
  closed : e.closed = true → e.stack = []
  sk : ∀ sk, e.sk = some sk → sk.WF

theorem Enc.new_wf : Enc.new.WF := ⟨rfl, by simp [Enc.new], by simp [Enc.new], by simp [Enc.new]⟩

/-- Room that closing a collection may still need. -/
def Collection.cost : Collection → Nat
  | .arr vs => 24 + 4 * vs.length
  | .dict els nk => 24 + 8 * els.length + if nk.isSome then 8 else 0

/-- An upper bound of the final length of the output. -/
def Enc.phi (e : Enc) : Nat := e.out.length + (e.stack.map Collection.cost).sum

/-- The kind of a collection: an array, or a dict, with or without a pending key. -/
def Collection.kind : Collection → Option Bool
  | .arr _ => none
  | .dict _ nk => some nk.isSome

/-- The kind of a collection of the specification. -/
def Frame.kind : Frame → Option Bool
  | .arr _ => none
  | .dict _ k => some k.isSome

/-- The encoder has the same collections open as the specification. -/
structure Shape (e : Enc) (b : Build) : Prop where
  stack : e.stack.map Collection.kind = b.stack.map Frame.kind
  closed : e.closed = b.root.isSome

theorem Shape.new : Shape Enc.new {} := ⟨rfl, rfl⟩

theorem Shape.nil {e : Enc} {b : Build} (h : Shape e b) (hs : e.stack = []) : b.stack = [] := by
  have := h.stack; rw [hs] at this; simpa using this.symm

theorem Shape.cons {e : Enc} {b : Build} (h : Shape e b) {coll : Collection} {rest : List Collection}
    (hs : e.stack = coll :: rest) : ∃ f frest, b.stack = f :: frest ∧ coll.kind = f.kind ∧
      rest.map Collection.kind = frest.map Frame.kind := by
  have h := h.stack
  rw [hs] at h
  cases hb : b.stack with
  | nil => rw [hb] at h; cases h
  | cons f fr =>
    rw [hb] at h
    simp only [List.map_cons, List.cons.injEq] at h
    exact ⟨f, fr, rfl, h.1, h.2⟩

theorem kind_arr {vs : List SizedValue} {f : Frame} (h : (Collection.arr vs).kind = f.kind) : ∃ xs, f = .arr xs := by
  cases f with
  | arr xs => exact ⟨xs, rfl⟩
  | dict a b => cases h

theorem kind_dict_none {els : List DictElem} {f : Frame} (h : (Collection.dict els none).kind = f.kind) :
    ∃ kvs, f = .dict kvs none := by
  cases f with
  | arr xs => cases h
  | dict a b => cases b with
    | none => exact ⟨a, rfl⟩
    | some k => cases h

theorem kind_dict_some {els : List DictElem} {dk : DictKey} {f : Frame}
    (h : (Collection.dict els (some dk)).kind = f.kind) : ∃ kvs k, f = .dict kvs (some k) := by
  cases f with
  | arr xs => cases h
  | dict a b => cases b with
    | none => cases h
    | some k => exact ⟨a, k, rfl⟩

/-! ## Closed forms -/

/-- A pointer slot; `off` must be at most `MAX_WIDE`. -/
def ptrSlot (off : Nat) : SizedValue := (SizedValue.newPointer off).getD (SizedValue.newNarrow 0 0)

theorem ptrSlot_spec {off : Nat} (h : off ≤ SizedValue.maxWide) :
    SizedValue.newPointer off = some (ptrSlot off) ∧ (ptrSlot off).type = .pointer ∧ (ptrSlot off).pointerOffset = off := by
  obtain ⟨s, h1, h2, h3⟩ := SizedValue.newPointer_spec h
  have : ptrSlot off = s := by unfold ptrSlot; rw [h1]; rfl
  rw [this]; exact ⟨h1, h2, h3⟩

/-- Add a value to a collection. -/
def Collection.put : Collection → SizedValue → Collection
  | .arr vs, s => .arr (vs ++ [s])
  | .dict els (some k), s => .dict (els ++ [⟨k, s⟩]) none
  | .dict els none, _ => .dict els none

/-- The root of a document `d` bytes before the end. -/
def rootBytes (d : Nat) : List UInt8 :=
  if d ≤ SizedValue.maxNarrow then ptrBytes false d else ptrBytes true d ++ ptrBytes false 4

/-- State after `_finished_collection`. -/
def Enc.closeEnc (e : Enc) (offset : Nat) : Enc :=
  match e.stack with
  | [] => { e with out := e.out ++ rootBytes (e.out.length - offset), closed := true }
  | coll :: rest => { e with stack := coll.put (ptrSlot offset) :: rest }

theorem slotBytes_ptr {off : Nat} (h : off ≤ SizedValue.maxWide) (wide : Bool) :
    slotBytes wide (ptrSlot off) = ptrBytes (wide || decide (off > SizedValue.maxNarrow)) off := by
  obtain ⟨_, h2, h3⟩ := ptrSlot_spec h
  unfold slotBytes; rw [if_pos h2, h3]

theorem Enc.finishedCollection_eq (c : Cfg) (e : Enc) {offset : Nat} (he : e.out.length % 2 = 0)
    (ho : offset ≤ e.out.length) (hl : e.out.length ≤ SizedValue.maxWide) :
    e.finishedCollection c offset = (e.closeEnc offset).done := by
  have hmw : SizedValue.maxWide < 2 ^ 32 := by decide
  obtain ⟨hp, _, _⟩ := ptrSlot_spec (off := offset) (by omega)
  unfold finishedCollection closeEnc
  cases hs : e.stack with
  | cons coll rest =>
    simp only [hp]
    cases coll with
    | arr vs => rfl
    | dict els nk => cases nk <;> rfl
  | nil =>
    simp only
    rw [Nat.mod_eq_of_lt (by omega), u32Sub_eq c.dbg ho]
    simp only [ok_bind]
    obtain ⟨hq, _, _⟩ := ptrSlot_spec (off := e.out.length - offset) (by omega)
    obtain ⟨h4, _, _⟩ := ptrSlot_spec (off := 4) (by decide)
    by_cases hn : e.out.length - offset ≤ SizedValue.maxNarrow
    · rw [if_pos hn, hq]
      simp only
      rw [write_sized c e he, slotBytes_ptr (by omega)]
      simp only [ok_bind, rootBytes, if_pos hn]
      rw [show (false || decide (e.out.length - offset > SizedValue.maxNarrow)) = false by simp; omega, hs]
    · rw [if_neg hn, hq]
      simp only
      rw [write_sized c e he, slotBytes_ptr (by omega)]
      simp only [ok_bind, rootBytes, if_neg hn, h4, Bool.true_or]
      rw [write_sized c _ (by simp [ptrBytes_length]; omega), slotBytes_ptr (by decide)]
      simp only [ok_bind]
      rw [show (false || decide (4 > SizedValue.maxNarrow)) = false by decide, hs]
      simp

/-- How a key is kept until its dict is closed, and what is written for it. -/
inductive KeyStored (c : Cfg) (e : Enc) (k : List UInt8) : DictKey → List UInt8 → Option SharedKeys → Prop where
  | inline {s : SizedValue} (h : dataSized 0x40 k = some s) : KeyStored c e k (.inline s) [] e.sk
  | shared {sk sk' : SharedKeys} {code : Nat} (hsk : e.sk = some sk) (h2 : 2 ≤ k.length)
      (h : sk.encodeAndInsert c.chars k = (sk', some code)) : KeyStored c e k (.shared code) [] (some sk')
  | plain {bs tail : List UInt8} (hsk : e.sk = none) (h2 : 2 ≤ k.length)
      (hb : writeData 0x40 k (dataSize k.length) false = .ok (some bs)) (hl : bs.length = dataSize k.length)
      (ht : e.out ++ tail = padEven (e.out ++ bs)) : KeyStored c e k (.pointer k e.out.length) tail none
  | unshared {sk sk' : SharedKeys} {bs tail : List UInt8} (hsk : e.sk = some sk) (h2 : 2 ≤ k.length)
      (h : sk.encodeAndInsert c.chars k = (sk', none))
      (hb : writeData 0x40 k (dataSize k.length) false = .ok (some bs)) (hl : bs.length = dataSize k.length)
      (ht : e.out ++ tail = padEven (e.out ++ bs)) : KeyStored c e k (.pointer k e.out.length) tail (some sk')

/-- How a value is kept, and what is written for it. -/
inductive ValueStored (c : Cfg) (e : Enc) (x : Scalar) : SizedValue → List UInt8 → Prop where
  | inline {s : SizedValue} (h : x.toSized = some s) : ValueStored c e x s []
  | pointer {bs tail : List UInt8} (h : x.toSized = none) (hb : x.writeTo c.dbg x.size false = .ok (some bs))
      (hl : bs.length = x.size) (ht : e.out ++ tail = padEven (e.out ++ bs)) :
      ValueStored c e x (ptrSlot e.out.length) tail

/-- `sk'` extends `sk`, both present or both absent. -/
def SkLe : Option SharedKeys → Option SharedKeys → Prop
  | none, none => True
  | some a, some b => a.Le b
  | _, _ => False

theorem SkLe.refl (s : Option SharedKeys) : SkLe s s := by
  cases s with
  | none => trivial
  | some a => exact SharedKeys.Le.refl a

theorem SkLe.trans {a b c : Option SharedKeys} (h1 : SkLe a b) (h2 : SkLe b c) : SkLe a c := by
  cases a <;> cases b <;> cases c <;> simp only [SkLe] at *
  exact h1.trans h2

/-- What a call may do to the shared keys. -/
def SkStep (c : Cfg) (e : Enc) (op : Op) (sk' : Option SharedKeys) : Prop :=
  sk' = e.sk ∨ ∃ k sk, op = .key k ∧ e.sk = some sk ∧ sk' = some (sk.encodeAndInsert c.chars k.bytes).1

theorem KeyStored.skStep {c : Cfg} {e : Enc} {k : RStr} {dk : DictKey} {tail : List UInt8} {sk' : Option SharedKeys}
    (h : KeyStored c e k.bytes dk tail sk') : SkStep c e (.key k) sk' := by
  cases h with
  | inline h => exact .inl rfl
  | shared hsk h2 h => exact .inr ⟨k, _, rfl, hsk, by rw [h]⟩
  | plain hsk h2 hb hl ht => exact .inl hsk.symm
  | unshared hsk h2 h hb hl ht => exact .inr ⟨k, _, rfl, hsk, by rw [h]⟩

/-- What a call does. -/
inductive Trans (c : Cfg) (e : Enc) : Op → Enc → Except EncodeError Unit → Prop where
  | reject {op : Op} {x : EncodeError} {tail : List UInt8} {sk' : Option SharedKeys}
      (hx : ∀ F b, Shape e b → b.step F op = .error x) (heven : tail.length % 2 = 0) (hl : tail.length ≤ op.weight)
      (hsk : SkLe e.sk sk') (hwf : ∀ sk, sk' = some sk → sk.WF) (hstep : SkStep c e op sk') :
      Trans c e op { e with out := e.out ++ tail, sk := sk' } (.error x)
  | discard {els : List DictElem} {rest : List Collection} (hs : e.stack = .dict els none :: rest) :
      Trans c e .endArray { e with stack := rest } (.error .arrayNotOpen)
  | openArr {n : Nat} (hc : e.closed = false) (hw : e.waitingForKey = false) :
      Trans c e (.beginArray n) { e with stack := .arr [] :: e.stack } (.ok ())
  | openDict (hc : e.closed = false) (hw : e.waitingForKey = false) :
      Trans c e .beginDict { e with stack := .dict [] none :: e.stack } (.ok ())
  | key {k : RStr} {dk : DictKey} {tail : List UInt8} {sk' : Option SharedKeys} {els : List DictElem}
      {rest : List Collection} (hs : e.stack = .dict els none :: rest) (hk : KeyStored c e k.bytes dk tail sk') :
      Trans c e (.key k) { e with out := e.out ++ tail, sk := sk', stack := .dict els (some dk) :: rest } (.ok ())
  | value {x : Scalar} {s : SizedValue} {tail : List UInt8} {coll : Collection} {rest : List Collection}
      (hs : e.stack = coll :: rest) (hc : ∀ els, coll ≠ .dict els none) (hv : ValueStored c e x s tail) :
      Trans c e (.value x) { e with out := e.out ++ tail, stack := coll.put s :: rest } (.ok ())
  | endArr {vs : List SizedValue} {rest : List Collection} (hs : e.stack = .arr vs :: rest) :
      Trans c e .endArray
        (Enc.closeEnc { e with stack := rest, out := Enc.arrOut e.out vs } e.out.length) (.ok ())
  | endDict {els : List DictElem} {rest : List Collection} (hs : e.stack = .dict els none :: rest) :
      Trans c e .endDict (Enc.closeEnc { e with
        stack := rest
        out := Enc.dictOut e.out (els.any (Enc.pairFar e.out.length)) (c.sort.run els) } e.out.length) (.ok ())

/-! ## Lengths -/

theorem dataSize_le {n : Nat} (h : n < 2 ^ 64) : dataSize n ≤ n + 11 := by
  have h1 := Varint.write_length_le n
  rw [Varint.write_length_eq n h] at h1
  unfold dataSize; split
  · omega
  · split <;> omega

theorem u64Size_le (n : Nat) : u64Size n ≤ 9 := by unfold u64Size; split <;> omega

theorem Scalar.size_le {x : Scalar} : x.size + 1 ≤ (Op.value x).weight ∨ ¬ (Op.value x).weight < 2 ^ 64 := by
  rcases Nat.lt_or_ge (Op.value x).weight (2 ^ 64) with h | h
  · left
    cases x with
    | u32 n => have := u64Size_le n.toNat; simp only [Scalar.size, Op.weight]; omega
    | u64 n => have := u64Size_le n.toNat; simp only [Scalar.size, Op.weight]; omega
    | str s =>
      simp only [Scalar.size, Op.weight] at *
      have := dataSize_le (n := s.bytes.length) (by omega); omega
    | data d =>
      simp only [Scalar.size, Op.weight] at *
      have := dataSize_le (n := d.length) (by omega); omega
    | _ => simp only [Scalar.size, Op.weight]; omega
  · right; omega

/-- The tail `_write` leaves. -/
theorem padEven_tail (out bs : List UInt8) (he : out.length % 2 = 0) :
    ∃ tail, out ++ tail = padEven (out ++ bs) ∧ tail.length % 2 = 0 ∧ tail.length ≤ bs.length + 1 := by
  obtain ⟨tl, h⟩ := padEven_prefix (out ++ bs)
  have hl := padEven_length (out ++ bs)
  rw [← h] at hl
  simp only [List.length_append] at hl
  refine ⟨bs ++ tl, by rw [← h]; simp, ?_, ?_⟩ <;> simp only [List.length_append] <;> omega

/-- Writing a value. -/
theorem Enc.write_item_ok (c : Cfg) (e : Enc) (x : Item) {e' : Enc} {off : Nat}
    (h : e.write c x false false = .ok (e', off)) :
    ∃ bs, x.writeTo c.dbg x.size false = .ok (some bs) ∧ bs.length = x.size ∧ off = e.out.length % 2 ^ 32 ∧
      e' = { e with out := padEven (e.out ++ bs) } := by
  unfold write at h
  simp only [Bool.false_and, Bool.false_eq_true, if_false] at h
  obtain ⟨o, h1, h⟩ := bind_eq_ok.mp h
  cases o with
  | none => cases h
  | some bs =>
    dsimp only at h
    split at h
    · next hl =>
      cases h
      exact ⟨bs, h1, hl, rfl, by rfl⟩
    · cases h

theorem dataSized_notPointer {k : List UInt8} {s : SizedValue} {tag : UInt8} (ht : tag = 0x40 ∨ tag = 0x50)
    (h : dataSized tag k = some s) : s.type ≠ .pointer := by
  unfold dataSized at h
  split at h
  · cases h
    rcases ht with rfl | rfl
    · show ValueType.fromByte 0x40 ≠ _; decide
    · show ValueType.fromByte 0x50 ≠ _; decide
  · cases h
    rcases ht with rfl | rfl
    · show ValueType.fromByte (0x40 ||| 1) ≠ _; decide
    · show ValueType.fromByte (0x50 ||| 1) ≠ _; decide
  · cases h

theorem dataSized_none {k : List UInt8} {tag : UInt8} : dataSized tag k = none ↔ 2 ≤ k.length := by
  match k with
  | [] => simp [dataSized]
  | [a] => simp [dataSized]
  | a :: b :: l => simp [dataSized]

theorem and0F_notPointer (b : UInt8) : ValueType.fromByte (b &&& 0x0F) ≠ .pointer := by
  revert b; exact forall_byte (by decide +kernel)

theorem small_notPointer (b : UInt8) (h : b.toNat < 8) : ValueType.fromByte b ≠ .pointer := by
  revert h b; exact forall_byte (by decide +kernel)

theorem i16Sized_notPointer {n : Int} {s : SizedValue} (h : i16Sized n = some s) : s.type ≠ .pointer := by
  unfold i16Sized at h
  split at h
  · cases h
  · dsimp only at h; cases h; exact and0F_notPointer _

theorem u16Sized_notPointer {n : Nat} {s : SizedValue} (h : u16Sized n = some s) : s.type ≠ .pointer := by
  unfold u16Sized at h
  split at h
  · cases h
  · cases h
    exact small_notPointer _ (by simp only [SizedValue.newNarrow, ofNat_toNat]; omega)

theorem Scalar.toSized_notPointer {x : Scalar} {s : SizedValue} (h : x.toSized = some s) : s.type ≠ .pointer := by
  cases x <;> simp only [Scalar.toSized] at h
  case i8 => exact i16Sized_notPointer h
  case i16 => exact i16Sized_notPointer h
  case i32 => unfold i64Sized at h; split at h <;> first | exact i16Sized_notPointer h | cases h
  case i64 => unfold i64Sized at h; split at h <;> first | exact i16Sized_notPointer h | cases h
  case u8 => exact u16Sized_notPointer h
  case u16 => exact u16Sized_notPointer h
  case u32 => split at h <;> first | exact u16Sized_notPointer h | cases h
  case u64 => split at h <;> first | exact u16Sized_notPointer h | cases h
  case f32 => cases h
  case f64 => cases h
  case bool b =>
    cases h
    cases b <;> (show ValueType.fromByte _ ≠ _) <;> decide
  case null => cases h; show ValueType.fromByte _ ≠ _; decide
  case undefined => cases h; show ValueType.fromByte _ ≠ _; decide
  case str => exact dataSized_notPointer (.inl rfl) h
  case data => exact dataSized_notPointer (.inr rfl) h

theorem flatten_le (l : List (List UInt8)) (n : Nat) (h : ∀ x ∈ l, x.length ≤ n ∧ x.length % 2 = 0) :
    l.flatten.length ≤ n * l.length ∧ l.flatten.length % 2 = 0 := by
  induction l with
  | nil => simp
  | cons a l ih =>
    have h1 := ih fun x hx => h x (List.mem_cons_of_mem _ hx)
    have h2 := h a (by simp)
    simp only [List.flatten_cons, List.length_append, List.length_cons, Nat.mul_succ]
    omega

theorem arrOut_length {out : List UInt8} (he : out.length % 2 = 0) (vs : List SizedValue)
    (hn : vs.length < 2 ^ 64) : (Enc.arrOut out vs).length % 2 = 0 ∧ out.length ≤ (Enc.arrOut out vs).length ∧
      (Enc.arrOut out vs).length ≤ out.length + 12 + 4 * vs.length := by
  have h1 := Enc.padEven_header_length he 0x60 hn (vs.any (Enc.slotFar out.length))
  have h2 := padEven_even (out ++ headerBytes 0x60 vs.length (vs.any (Enc.slotFar out.length)))
  have h3 := padEven_length (out ++ headerBytes 0x60 vs.length (vs.any (Enc.slotFar out.length)))
  have h4 := flatten_le ((Enc.relArray (vs.any (Enc.slotFar out.length))
    (padEven (out ++ headerBytes 0x60 vs.length (vs.any (Enc.slotFar out.length)))).length vs).map
    (slotBytes (vs.any (Enc.slotFar out.length)))) 4 (by
      intro x hx
      obtain ⟨s, _, rfl⟩ := List.mem_map.mp hx
      exact ⟨slotBytes_length_le _ _, slotBytes_even _ _⟩)
  rw [List.length_map, Enc.relArray_length] at h4
  simp only [List.length_append] at h3
  simp only [Enc.arrOut, List.length_append]
  omega

theorem relDict_length (wide : Bool) (els : List DictElem) : ∀ len, (Enc.relDict wide len els).length = els.length := by
  induction els with
  | nil => intro; rfl
  | cons v vs ih => intro len; simp [Enc.relDict, ih]

theorem dictOut_length {out : List UInt8} (he : out.length % 2 = 0) (w : Bool) (els : List DictElem)
    (hn : els.length < 2 ^ 64) : (Enc.dictOut out w els).length % 2 = 0 ∧ out.length ≤ (Enc.dictOut out w els).length ∧
      (Enc.dictOut out w els).length ≤ out.length + 12 + 8 * els.length := by
  have h1 := Enc.padEven_header_length he 0x70 hn w
  have h2 := padEven_even (out ++ headerBytes 0x70 els.length w)
  have h3 := padEven_length (out ++ headerBytes 0x70 els.length w)
  have h4 := flatten_le ((Enc.relDict w (padEven (out ++ headerBytes 0x70 els.length w)).length els).map
    fun el => slotBytes w (Enc.keySlotVal el.key) ++ slotBytes w el.val) 8 (by
      intro x hx
      obtain ⟨s, _, rfl⟩ := List.mem_map.mp hx
      have := slotBytes_length_le w s.val
      have := slotBytes_length_le w (Enc.keySlotVal s.key)
      have := slotBytes_even w s.val
      have := slotBytes_even w (Enc.keySlotVal s.key)
      simp only [List.length_append]
      omega)
  rw [List.length_map, relDict_length] at h4
  simp only [List.length_append] at h3
  simp only [Enc.dictOut, Enc.pairsBytes, List.length_append]
  omega

/-! ## Every call is one of these -/

theorem Enc.phi_out (e : Enc) : e.out.length ≤ e.phi := by unfold phi; omega

theorem Enc.phi_cons {e : Enc} {coll : Collection} {rest : List Collection} (hs : e.stack = coll :: rest) :
    e.phi = e.out.length + (coll.cost + (rest.map Collection.cost).sum) := by
  unfold phi; rw [hs]; simp

theorem Shape.waiting {e : Enc} {b : Build} (h : Shape e b) (hw : e.waitingForKey = true) :
    ∃ kvs rest, b.stack = .dict kvs none :: rest := by
  unfold Enc.waitingForKey at hw
  split at hw
  · next hs =>
    obtain ⟨f, fr, h1, h2, _⟩ := h.cons hs
    obtain ⟨kvs, rfl⟩ := kind_dict_none h2
    exact ⟨kvs, fr, h1⟩
  · cases hw

theorem Shape.notWaiting {e : Enc} {b : Build} (h : Shape e b) (hw : e.waitingForKey = false) :
    ∀ kvs rest, b.stack ≠ .dict kvs none :: rest := by
  intro kvs rest hb
  have hst := h.stack
  rw [hb] at hst
  cases hs : e.stack with
  | nil => rw [hs] at hst; cases hst
  | cons coll r =>
    rw [hs] at hst
    simp only [List.map_cons, List.cons.injEq] at hst
    cases coll with
    | arr vs => cases hst.1
    | dict els nk =>
      cases nk with
      | some k => cases hst.1
      | none => unfold Enc.waitingForKey at hw; rw [hs] at hw; cases hw

theorem Trans.same {c : Cfg} {e : Enc} (hw : e.WF) {op : Op} {x : EncodeError}
    (hx : ∀ F b, Shape e b → b.step F op = .error x) : Trans c e op e (.error x) := by
  have := Trans.reject (c := c) (e := e) (tail := []) hx rfl (Nat.zero_le _) (SkLe.refl _) hw.sk (.inl rfl)
  simpa using this

theorem Shape.key_notDict {e : Enc} {b : Build} (hb : Shape e b)
    (hs : ∀ (vs : List DictElem) (nk : Option DictKey) (rest : List Collection), e.stack = .dict vs nk :: rest → False)
    (F : FloatOps) (k : RStr) : b.step F (.key k) = .error .dictNotOpen := by
  have hst := hb.stack
  have hno : ∀ kvs q r, b.stack ≠ .dict kvs q :: r := by
    intro kvs q r hbs
    rw [hbs] at hst
    cases hes : e.stack with
    | nil => rw [hes] at hst; cases hst
    | cons coll r =>
      rw [hes] at hst
      cases coll with
      | arr vs => cases hst
      | dict els nk => exact hs _ _ _ hes
  simp only [Build.step]
  split
  · next h => exact absurd h (hno _ _ _)
  · next h => exact absurd h (hno _ _ _)
  · rfl

/-- `push_key` after something has been written. -/
theorem pushKey_trans {c : Cfg} {e e' : Enc} {r : Except EncodeError Unit} {k : RStr} {dk : DictKey}
    {tail : List UInt8} {sk' : Option SharedKeys} (hk : KeyStored c e k.bytes dk tail sk')
    (heven : tail.length % 2 = 0) (hl : tail.length ≤ (Op.key k).weight) (hle : SkLe e.sk sk')
    (hwf : ∀ sk, sk' = some sk → sk.WF)
    (h : ({ e with out := e.out ++ tail, sk := sk' } : Enc).pushKey dk = .ok (e', r)) : Trans c e (.key k) e' r := by
  unfold Enc.pushKey at h
  dsimp only at h
  split at h
  · next vs nk rest hs =>
    split at h
    · next hsome =>
      cases h
      refine .reject (fun F b hb => ?_) heven hl hle hwf hk.skStep
      cases nk with
      | none => cases hsome
      | some q =>
        obtain ⟨f, fr, h1, h2, _⟩ := hb.cons hs
        obtain ⟨kvs, k', rfl⟩ := kind_dict_some h2
        simp only [Build.step, h1]
    · next hnone =>
      cases nk with
      | some q => exact absurd rfl hnone
      | none =>
        cases h
        exact .key hs hk
  · next hs =>
    cases h
    exact .reject (fun F b hb => hb.key_notDict hs F k) heven hl hle hwf hk.skStep

theorem writeKey_trans {c : Cfg} {e e' : Enc} {r : Except EncodeError Unit} {k : RStr} (hw : e.WF)
    (hphi : e.phi ≤ SizedValue.maxWide) (hk64 : k.bytes.length < 2 ^ 64)
    (h : e.writeKey c k = .ok (e', r)) : Trans c e (.key k) e' r := by
  have hout := e.phi_out
  have hmw : SizedValue.maxWide < 2 ^ 32 := by decide
  have hds := dataSize_le hk64
  have hwt : (Op.key k).weight = 24 + k.bytes.length := rfl
  unfold Enc.writeKey at h
  split at h
  · next s hs =>
    refine pushKey_trans (tail := []) (sk' := e.sk) (.inline hs) rfl (Nat.zero_le _) (SkLe.refl _) hw.sk ?_
    simpa using h
  · next hn =>
    have h2 := dataSized_none.mp hn
    unfold Enc.writeKeyLong at h
    split at h
    · next sk hsk =>
      have hskwf := hw.sk sk hsk
      have hins := hskwf.insert c.chars k.bytes
      have hle : SkLe e.sk (some (sk.encodeAndInsert c.chars k.bytes).1) := by rw [hsk]; exact hins.2
      split at h
      · next vs nk rest hs =>
        split at h
        · next sk' code hi =>
          rw [hi] at hle hins
          refine pushKey_trans (tail := []) (.shared hsk h2 hi) rfl (Nat.zero_le _) hle
            (fun s hs => by cases hs; exact hins.1) ?_
          simpa using h
        · next sk' hi =>
          rw [hi] at hle hins
          unfold Enc.writeKeyPointer at h
          obtain ⟨⟨e1, off⟩, h1, h⟩ := bind_eq_ok.mp h
          obtain ⟨bs, hb, hl, rfl, rfl⟩ := Enc.write_item_ok c _ _ h1
          obtain ⟨tail, ht, hev, htl⟩ := padEven_tail e.out bs hw.even
          simp only [Item.size] at hl
          have hst : KeyStored c e k.bytes (.pointer k.bytes e.out.length) tail (some sk') :=
            .unshared hsk h2 hi hb hl ht
          refine pushKey_trans hst hev (by omega) hle (fun s hs => by cases hs; exact hins.1) ?_
          rw [ht]
          rw [Nat.mod_eq_of_lt (by simp only; omega)] at h
          exact h
      · next hs =>
        cases h
        exact Trans.same hw fun F b hb => hb.key_notDict hs F k
    · next hsk =>
      unfold Enc.writeKeyPointer at h
      obtain ⟨⟨e1, off⟩, h1, h⟩ := bind_eq_ok.mp h
      obtain ⟨bs, hb, hl, rfl, rfl⟩ := Enc.write_item_ok c _ _ h1
      obtain ⟨tail, ht, hev, htl⟩ := padEven_tail e.out bs hw.even
      simp only [Item.size] at hl
      refine pushKey_trans (tail := tail) (.plain hsk h2 hb hl ht) hev (by omega) (by rw [hsk]; trivial)
        (fun s hs => by cases hs) ?_
      rw [ht]
      rw [Nat.mod_eq_of_lt (by omega)] at h
      rw [← hsk]
      exact h

theorem writeValue_trans {c : Cfg} {e e' : Enc} {r : Except EncodeError Unit} {x : Scalar} (hw : e.WF)
    (hphi : e.phi ≤ SizedValue.maxWide) (hx64 : (Op.value x).weight < 2 ^ 64)
    (h : e.writeValue c x = .ok (e', r)) : Trans c e (.value x) e' r := by
  have hout := e.phi_out
  have hmw : SizedValue.maxWide < 2 ^ 32 := by decide
  have hsz : x.size + 1 ≤ (Op.value x).weight := by
    rcases Scalar.size_le (x := x) with h | h
    · exact h
    · omega
  have key : ∀ {s : SizedValue} {tail : List UInt8}, ValueStored c e x s tail → tail.length % 2 = 0 →
      tail.length ≤ (Op.value x).weight → e.stack ≠ [] →
      ({ e with out := e.out ++ tail } : Enc).push s = .ok (e', r) → Trans c e (.value x) e' r := by
    intro s tail hv hev hl hne h
    unfold Enc.push at h
    dsimp only at h
    split at h
    · next hs => exact absurd hs hne
    · next vs rest hs =>
      cases h
      have := Trans.value (c := c) (x := x) hs (by intro els h; cases h) hv
      exact this
    · next vs k rest hs =>
      cases h
      have := Trans.value (c := c) (x := x) hs (by intro els h; cases h) hv
      exact this
    · next vs rest hs =>
      cases h
      refine .reject (fun F b hb => ?_) hev hl (SkLe.refl _) hw.sk (.inl rfl)
      obtain ⟨f, fr, h1, h2, _⟩ := hb.cons hs
      obtain ⟨kvs, rfl⟩ := kind_dict_none h2
      simp only [Build.step, Build.put, h1]
  unfold Enc.writeValue at h
  split at h
  · next hemp =>
    cases h
    refine Trans.same hw fun F b hb => ?_
    simp only [Build.step, Build.put, hb.nil (List.isEmpty_iff.mp hemp)]
  · next hemp =>
    have hne : e.stack ≠ [] := fun hs => hemp (by rw [hs]; rfl)
    split at h
    · next s hs => exact key (tail := []) (.inline hs) rfl (Nat.zero_le _) hne (by simpa using h)
    · next hs =>
      obtain ⟨⟨e1, off⟩, h1, h⟩ := bind_eq_ok.mp h
      obtain ⟨bs, hb, hl, rfl, rfl⟩ := Enc.write_item_ok c _ _ h1
      obtain ⟨tail, ht, hev, htl⟩ := padEven_tail e.out bs hw.even
      simp only [Item.size] at hl
      dsimp only at h
      rw [Nat.mod_eq_of_lt (by omega), (ptrSlot_spec (off := e.out.length) (by omega)).1] at h
      dsimp only at h
      refine key (.pointer hs hb hl ht) hev (by omega) hne ?_
      rw [ht]; exact h

/-- Every call that returns does one of the things listed in `Trans`. -/
theorem Enc.step_trans {c : Cfg} {e e' : Enc} {op : Op} {r : Except EncodeError Unit} (hw : e.WF)
    (hphi : e.phi ≤ SizedValue.maxWide) (ho : op.weight < 2 ^ 64)
    (h : e.step c op = .ok (e', r)) : Trans c e op e' r := by
  have hmw : SizedValue.maxWide < 2 ^ 32 := by decide
  cases op with
  | beginArray n =>
    simp only [Enc.step, Enc.beginArray] at h
    split at h
    · next hc =>
      cases h
      refine Trans.same hw fun F b hb => ?_
      have : b.root.isSome = true := by rw [← hb.closed]; exact hc
      simp only [Build.step, Build.open, this, if_true]
    · next hc =>
      split at h
      · next hk =>
        cases h
        refine Trans.same hw fun F b hb => ?_
        have : b.root.isSome = false := by rw [← hb.closed]; simpa using hc
        obtain ⟨kvs, rest, hs⟩ := hb.waiting hk
        simp only [Build.step, Build.open, this, hs]; rfl
      · next hk =>
        split at h
        · cases h
        · cases h; exact .openArr (by simpa using hc) (by simpa using hk)
  | beginDict =>
    simp only [Enc.step, Enc.beginDict] at h
    split at h
    · next hc =>
      cases h
      refine Trans.same hw fun F b hb => ?_
      have : b.root.isSome = true := by rw [← hb.closed]; exact hc
      simp only [Build.step, Build.open, this, if_true]
    · next hc =>
      split at h
      · next hk =>
        cases h
        refine Trans.same hw fun F b hb => ?_
        have : b.root.isSome = false := by rw [← hb.closed]; simpa using hc
        obtain ⟨kvs, rest, hs⟩ := hb.waiting hk
        simp only [Build.step, Build.open, this, hs]; rfl
      · next hk => cases h; exact .openDict (by simpa using hc) (by simpa using hk)
  | key k => exact writeKey_trans hw hphi (by simp only [Op.weight] at ho; omega) h
  | value x => exact writeValue_trans hw hphi ho h
  | endArray =>
    cases hs : e.stack with
    | nil =>
      simp only [Enc.step, Enc.endArray] at h
      rw [hs] at h
      cases h
      refine Trans.same hw fun F b hb => ?_
      simp only [Build.step, hb.nil hs]
    | cons coll rest =>
      cases coll with
      | arr vs =>
        have hp := Enc.phi_cons hs
        simp only [Collection.cost] at hp
        have hlen := arrOut_length hw.even vs (by omega)
        simp only [Enc.step] at h
        rw [Enc.endArray_eq c e hs hw.even (hw.bounded (.arr vs) (by rw [hs]; simp)) (by omega),
          Enc.finishedCollection_eq c _ (by exact hlen.1) (by exact hlen.2.1) (by simp only; omega)] at h
        cases h
        exact .endArr hs
      | dict els nk =>
        cases nk with
        | none =>
          simp only [Enc.step, Enc.endArray] at h
          rw [hs] at h
          cases h
          exact .discard hs
        | some k =>
          simp only [Enc.step, Enc.endArray] at h
          rw [hs] at h
          cases h
          refine Trans.same hw fun F b hb => ?_
          obtain ⟨f, fr, h1, h2, _⟩ := hb.cons hs
          obtain ⟨kvs, k', rfl⟩ := kind_dict_some h2
          simp only [Build.step, h1]
  | endDict =>
    cases hs : e.stack with
    | nil =>
      simp only [Enc.step, Enc.endDict] at h
      rw [hs] at h
      cases h
      refine Trans.same hw fun F b hb => ?_
      simp only [Build.step, hb.nil hs]
    | cons coll rest =>
      cases coll with
      | arr vs =>
        simp only [Enc.step, Enc.endDict] at h
        rw [hs] at h
        cases h
        refine Trans.same hw fun F b hb => ?_
        obtain ⟨f, fr, h1, h2, _⟩ := hb.cons hs
        obtain ⟨kvs, rfl⟩ := kind_arr h2
        simp only [Build.step, h1]
      | dict els nk =>
        cases nk with
        | some k =>
          simp only [Enc.step, Enc.endDict] at h
          rw [hs] at h
          cases h
          refine Trans.same hw fun F b hb => ?_
          obtain ⟨f, fr, h1, h2, _⟩ := hb.cons hs
          obtain ⟨kvs, k', rfl⟩ := kind_dict_some h2
          simp only [Build.step, h1]
        | none =>
          have hp := Enc.phi_cons hs
          simp only [Collection.cost] at hp
          have hlen := dictOut_length hw.even (els.any (Enc.pairFar e.out.length)) (c.sort.run els)
            (by rw [(c.sort.perm els).length_eq]; omega)
          rw [(c.sort.perm els).length_eq] at hlen
          simp only [Enc.step] at h
          rw [Enc.endDict_eq c e hs hw.even (hw.bounded (.dict els none) (by rw [hs]; simp)).1 (by omega),
            Enc.finishedCollection_eq c _ (by exact hlen.1) (by exact hlen.2.1) (by simp only; omega)] at h
          cases h
          exact .endDict hs

end Fleece
