import Verif.Props.C20

/-!
# C21 Whatever the encoder produces is accepted by the decoder

False of the code, for two independent reasons (`C21_refuted_data`, `C21_refuted_width`); true under the conditions of C20.
-/

namespace Fleece.Props
open Fleece Res

/-- The bytes are accepted by `from_bytes`, wherever they lie. -/
def Accepted (out : List UInt8) : Prop := ∀ m : Mem, m.data = out → m.base + out.length < 2 ^ 64 → ∃ v, fromBytes m = .ok v

theorem accepted_of_decodes {F : FloatOps} {scope : Option SharedKeys} {out : List UInt8} {t : Tree}
    (h : Decodes F scope out t) : Accepted out := by
  intro m hm hb
  obtain ⟨v, _, hv, _⟩ := h m hm hb
  exact ⟨v, hv⟩

/-- **C21, exact conditions**: those of `C20_exact_partial`. -/
theorem C21_exact_partial (c : Cfg) (F : FloatOps) (sk : Option SharedKeys) (hsk : ∀ s, sk = some s → s.WF)
    (ops : List Op) (hsize : Op.total ops ≤ SizedValue.maxWide) (e : Enc) (rs : List (Except EncodeError Unit))
    (h : ({ Enc.new with sk } : Enc).run c ops = .ok (e, rs)) (hok : RunOK c { Enc.new with sk } ops)
    (hfin : FinishOK c e.stack.length e) (hopen : (Build.run F {} ops).1.finish ≠ none) :
    ∃ out, e.finish c = .ok out ∧ Accepted out := by
  cases ht : (Build.run F {} ops).1.finish with
  | none => exact absurd ht hopen
  | some t =>
    obtain ⟨out, h1, h2⟩ := C20_exact_partial c F sk e.sk hsk ops hsize e rs h hok hfin (.refl _) t ht
    exact ⟨out, h1, accepted_of_decodes h2⟩

/-- **C21, small documents**, rejected calls allowed. -/
theorem C21_small_partial (c : Cfg) (F : FloatOps) (sk : Option SharedKeys) (hsk : ∀ s, sk = some s → s.WF)
    (ops : List Op) (hsize : Op.total ops ≤ SizedValue.maxNarrow) (hplain : ∀ op ∈ ops, op.Plain sk.isSome)
    (hor : Orderly F {} ops) (e : Enc) (rs : List (Except EncodeError Unit))
    (h : ({ Enc.new with sk } : Enc).run c ops = .ok (e, rs)) (hopen : (Build.run F {} ops).1.finish ≠ none) :
    ∃ out, e.finish c = .ok out ∧ Accepted out := by
  cases ht : (Build.run F {} ops).1.finish with
  | none => exact absurd ht hopen
  | some t =>
    obtain ⟨out, h1, h2⟩ := C20_orderly_partial c F sk e.sk hsk ops hsize hplain hor e rs h (.refl _) t ht
    exact ⟨out, h1, accepted_of_decodes h2⟩

example (F : FloatOps) : (Build.run F {} exampleOps).1.finish ≠ none := by
  rw [show (Build.run F {} exampleOps).1.finish = some _ from rfl]; simp

/-- **C21 is false of the code: data.** An array holding one byte of data is rejected by `from_bytes`. -/
theorem C21_refuted_data : ∃ (c : Cfg) (ops : List Op) (e : Enc) (rs : List (Except EncodeError Unit)) (out : List UInt8)
    (x : DecodeError), Enc.new.run c ops = .ok (e, rs) ∧ (∀ r ∈ rs, r = .ok ()) ∧ e.finish c = .ok out ∧
      fromBytes ⟨out, 0, true⟩ = .err x :=
  ⟨exampleCfg, [.beginArray 0, .value (.data [0x61]), .endArray], _, [.ok (), .ok (), .ok ()],
    [0x60, 0x01, 0x11, 0x61, 0x80, 0x02], .valueOutOfBounds .int 3 2, rfl, by simp, by decide +kernel, by decide +kernel⟩

/-! ## The width of the slots is chosen too early -/

/-- A collection with 2-byte slots whose first slot is a pointer with offset 0. -/
theorem zero_pointer_rejected' (d : Bool) {n : Nat} (hn : 1 ≤ n) {m : Mem} (hbase : m.base + m.data.length < 2 ^ 64) {pre hdr tail : List UInt8}
    (hhdr : padEven (pre ++ headerBytes (if d then 0x70 else 0x60) n false) = pre ++ hdr)
    (hpre : pre.length % 2 = 0) (htail : tail.length % 2 = 0) (hn2 : (if d then n * 2 else n) * 2 ≤ 2 + tail.length)
    (hsmall : tail.length ≤ 100000)
    (hd : m.data = (pre ++ hdr ++ [0x80, 0x00] ++ tail) ++ rootBytes (hdrLen n + 2 + tail.length)) :
    fromBytes m = .err .pointerOffsetZero := by
  have hmw : SizedValue.maxWide = 0x3fffffff := rfl
  have hnb : n < 2 ^ 63 := by cases d <;> simp at hn2 <;> omega
  have hhl : hdr.length = hdrLen n := by
    have := congrArg List.length hhdr
    rw [padHeader_length hpre _ (by omega), List.length_append] at this
    omega
  have hge := hdrLen_ge n
  have hle := hdrLen_le (n := n) (by omega)
  have hev : hdrLen n % 2 = 0 := by unfold hdrLen; omega
  have hhs : headerSize n ≤ hdrLen n := by unfold hdrLen; omega
  have hrb : 2 ≤ (rootBytes (hdrLen n + 2 + tail.length)).length := by
    unfold rootBytes; split <;> simp [ptrBytes]
  have hlen : m.data.length = pre.length + hdrLen n + 2 + tail.length + (rootBytes (hdrLen n + 2 + tail.length)).length := by
    rw [hd, List.length_append]; simp only [List.length_append, hhl, List.length_cons, List.length_nil]
  have hat : At m.data pre.length (headerBytes (if d then 0x70 else 0x60) n false) := by
    have := padHeader_at pre (if d then 0x70 else 0x60) n false ([0x80, 0x00] ++ tail ++ rootBytes (hdrLen n + 2 + tail.length))
    rw [hhdr] at this
    rw [hd]; simpa using this
  have hat2 : At m.data (pre.length + hdrLen n) [0x80, 0x00] :=
    ⟨pre ++ hdr, tail ++ rootBytes (hdrLen n + 2 + tail.length), by rw [hd]; simp, by simp [hhl]⟩
  have hh : Holds m ⟨pre.length, hdrLen n + 2 + tail.length⟩ (headerBytes (if d then 0x70 else 0x60) n false) :=
    hat.holds rfl (by unfold Val.In; simp only; omega) (by rw [headerBytes_length _ (by omega)]; simp only; omega)
  have hh2 : Holds m ⟨pre.length + hdrLen n, 2⟩ [0x80, 0x00] := hat2.holds rfl (by unfold Val.In; simp only; omega) (Nat.le_refl 2)
  obtain ⟨h1, h2, h3, h4⟩ := header_read d (n := n) (by omega) hh
  have hroot : findRoot m = .ok ⟨pre.length, hdrLen n + 2 + tail.length⟩ := by
    refine find_root hd ?_ ?_ (by omega) (by omega) (by omega) h1 (by cases d <;> simp) <;>
      simp only [List.length_append, hhl, List.length_cons, List.length_nil] <;> omega
  unfold fromBytes fromBytesGo
  rw [hroot]
  simp only [ok_bind]
  obtain ⟨f, hf⟩ : ∃ f, fuelFor m.data.length = f + 2 := ⟨m.data.length * m.data.length + 2 * m.data.length, by
    unfold fuelFor; rw [Nat.add_mul, Nat.mul_add]; omega⟩
  rw [hf]
  have ht : Val.type m ⟨pre.length + hdrLen n, 2⟩ = .ok .pointer := by rw [hh2.type]; rfl
  have hslot : fromRaw m (pre.length + hdrLen n) 2 = .ok ⟨pre.length + hdrLen n, 2⟩ := by
    unfold fromRaw
    rw [mkSlice_eq (by omega)]
    simp only [ok_bind]
    have : Val.requiredSize m ⟨pre.length + hdrLen n, 2⟩ = .ok 2 := by unfold Val.requiredSize; rw [ht]; rfl
    rw [if_neg (by omega), this]
    rfl
  have hoff : Val.getOffset m ⟨pre.length + hdrLen n, 2⟩ false = .ok 0 := by
    have hraw := hh2.rawRead (a := 0) (n := 2) (by simp)
    simp only [Nat.add_zero, List.drop_zero] at hraw
    unfold Val.getOffset
    simp only [Bool.false_eq_true, if_false]
    rw [hraw]; rfl
  have helem : ∀ next, validateGo m (f + 1) true false ⟨pre.length + hdrLen n, 2⟩ next = .err .pointerOffsetZero := by
    intro next
    unfold validateGo
    rw [ht]
    simp only [ok_bind]
    unfold derefChecked derefCheckedGo
    rw [if_neg (by simp), hoff]
    rfl
  have harr : validateGo m (f + 2) false false ⟨pre.length, hdrLen n + 2 + tail.length⟩ m.data.length = .err .pointerOffsetZero := by
    have : validateGo m (f + 2) false false ⟨pre.length, hdrLen n + 2 + tail.length⟩ m.data.length =
        arrayValidate m (fun w => validateGo m (f + 1) true w) ⟨pre.length, hdrLen n + 2 + tail.length⟩ m.data.length := by
      rw [validateGo, h1]; cases d <;> rfl
    rw [this]
    unfold arrayValidate
    simp only [h2, h3, h4, ok_bind, Bool.false_eq_true, if_false]
    obtain ⟨k, hk⟩ : ∃ k, (if d = true then n * 2 else n) = k + 1 := by
      cases d with
      | false => exact ⟨n - 1, by simp; omega⟩
      | true => exact ⟨n * 2 - 1, by simp; omega⟩
    rw [hk] at hn2 ⊢
    rw [usizeMul_eq _ (by omega)]
    simp only [ok_bind]
    unfold usizeAdd
    rw [if_pos (by omega)]
    simp only [ok_bind]
    rw [if_neg (by omega)]
    unfold validateElems
    rw [hslot]
    simp only [ok_bind]
    rw [helem]
    rfl
  rw [harr]
  rfl

/-- The case of one entry. -/
theorem zero_pointer_rejected (d : Bool) {m : Mem} (hbase : m.base + m.data.length < 2 ^ 64) {pre tail : List UInt8}
    (hpre : pre.length % 2 = 0) (htail : tail.length % 2 = 0) (hd2 : d = true → 2 ≤ tail.length) (hsmall : tail.length ≤ 100)
    (hd : m.data = (pre ++ headerBytes (if d then 0x70 else 0x60) 1 false ++ [0x80, 0x00] ++ tail) ++ rootBytes (4 + tail.length)) :
    fromBytes m = .err .pointerOffsetZero := by
  have hhl : (headerBytes (if d then 0x70 else 0x60) 1 false).length = 2 := by cases d <;> decide
  refine zero_pointer_rejected' d (Nat.le_refl 1) hbase (padEven_of_even ?_) hpre htail ?_ (by omega) hd
  · rw [List.length_append, hhl]; omega
  · cases d with
    | false => simp
    | true => have := hd2 rfl; simp; omega

theorem long_array_rejected {m : Mem} (hbase : m.base + m.data.length < 2 ^ 64) {pre : List UInt8} (hl : pre.length = 16382)
    (hd : m.data = (pre ++ [0x60, 0x01] ++ [0x80, 0x00, 0x20, 0x00]) ++ rootBytes 6) : fromBytes m = .err .pointerOffsetZero :=
  zero_pointer_rejected false (pre := pre) (tail := [0x20, 0x00]) hbase (by omega) (by decide) (by simp) (by decide) (by
    rw [hd]
    have : headerBytes 0x60 1 false = [0x60, 0x01] := by decide
    simp [this])

/-- **C21 is false of the code: width.** *Every* array whose only element is a string of 16379 bytes is rejected: all
calls succeed, `finish` returns bytes, and `from_bytes` refuses them. (The string and its header take 16382 bytes, which a
2-byte pointer could bridge; with the header of the array it is 16384, which it cannot. The encoder compares too early,
chooses 2-byte slots, and then writes a 4-byte pointer.) -/
theorem C21_refuted_width (c : Cfg) (s : RStr) (hs : s.bytes.length = 16379) :
    ∃ e out, Enc.new.run c [.beginArray 1, .value (.str s), .endArray] = .ok (e, [.ok (), .ok (), .ok ()]) ∧
      e.finish c = .ok out ∧ ∀ m : Mem, m.data = out → m.base + out.length < 2 ^ 64 →
        fromBytes m = .err .pointerOffsetZero := by
  have hmw : SizedValue.maxWide = 0x3fffffff := rfl
  let F : FloatOps := ⟨fun _ => 0, fun _ => 0, fun _ => 0, fun _ => 0, fun _ => 0, fun _ => 0⟩
  have hsv : (Scalar.str s).Survives := by show s.bytes.length < _; omega
  have hst : (Scalar.str s).toSized = none := by
    show dataSized 0x40 s.bytes = none
    rw [dataSized_none]; omega
  have hsz : (Scalar.str s).size = 16382 := by
    show dataSize s.bytes.length = _
    rw [hs]; decide
  obtain ⟨bs, ty, hb1, hb2, hb3⟩ := Scalar.writeTo_ok (F := F) c.dbg hsv (Nat.le_refl _)
  rw [hsz] at hb2
  have hbe : bs.length % 2 = 0 := by omega
  -- the three calls
  let e1 : Enc := { Enc.new with stack := [.arr []] }
  let e2 : Enc := { Enc.new with out := bs, stack := [.arr [ptrSlot 0]] }
  have s1 : Enc.new.step c (.beginArray 1) = .ok (e1, .ok ()) := rfl
  have s2 : e1.step c (.value (.str s)) = .ok (e2, .ok ()) := by
    obtain ⟨hp, _, _⟩ := ptrSlot_spec (off := 0) (by decide)
    simp only [Enc.step, Enc.writeValue, e1, List.isEmpty_cons, Bool.false_eq_true, if_false, hst]
    rw [Enc.write_item c _ (.scalar (.str s)) (bs := bs) hb1 (by simp only [Item.size]; rw [hsz]; exact hb2)]
    simp only [ok_bind, Enc.new, List.length_nil, Nat.zero_mod, hp, Enc.push, Enc.done, List.nil_append]
    rw [padEven_of_even hbe]
    rfl
  have hfar : [ptrSlot 0].any (Enc.slotFar bs.length) = false := by
    rw [hb2]; decide
  have hb : ∀ v ∈ [ptrSlot 0], v.Bounded e2.out.length := by
    intro v hv
    simp only [List.mem_singleton] at hv
    subst hv
    intro _
    rw [(ptrSlot_spec (off := 0) (by decide)).2.2]; omega
  have harr : Enc.arrOut bs [ptrSlot 0] = bs ++ [0x60, 0x01] ++ [0x80, 0x00, 0x20, 0x00] := by
    unfold Enc.arrOut
    rw [hfar]
    dsimp only
    have hh : headerBytes 0x60 [ptrSlot 0].length false = [0x60, 0x01] := by decide
    rw [hh, padEven_of_even (by simp; omega)]
    have hl : (bs ++ [0x60, 0x01]).length = 16384 := by simp [hb2]
    rw [hl]
    have : (Enc.relArray false 16384 [ptrSlot 0]).map (slotBytes false) = [[0x80, 0x00, 0x20, 0x00]] := by decide +kernel
    rw [this]
    simp
  have hlen : (bs ++ [0x60, 0x01] ++ [0x80, 0x00, 0x20, 0x00]).length = 16388 := by simp [hb2]
  have s3 : e2.step c .endArray = .ok (Enc.closeEnc { e2 with stack := [], out := Enc.arrOut bs [ptrSlot 0] } bs.length, .ok ()) := by
    simp only [Enc.step]
    rw [Enc.endArray_eq c e2 (rest := []) rfl hbe hb (by simp only [e2, hb2]; decide)]
    rw [Enc.finishedCollection_eq c _ (by simp only; rw [show e2.out = bs from rfl, harr, hlen])
      (by simp only; rw [show e2.out = bs from rfl, harr, hlen, hb2]; omega)
      (by simp only; rw [show e2.out = bs from rfl, harr, hlen]; omega)]
    rfl
  refine ⟨Enc.closeEnc { e2 with stack := [], out := Enc.arrOut bs [ptrSlot 0] } bs.length,
    bs ++ [0x60, 0x01] ++ [0x80, 0x00, 0x20, 0x00] ++ rootBytes 6, ?_, ?_, ?_⟩
  · simp only [Enc.run, s1, s2, s3, ok_bind, pure_eq]
  · rw [harr, hb2]
    unfold Enc.finish Enc.closeEnc
    simp only [hlen]
    rfl
  · intro m hm hbase
    exact long_array_rejected (by rw [hm]; exact hbase) hb2 hm

/-- A string of `n` letters. -/
def letters (n : Nat) : RStr := ⟨List.replicate n 0x61, by
  induction n with
  | zero => rfl
  | succ n ih =>
    have h : (utf8Decode? (List.replicate n 0x61)).isSome = true := ih
    show (utf8Decode? (0x61 :: List.replicate n 0x61)).isSome = true
    unfold utf8Decode?
    simp [h]⟩

example : ∃ s : RStr, s.bytes.length = 16379 := ⟨letters 16379, List.length_replicate⟩

/-- `abc`. -/
def sabc : RStr := ⟨[0x61, 0x62, 0x63], by decide⟩

theorem sabc_bytes {dbg : Bool} : Item.writeTo dbg (.key sabc.bytes) (Item.key sabc.bytes).size false =
    .ok (some [0x43, 0x61, 0x62, 0x63]) := by
  show writeData 0x40 _ _ _ = _
  decide +kernel

/-- **C21 is false of the code: keys.** *Every* document `{"abc": [s]}` with a string of 16384 to 131000 bytes is
rejected: all calls succeed, `finish` returns bytes, and `from_bytes` refuses them. (`_dict_should_be_wide` compares the
position of the key in the output, 0, instead of its distance from the dict.) -/
theorem C21_refuted_dict_key (c : Cfg) (s : RStr) (hs : 16384 ≤ s.bytes.length) (hs2 : s.bytes.length ≤ 131000) :
    ∃ e out, Enc.new.run c [.beginDict, .key sabc, .beginArray 1, .value (.str s), .endArray, .endDict] =
        .ok (e, [.ok (), .ok (), .ok (), .ok (), .ok (), .ok ()]) ∧
      e.finish c = .ok out ∧ ∀ m : Mem, m.data = out → m.base + out.length < 2 ^ 64 →
        fromBytes m = .err .pointerOffsetZero := by
  have hmw : SizedValue.maxWide = 0x3fffffff := rfl
  have hmn : SizedValue.maxNarrow = 0x3fff := rfl
  let F : FloatOps := ⟨fun _ => 0, fun _ => 0, fun _ => 0, fun _ => 0, fun _ => 0, fun _ => 0⟩
  have hsv : (Scalar.str s).Survives := by show s.bytes.length < _; omega
  have hst : (Scalar.str s).toSized = none := by
    show dataSized 0x40 s.bytes = none
    rw [dataSized_none]; omega
  have hsz1 : s.bytes.length < (Scalar.str s).size := by
    show _ < dataSize s.bytes.length
    unfold dataSize; split
    · omega
    · split <;> omega
  have hsz2 : (Scalar.str s).size ≤ s.bytes.length + 11 := dataSize_le (by omega)
  obtain ⟨bs, ty, hb1, hb2, hb3⟩ := Scalar.writeTo_ok (F := F) c.dbg hsv (Nat.le_refl _)
  -- the calls
  let k : List UInt8 := [0x43, 0x61, 0x62, 0x63]
  let o2 := padEven (k ++ bs)
  have ho2 : o2.length % 2 = 0 := padEven_even _
  have ho2l : o2.length = (4 + bs.length) + (4 + bs.length) % 2 := by
    show (padEven _).length = _
    rw [padEven_length, List.length_append]; rfl
  let e1 : Enc := { Enc.new with stack := [.dict [] none] }
  let e2 : Enc := { Enc.new with out := k, stack := [.dict [] (some (.pointer sabc.bytes 0))] }
  let e3 : Enc := { e2 with stack := .arr [] :: e2.stack }
  let e4 : Enc := { e3 with out := o2, stack := .arr [ptrSlot 4] :: e2.stack }
  let o3 := Enc.arrOut o2 [ptrSlot 4]
  let els : List DictElem := [⟨.pointer sabc.bytes 0, ptrSlot o2.length⟩]
  let e5 : Enc := { e4 with out := o3, stack := [.dict els none] }
  have s1 : Enc.new.step c .beginDict = .ok (e1, .ok ()) := rfl
  have s2 : e1.step c (.key sabc) = .ok (e2, .ok ()) := by
    have hn : dataSized 0x40 sabc.bytes = none := rfl
    have hpk : padEven k = k := by show padEven [0x43, 0x61, 0x62, 0x63] = _; decide
    simp only [Enc.step, Enc.writeKey, hn, Enc.writeKeyLong, e1, Enc.new, Enc.writeKeyPointer]
    rw [Enc.write_item c _ (.key sabc.bytes) (bs := k) sabc_bytes rfl]
    simp only [ok_bind, List.nil_append, hpk, List.length_nil, Nat.zero_mod, Enc.pushKey,
      Option.isSome_none, Bool.false_eq_true, if_false]
    rfl
  have s3 : e2.step c (.beginArray 1) = .ok (e3, .ok ()) := rfl
  have s4 : e3.step c (.value (.str s)) = .ok (e4, .ok ()) := by
    obtain ⟨hp, _, _⟩ := ptrSlot_spec (off := 4) (by decide)
    simp only [Enc.step, Enc.writeValue, e3, List.isEmpty_cons, Bool.false_eq_true, if_false, hst]
    rw [Enc.write_item c _ (.scalar (.str s)) (bs := bs) hb1 hb2]
    simp only [ok_bind, e2, show k.length % 2 ^ 32 = 4 from rfl, hp, Enc.push, Enc.done, List.nil_append]
    rfl
  have hfar : [ptrSlot 4].any (Enc.slotFar o2.length) = true := by
    simp only [List.any_cons, List.any_nil, Bool.or_false, Enc.slotFar]
    have := (ptrSlot_spec (off := 4) (by decide))
    rw [this.2.1, this.2.2]
    simp only [decide_true, Bool.true_and, decide_eq_true_eq]
    omega
  have ho3 : o3.length = o2.length + 6 ∧ o3.length % 2 = 0 := by
    have hx : o3.length = o2.length + 6 := by
      show (Enc.arrOut _ _).length = _
      unfold Enc.arrOut
      rw [hfar]
      dsimp only
      rw [List.length_append, padHeader_length ho2 _ (by simp)]
      have h1 : hdrLen [ptrSlot 4].length = 2 := by decide
      have h2 : (((Enc.relArray true (o2.length + 2) [ptrSlot 4]).map (slotBytes true)).flatten).length = 4 := by
        simp only [Enc.relArray, List.map_cons, List.map_nil, List.flatten_cons, List.flatten_nil, List.append_nil,
          slotBytes_length, if_true]
        unfold SizedValue.size
        split <;> (try split) <;> rfl
      rw [h1, h2]
    exact ⟨hx, by omega⟩
  have s5 : e4.step c .endArray = .ok (e5, .ok ()) := by
    simp only [Enc.step]
    rw [Enc.endArray_eq c e4 (rest := e2.stack) rfl ho2 (by
        intro v hv
        simp only [List.mem_singleton] at hv
        subst hv
        intro _
        rw [(ptrSlot_spec (off := 4) (by decide)).2.2]
        show 4 ≤ o2.length
        omega) (by simp only [e4, List.length_singleton]; omega)]
    rw [Enc.finishedCollection_eq c _ (by exact ho3.2)
      (by show o2.length ≤ o3.length; omega)
      (by show o3.length ≤ _; omega)]
    rfl
  have hnofar : els.any (Enc.pairFar o3.length) = false := by
    simp only [els, List.any_cons, List.any_nil, Bool.or_false, Enc.pairFar, Enc.slotFar]
    have := (ptrSlot_spec (off := o2.length) (by omega))
    rw [this.2.1, this.2.2]
    simp only [decide_true, Bool.true_and, Bool.or_eq_false_iff, decide_eq_false_iff_not]
    omega
  have hsort : c.sort.run els = els := List.perm_singleton.mp (c.sort.perm els)
  have hhb : headerBytes 0x70 1 false = [0x70, 0x01] := by decide
  have hdict : Enc.dictOut o3 false els = o3 ++ [0x70, 0x01] ++ [0x80, 0x00] ++
      ([UInt8.ofNat ((o3.length + 2) / 2 / 2 ^ 8), UInt8.ofNat ((o3.length + 2) / 2)] ++ ptrBytes false 10) := by
    unfold Enc.dictOut
    dsimp only
    have hl1 : (padEven (o3 ++ headerBytes 0x70 els.length false)) = o3 ++ [0x70, 0x01] := by
      show padEven (o3 ++ headerBytes 0x70 1 false) = _
      rw [hhb, padEven_of_even (by simp; omega)]
    rw [hl1]
    have hl2 : (o3 ++ [0x70, 0x01]).length = o3.length + 2 := by simp
    rw [hl2]
    simp only [els, Enc.relDict, Enc.relKey, Enc.pairsBytes, List.map_cons, List.map_nil, List.flatten_cons,
      List.flatten_nil, List.append_nil, Nat.sub_zero, Enc.keySlotVal]
    have h1 : slotBytes false (ptrSlot (o3.length + 2)) =
        [0x80, 0x00, UInt8.ofNat ((o3.length + 2) / 2 / 2 ^ 8), UInt8.ofNat ((o3.length + 2) / 2)] := by
      rw [slotBytes_ptr (by omega)]
      have : decide (o3.length + 2 > SizedValue.maxNarrow) = true := by rw [decide_eq_true_eq]; omega
      rw [this]
      simp only [Bool.or_true, ptrBytes, if_true]
      have e1 : (o3.length + 2) / 2 / 2 ^ 24 = 0 := by omega
      have e2 : (o3.length + 2) / 2 / 2 ^ 16 = 0 := by omega
      rw [e1, e2]; rfl
    have h2 : Enc.relSlot (ptrSlot o2.length) (o3.length + 2 + Enc.slotWidth false) = ptrSlot 10 := by
      have := ptrSlot_spec (off := o2.length) (by omega)
      unfold Enc.relSlot
      rw [if_pos this.2.1, this.2.2]
      have : o3.length + 2 + Enc.slotWidth false - o2.length = 10 := by
        show o3.length + 2 + 2 - o2.length = 10
        omega
      rw [this]; rfl
    have h3 : slotBytes false (ptrSlot 10) = ptrBytes false 10 := by decide
    show o3 ++ [0x70, 0x01] ++ (slotBytes false (ptrSlot (o3.length + 2)) ++ slotBytes false (Enc.relSlot _ _)) = _
    rw [h1, h2, h3]
    simp
  have hdl : (Enc.dictOut o3 false els).length = o3.length + 8 := by rw [hdict]; simp [ptrBytes]
  let e6 : Enc := { e5 with out := Enc.dictOut o3 false els ++ rootBytes 8, stack := [], closed := true }
  have s6 : e5.step c .endDict = .ok (e6, .ok ()) := by
    simp only [Enc.step]
    rw [Enc.endDict_eq c e5 (els := els) (rest := []) rfl ho3.2 (by
        intro el hel
        simp only [els, List.mem_singleton] at hel
        subst hel
        refine ⟨Nat.zero_le _, fun _ => ?_⟩
        rw [(ptrSlot_spec (off := o2.length) (by omega)).2.2]
        show o2.length ≤ o3.length
        omega) (by show o3.length + 12 + 8 * 1 ≤ _; omega)]
    have hof : els.any (Enc.pairFar e5.out.length) = false := hnofar
    rw [hof, hsort, Enc.finishedCollection_eq c _ (by show (Enc.dictOut o3 false els).length % 2 = 0; omega)
      (by show o3.length ≤ (Enc.dictOut o3 false els).length; omega)
      (by show (Enc.dictOut o3 false els).length ≤ _; omega)]
    show Enc.done _ = _
    unfold Enc.closeEnc
    show Res.ok (({ e5 with out := Enc.dictOut o3 false els ++ rootBytes ((Enc.dictOut o3 false els).length - o3.length), stack := [], closed := true } : Enc), _) = _
    rw [hdl, show o3.length + 8 - o3.length = 8 by omega]
  refine ⟨e6, Enc.dictOut o3 false els ++ rootBytes 8, ?_, rfl, ?_⟩
  · simp only [Enc.run, s1, s2, s3, s4, s5, s6, ok_bind, pure_eq]
  · intro m hm hbase
    refine zero_pointer_rejected true (pre := o3)
      (tail := [UInt8.ofNat ((o3.length + 2) / 2 / 2 ^ 8), UInt8.ofNat ((o3.length + 2) / 2)] ++ ptrBytes false 10)
      (by rw [hm]; exact hbase) ho3.2 (by simp [ptrBytes]) (by simp [ptrBytes]) (by simp [ptrBytes]) ?_
    rw [hm, hdict]
    simp only [if_true, hhb]
    rfl

example : ∃ s : RStr, 16384 ≤ s.bytes.length ∧ s.bytes.length ≤ 131000 :=
  ⟨letters 20000, by rw [show (letters 20000).bytes.length = 20000 from List.length_replicate]; omega,
    by rw [show (letters 20000).bytes.length = 20000 from List.length_replicate]; omega⟩

end Fleece.Props
