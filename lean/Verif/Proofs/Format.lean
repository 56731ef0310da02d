import Verif.Spec.Format
import Verif.Proofs.RepRoot
import Verif.Proofs.Number
import Verif.Props.C01
import Verif.Spec.Fits

/-! # Documents of the format are represented -/

namespace Fleece
open Res Spec

theorem Format.Here.at {data : List UInt8} {p : Nat} {bs : List UInt8} (h : Format.Here data p bs) (hne : 0 < bs.length) :
    At data p bs := by
  obtain ⟨post, hpost⟩ := h
  have hp : p ≤ data.length := by
    have := congrArg List.length hpost
    simp at this; omega
  exact ⟨data.take p, post, by rw [List.append_assoc, hpost, List.take_append_drop], by simp; omega⟩

theorem Format.Counted.pad {tag : Nat} {s bs : List UInt8} (h : Format.Counted tag s bs) (pad : List UInt8) :
    Format.Counted tag s (bs ++ pad) := by
  cases h with
  | short len h => rw [List.cons_append, List.append_assoc]; exact .short len h
  | long len h => rw [List.cons_append, List.append_assoc]; exact .long len h

theorem Format.Scalar.pad {F : FloatOps} {neg : Prop} {bs : List UInt8} {t : Tree} (h : Format.Scalar F neg bs t)
    (pad : List UInt8) : Format.Scalar F neg (bs ++ pad) t := by
  cases h with
  | null => exact .null
  | false => exact .false
  | true => exact .true
  | undefined => exact .undefined
  | int two hs sign =>
    have first : ∀ (i : Nat) (b : UInt8), bs[i]? = some b → (bs ++ pad)[i]? = some b := by
      intro i b hb
      rw [List.getElem?_append_left, hb]
      rcases Nat.lt_or_ge i bs.length with h | h
      · exact h
      · rw [List.getElem?_eq_none h] at hb; cases hb
    have hdrop : bs.drop 1 <+: (bs ++ pad).drop 1 := by
      rw [List.drop_append_of_le_length (by omega)]; exact List.prefix_append _ _
    refine .int (by simp; omega) ?_ ?_
    · cases hs with
      | short h0 tag h1 => exact .short (first _ _ h0) tag (first _ _ h1)
      | int hc h0 len h1 => exact .int hc (first _ _ h0) len (h1.trans hdrop)
      | unsigned hc h0 len h1 => exact .unsigned hc (first _ _ h0) len (h1.trans hdrop)
    · rintro ⟨b, hb, h1, h2⟩
      rw [List.getElem?_append_left (by omega)] at hb
      exact sign ⟨b, hb, h1, h2⟩
  | float tag len => rw [List.cons_append, List.cons_append, List.append_assoc]; exact .float tag len
  | double tag len => rw [List.cons_append, List.cons_append, List.append_assoc]; exact .double tag len
  | str two utf8 h => exact .str (by simp; omega) utf8 (h.pad pad)
  | data two h => exact .data (by simp; omega) (h.pad pad)

theorem ScalarBytes.pad {F : FloatOps} {bs : List UInt8} {ty : ValueType} {t : Tree} (h : ScalarBytes F bs ty t)
    (pad : List UInt8) : ScalarBytes F (bs ++ pad) ty t :=
  ⟨by have := h.two; simp; omega, h.scalar, fun m v hv => h.type m v hv.prefix_,
    fun m v hv => by
      obtain ⟨r, h1, h2⟩ := h.req m v hv.prefix_
      exact ⟨r, h1, by simp; omega⟩,
    fun m v scope f hv => h.read m v scope f hv.prefix_, h.form.pad pad⟩

theorem byte_eq_of {b : UInt8} {n : Nat} (h : b.toNat = n) : b = UInt8.ofNat n := by
  rw [← h]; simp

theorem Holds.stores {m : Mem} {v : Val} {bs : List UInt8} (h : Holds m v bs) {z : Int} (hs : Stores bs 0 z) :
    Stores m.data v.pos z := by
  have hat : ∀ (i : Nat) (b : UInt8), bs[i]? = some b → m.data[v.pos + i]? = some b := by
    intro i b hb
    rw [h.getElem? (by rcases Nat.lt_or_ge i bs.length with h | h
                       · exact h
                       · rw [List.getElem?_eq_none h] at hb; cases hb), hb]
  have hdrop : bs.drop 1 <+: m.data.drop (v.pos + 1) := by
    have h1 : bs <+: m.data.drop v.pos := by
      have := h.eq
      rw [← this]; exact List.take_prefix _ _
    obtain ⟨post, hp⟩ := h1
    cases bs with
    | nil => exact List.nil_prefix
    | cons b tl =>
      refine ⟨post, ?_⟩
      rw [← List.drop_drop, ← hp]; rfl
  cases hs with
  | short h0 tag h1 => exact .short (hat 0 _ h0) tag (hat 1 _ h1)
  | int hc h0 len h1 => exact .int hc (hat 0 _ h0) len (h1.trans hdrop)
  | unsigned hc h0 len h1 => exact .unsigned hc (hat 0 _ h0) len (h1.trans hdrop)

theorem Stores.required {m : Mem} {v : Val} {bs : List UInt8} {z : Int} (h : Holds m v bs) (two : 2 ≤ bs.length)
    (hs : Stores bs 0 z) : ∃ r, v.requiredSize m = .ok r ∧ r ≤ bs.length := by
  have hin := h.hin
  have hle := h.le
  have first : ∀ b, bs[(0 : Nat)]? = some b → v.type m = .ok (ValueType.fromByte b) ∧ v.byte m 0 = .ok b := by
    intro b hb
    have := h.byte hb
    exact ⟨by unfold Val.type; rw [this]; rfl, this⟩
  cases hs with
  | @short b0 b1 h0 tag h1 =>
    obtain ⟨ht, _⟩ := first _ h0
    rw [fromByte_short _ tag] at ht
    exact ⟨2, by simp only [Val.requiredSize, ht, ok_bind]; rfl, two⟩
  | @int c ds hc h0 len h1 =>
    obtain ⟨ht, hb⟩ := first _ h0
    obtain ⟨ft, _, hcount, _⟩ := fromByte_int c hc
    rw [ft] at ht
    have := h1.length_le
    rw [List.length_drop, len] at this
    exact ⟨2 + c, by simp only [Val.requiredSize, ht, ok_bind, hb, hcount]; rfl, by omega⟩
  | @unsigned c ds hc h0 len h1 =>
    obtain ⟨ht, hb⟩ := first _ h0
    obtain ⟨_, ft, _, hcount⟩ := fromByte_int c hc
    rw [ft] at ht
    have := h1.length_le
    rw [List.length_drop, len] at this
    exact ⟨2 + c, by simp only [Val.requiredSize, ht, ok_bind, hb, hcount]; rfl, by omega⟩

theorem stores_bytes {F : FloatOps} {bs : List UInt8} {z : Int} (two : 2 ≤ bs.length) (hs : Stores bs 0 z)
    (sign : Narrow bs 0 → z < 0 → False) : ∃ ty, ScalarBytes F bs ty (.int z) := by
  have hn : ∀ m v, Holds m v bs → Narrow m.data v.pos → Narrow bs 0 := by
    rintro m v h ⟨b, hb, h1, h2⟩
    refine ⟨b, ?_, h1, h2⟩
    have := h.getElem? (i := 0) (by omega)
    rw [Nat.add_zero, hb] at this
    exact this.symm
  have type : ∃ ty, ty.isScalar = true ∧ ∀ m v, Holds m v bs → v.type m = .ok ty := by
    have : ∃ b, bs[(0 : Nat)]? = some b ∧ (ValueType.fromByte b).isScalar = true := by
      cases hs with
      | @short b0 b1 h0 tag h1 => exact ⟨b0, h0, by rw [fromByte_short _ tag]; rfl⟩
      | @int c ds hc h0 len h1 => exact ⟨_, h0, by rw [(fromByte_int c hc).1]; rfl⟩
      | @unsigned c ds hc h0 len h1 => exact ⟨_, h0, by rw [(fromByte_int c hc).2.1]; rfl⟩
    obtain ⟨b, hb, hsc⟩ := this
    exact ⟨_, hsc, fun m v h => by unfold Val.type; rw [h.byte hb]; rfl⟩
  obtain ⟨ty, hsc, hty⟩ := type
  refine ⟨ty, two, hsc, hty, fun m v h => Stores.required h two hs, ?_, .int two hs sign⟩
  intro m v scope f h
  have hle := h.le
  have ht := hty m v h
  rcases stores_toInt F h.hin (by omega) (h.stores hs) with ⟨ht', hi, _⟩ | ⟨c, hc, ht', _, hn', lo, hi', hi⟩ | ⟨ht', _, _, h0, h64, hi⟩
  · simp only [readTree, ht', ok_bind, hi, pure_eq]
  · have hnn : ¬ (c < 7 ∧ z < 0) := fun hx => sign (hn m v h (hn'.mpr hx.1)) hx.2
    rw [if_neg hnn] at hi
    simp only [readTree, ht', ok_bind, hi, pure_eq]
  · simp only [readTree, ht', ok_bind, Val.toUnsignedInt, hi, pure_eq]
    congr 2
    split <;> omega

theorem fromByte_four (b : UInt8) (h : b.toNat / 8 = 4) :
    ValueType.fromByte b = .float ∨ ValueType.fromByte b = .double32 := by
  revert h b; exact forall_byte (by decide +kernel)

theorem fromByte_eight (b : UInt8) (h : b.toNat / 8 = 5) : ValueType.fromByte b = .double64 := by
  revert h b; exact forall_byte (by decide +kernel)

theorem any_float_bytes {F : FloatOps} {b x : UInt8} {d : List UInt8} (tag : b.toNat / 8 = 4) (len : d.length = 4) :
    ∃ ty, ScalarBytes F (b :: x :: d) ty (.float (F.widen (UInt32.ofNat (littleEndian d)))) := by
  have hty := fromByte_four b tag
  refine ⟨ValueType.fromByte b, by simp, by rcases hty with h | h <;> rw [h] <;> rfl, fun m v hv => hv.type, ?_, ?_, ?_⟩
  · intro m v hv
    refine ⟨6, ?_, by simp [len]⟩
    rcases hty with h | h <;> simp only [Val.requiredSize, hv.type, h, ok_bind] <;> rfl
  · intro m v scope f hv
    have hs := hv.slice (a := 2) (b := 6) (by omega) (by simp [len])
    rw [List.take_of_length_le (by simp [len])] at hs
    simp only [List.drop_succ_cons, List.drop_zero] at hs
    rw [littleEndian_eq]
    rcases hty with h | h <;>
      simp only [readTree, hv.type, h, ok_bind, Val.toDouble, Val.floatBits, hs, pure_eq, Bool.false_eq_true, if_false]
  · have h := Format.Scalar.float (F := F) (neg := False) (x := x) (pad := []) tag len
    rwa [List.append_nil] at h

theorem any_double_bytes {F : FloatOps} {b x : UInt8} {d : List UInt8} (tag : b.toNat / 8 = 5) (len : d.length = 8) :
    ScalarBytes F (b :: x :: d) .double64 (.float (UInt64.ofNat (littleEndian d))) := by
  have h := fromByte_eight b tag
  refine ⟨by simp, rfl, fun m v hv => by rw [hv.type, h], ?_, ?_, ?_⟩
  · intro m v hv
    refine ⟨10, ?_, by simp [len]⟩
    simp only [Val.requiredSize, hv.type, h, ok_bind]; rfl
  · intro m v scope f hv
    have hs := hv.slice (a := 2) (b := 10) (by omega) (by simp [len])
    rw [List.take_of_length_le (by simp [len])] at hs
    simp only [List.drop_succ_cons, List.drop_zero] at hs
    rw [littleEndian_eq]
    simp only [readTree, hv.type, h, ok_bind, Val.toDouble, Val.floatBits, hs, pure_eq, if_true]
  · have h := Format.Scalar.double (F := F) (neg := False) (x := x) (pad := []) tag len
    rwa [List.append_nil] at h

theorem dataSize_fits {n : Nat} (hn : n < 2 ^ 63) :
    dataSize n ≤ 1 + (Varint.write n).length + n ∧ (n ≤ 14 → dataSize n ≤ max 2 (1 + n)) := by
  have h1 := Varint.write_length_pos n
  have h2 := Varint.write_length_eq n (by omega)
  unfold dataSize
  split
  · omega
  · split <;> omega

theorem counted_bytes (d : Bool) {F : FloatOps} {s bs : List UInt8} (two : 2 ≤ bs.length)
    (h : Format.Counted (if d then 5 else 4) s bs) (hu : d = false → validUtf8 s = true) :
    ScalarBytes F bs (if d then .data else .string) (if d then .data s else .str s) := by
  have tag : ∀ c, c < 16 → ∀ b : UInt8, b.toNat = (if d then 5 else 4) * 16 + c →
      ValueType.fromByte b = (if d then .data else .string) ∧ (b &&& 0x0F).toNat = c := by
    intro c hc b hb
    have := fromByte_tag d ⟨c, hc⟩
    have e : b = (if d then 0x50 else 0x40) ||| UInt8.ofNat c := by
      rw [byte_eq_of hb]
      have : ∀ (d : Bool) (c : Fin 16), UInt8.ofNat ((if d then 5 else 4) * 16 + c.val) =
        (if d then 0x50 else 0x40) ||| UInt8.ofNat c.val := by decide +kernel
      exact this d ⟨c, hc⟩
    rw [e]; exact this
  cases h with
  | @short b pad len hb =>
    obtain ⟨hty, hn⟩ := tag _ (by omega) b hb
    refine data_bytes d rfl hty two hu ?_ (.short len hb) fun m v hv => getData_small hn (by omega) two hv
    have := (dataSize_fits (n := s.length) (by omega)).2 (by omega)
    simp only [List.length_cons, List.length_append] at two ⊢
    omega
  | @long b pad len hb =>
    obtain ⟨hty, hn⟩ := tag 15 (by omega) b hb
    rw [← Props.C01_write_is_leb128 s.length (by omega)]
    have h : ScalarBytes F (b :: (Varint.write s.length ++ s)) (if d then .data else .string)
        (if d then .data s else .str s) := by
      have hp := Varint.write_length_pos s.length
      have hform := Format.Counted.long (s := s) (pad := []) len hb
      rw [List.append_nil, ← Props.C01_write_is_leb128 _ (by omega)] at hform
      refine data_bytes d rfl hty (by simp; omega) hu ?_ hform fun m v hv => getData_big hn len hv
      have := (dataSize_fits len).1
      simp only [List.length_cons, List.length_append] at two ⊢
      omega
    exact h.pad pad

theorem Format.Scalar.bytes {F : FloatOps} {neg : Prop} (hneg : ¬ neg) {bs : List UInt8} {t : Tree}
    (h : Format.Scalar F neg bs t) : ∃ ty, ScalarBytes F bs ty t := by
  cases h with
  | null => exact ⟨_, constant_bytes (.inl ⟨rfl, rfl, rfl⟩)⟩
  | undefined => exact ⟨_, constant_bytes (.inr (.inl ⟨rfl, rfl, rfl⟩))⟩
  | false => exact ⟨_, constant_bytes (.inr (.inr (.inl ⟨rfl, rfl, rfl⟩)))⟩
  | true => exact ⟨_, constant_bytes (.inr (.inr (.inr ⟨rfl, rfl, rfl⟩)))⟩
  | int two hs sign => exact stores_bytes two hs fun h1 h2 => hneg (sign h1 h2)
  | @float b x d pad tag len =>
    obtain ⟨ty, h⟩ := any_float_bytes (F := F) (x := x) tag len
    exact ⟨ty, h.pad pad⟩
  | @double b x d pad tag len => exact ⟨_, (any_double_bytes (F := F) (x := x) tag len).pad pad⟩
  | str two utf8 h => exact ⟨_, counted_bytes Bool.false two h fun _ => utf8⟩
  | data two h => exact ⟨_, counted_bytes Bool.true two h fun h => by cases h⟩

/-! ## Pointers and headers -/

theorem Format.Points.ptr {data : List UInt8} {w : Bool} {q p : Nat} (h : Format.Points data w q p) :
    p ≤ q ∧ (q - p) % 2 = 0 ∧ q - p ≤ maxOff w ∧ At data q (ptrBytes w (q - p)) := by
  obtain ⟨bs, off, here, len, val, lt, eq⟩ := h
  have hoff : q - p = 2 * off := by omega
  have hat := here.at (by rw [len]; cases w <;> simp [Format.width])
  refine ⟨by omega, by omega, ?_, ?_⟩
  · cases w <;> simp [Format.width, maxOff] at lt ⊢ <;> omega
  · have : ptrBytes w (q - p) = bs := by
      rw [hoff]
      cases w with
      | false =>
        match bs, len with
        | [a, b], _ =>
          simp [Format.width, Format.bigEndian, littleEndian] at val lt
          have := byte_lt a
          have := byte_lt b
          unfold ptrBytes
          simp only [Bool.false_eq_true, if_false]
          congr 1
          · apply UInt8.toNat_inj.mp
            rw [or80_toNat _ (by rw [ofNat_toNat]; omega), ofNat_toNat]; omega
          · congr 1
            apply UInt8.toNat_inj.mp
            rw [ofNat_toNat]; omega
      | true =>
        match bs, len with
        | [a, b, c, d], _ =>
          simp [Format.width, Format.bigEndian, littleEndian] at val lt
          have := byte_lt a
          have := byte_lt b
          have := byte_lt c
          have := byte_lt d
          unfold ptrBytes
          simp only [if_true]
          congr 1
          · apply UInt8.toNat_inj.mp
            rw [or80_toNat _ (by rw [ofNat_toNat]; omega), ofNat_toNat]; omega
          · congr 1
            · apply UInt8.toNat_inj.mp
              rw [ofNat_toNat]; omega
            · congr 1
              · apply UInt8.toNat_inj.mp
                rw [ofNat_toNat]; omega
              · congr 1
                apply UInt8.toNat_inj.mp
                rw [ofNat_toNat]; omega
    rw [this]; exact hat

theorem Format.header_eq {n : Nat} (hn : n < 2 ^ 64) (d w : Bool) :
    Format.header (if d then 7 else 6) n w = headerBytes (if d then 0x70 else 0x60) n w := by
  have hb : ∀ (d w : Bool) (a : Fin 8), UInt8.ofNat ((if d then 7 else 6) * 16 + (if w then 8 else 0) + a.val) =
      if w then 0x08 ||| (if d then 0x70 else 0x60) ||| UInt8.ofNat a.val
      else (if d then 0x70 else 0x60) ||| UInt8.ofNat a.val := by decide +kernel
  unfold Format.header headerBytes
  have := hb d w ⟨min n 2047 / 256, by omega⟩
  simp only at this
  rw [this]
  by_cases h : n < 2047
  · rw [if_pos h, if_neg (show ¬ n ≥ 0x07FF by omega)]; rfl
  · rw [if_neg h, Props.C01_write_is_leb128 n hn, if_pos (show n ≥ 0x07FF by omega)]; rfl

theorem Format.headerSize_eq {n : Nat} (hn : n < 2 ^ 64) : Format.headerSize n = hdrLen n := by
  unfold Format.headerSize hdrLen Fleece.headerSize
  by_cases h : n < 2047
  · rw [if_pos h, if_neg (by omega)]
  · rw [if_neg h, if_pos (by omega), ← Props.C01_write_is_leb128 n hn, Varint.write_length_eq n hn]; omega

theorem Format.KeySlot.key {r : Format.Reading} (hneg : ¬ r.neg) {data : List UInt8} {w : Bool} {q : Nat} {k : Key}
    (h : Format.KeySlot r data w q k) : KeyAt data r.F w q k := by
  cases h with
  | shared here len code => exact .shared (here.at (by simp)) len code rfl
  | inline here len hs =>
    obtain ⟨ty, hb⟩ := hs.bytes hneg
    exact .inline (here.at (by have := hb.two; omega)) len hb
  | pointer to here le hs =>
    obtain ⟨ty, hb⟩ := hs.bytes hneg
    obtain ⟨_, h1, h2, h3⟩ := to.ptr
    exact .pointer (here.at (by have := hb.two; omega)) hb le h1 h2 h3

theorem Format.Value.rep {r : Format.Reading} (hneg : ¬ r.neg) {data : List UInt8} {k : Option Bool} {p e : Nat} {t : Tree}
    (h : Format.Value r data k p e t) : Rep data r.F r.plain r.scope k p e t := by
  induction h with
  | scalar here hs =>
    obtain ⟨ty, hb⟩ := hs.bytes hneg
    exact .scalar (here.at (by have := hb.two; omega)) hb
  | inline here len hs =>
    obtain ⟨ty, hb⟩ := hs.bytes hneg
    exact .inline (here.at (by have := hb.two; omega)) len hb
  | pointer to le _ ih =>
    obtain ⟨_, h1, h2, h3⟩ := to.ptr
    have := ih.le
    exact .ptr h3 (by omega) le h1 h2 ih
  | @empty w q e t no le fits _ ih => exact .empty no le fits ih
  | @arr p w xs here small fits each ih =>
    have hs := Format.headerSize_eq (n := xs.length) (by omega)
    have hh := Format.header_eq (n := xs.length) (by omega) Bool.false w
    simp only [Bool.false_eq_true, if_false] at hh
    rw [hs] at fits ih ⊢
    rw [hh] at here
    exact .arr (here.at (by simp [headerBytes])) small fits ih
  | @dict p w ks kvs here small fits len keys names sorted vals ih =>
    have hs := Format.headerSize_eq (n := kvs.length) (by omega)
    have hh := Format.header_eq (n := kvs.length) (by omega) Bool.true w
    simp only [if_true] at hh
    rw [hs] at fits ih keys ⊢
    rw [hh] at here
    refine .dict (ks := ks) (here.at (by simp [headerBytes])) small fits len (fun i k hk => (keys i k hk).key hneg) ?_
      (sorted.imp fun h => .inl h) ?_ ih
    · intro i k s t hk hkv
      have := names i k s t hk hkv
      cases k with
      | shared c =>
        obtain ⟨sk, n, h1, h2⟩ := this
        exact ⟨sk, h1, by unfold SharedKeys.decode; rw [h2]; rfl⟩
      | string k => exact this.1
    · intro i s hk
      have hi : i < kvs.length := by
        rw [← len]
        rcases Nat.lt_or_ge i ks.length with h | h
        · exact h
        · rw [List.getElem?_eq_none h] at hk; cases hk
      obtain ⟨h1, h2⟩ := names i _ _ _ hk (List.getElem?_eq_getElem hi)
      rw [h1]; exact h2

/-! ## The root -/

/-- The root of a document of the format. -/
theorem Format.Document.root {r : Format.Reading} (hneg : ¬ r.neg) {m : Mem} (hbase : m.base + m.data.length < 2 ^ 64)
    {t : Tree} (h : Format.Document r m.data t) :
    ∃ p e len, fromBytes m = .ok ⟨p, len⟩ ∧ Rep m.data r.F r.plain r.scope none p e t ∧ e ≤ p + len ∧
      (⟨p, len⟩ : Val).In m ∧ ValueOK m r.F r.scope ⟨p, len⟩ e t := by
  have finish : ∀ {p e len : Nat}, Rep m.data r.F r.plain r.scope none p e t → e ≤ p + len → p + len ≤ m.data.length →
      (∀ ty, (⟨p, len⟩ : Val).type m = .ok ty → ty ≠ .pointer → findRoot m = .ok ⟨p, len⟩) →
      ∃ p e len, fromBytes m = .ok ⟨p, len⟩ ∧ Rep m.data r.F r.plain r.scope none p e t ∧ e ≤ p + len ∧
        (⟨p, len⟩ : Val).In m ∧ ValueOK m r.F r.scope ⟨p, len⟩ e t := by
    intro p e len hr hle hlen hf
    have hin : (⟨p, len⟩ : Val).In m := by unfold Val.In; simp only; omega
    have hok := hr.ok hbase
    dsimp only at hok
    have hv := hok ⟨p, len⟩ rfl hin hle
    obtain ⟨ty, h1, h2⟩ := hv.type
    refine ⟨p, e, len, ?_, hr, hle, hin, hv⟩
    unfold fromBytes fromBytesGo
    rw [hf ty h1 h2]
    simp only [ok_bind]
    have := hr.le
    have hfuel : e ≤ fuelFor m.data.length := by
      unfold fuelFor
      have := Nat.mul_le_mul_left (m.data.length + 1) (show 1 ≤ m.data.length + 1 by omega)
      omega
    rw [hv.valid _ _ _ hfuel (by omega)]
    rfl
  cases h with
  | alone two hs =>
    have hr := hs.rep hneg
    have := hr.le
    refine finish (len := 2) hr (by omega) (by omega) fun ty h1 h2 => ?_
    unfold findRoot
    dsimp only
    rw [if_neg (by omega), two, h1]
    simp only [ok_bind]
    rw [if_neg h2, if_pos trivial]; rfl
  | @narrow p e q _ even len to le hv =>
    have hr := hv.rep hneg
    have := hr.le
    obtain ⟨hpq, h1, h2, h3⟩ := to.ptr
    refine finish (len := q - p) hr (by omega) (by omega) fun ty h4 h5 => ?_
    have hh : Holds m ⟨q, 2⟩ (ptrBytes Bool.false (q - p)) :=
      h3.holds rfl (by unfold Val.In; simp only; omega) (by simp [ptrBytes])
    have hz : q - (q - p) = p := by omega
    unfold findRoot
    dsimp only
    rw [if_neg (by omega), len, show q + 2 - 2 = q by omega, ptr_type hh h2]
    simp only [ok_bind, if_true]
    unfold derefChecked
    rw [derefGo_step hh h2 h1 (by omega) (by simp only; omega) (by simp only [hz]; exact h4), if_neg h5]
    simp only [hz]
  | @wide p e q q' _ even len first room to le hv =>
    have hr := hv.rep hneg
    have := hr.le
    obtain ⟨hpq, h1, h2, h3⟩ := to.ptr
    obtain ⟨hqq, g1, g2, g3⟩ := first.ptr
    refine finish (len := q' - p) hr (by omega) (by omega) fun ty h4 h5 => ?_
    have hh : Holds m ⟨q, 2⟩ (ptrBytes Bool.false (q - q')) :=
      g3.holds rfl (by unfold Val.In; simp only; omega) (by simp [ptrBytes])
    have hh' : Holds m ⟨q', q - q'⟩ (ptrBytes Bool.true (q' - p)) :=
      h3.holds rfl (by unfold Val.In; simp only; omega) (by simp [ptrBytes]; omega)
    have hz : q - (q - q') = q' := by omega
    have hz' : q' - (q' - p) = p := by omega
    unfold findRoot
    dsimp only
    rw [if_neg (by omega), len, show q + 2 - 2 = q by omega, ptr_type hh g2]
    simp only [ok_bind, if_true]
    unfold derefChecked
    rw [derefGo_step hh g2 g1 (by omega) (by simp only; omega) (by simp only [hz]; exact ptr_type hh' h2), if_pos rfl]
    simp only [hz]
    have hstep := derefGo_step (fuel := q - 1) hh' h2 h1 (by omega) (by simp only; omega) (by simp only [hz']; exact h4)
    rw [show q - 1 + 1 = q by omega, if_neg h5] at hstep
    rw [hstep]
    simp only [hz']

/-! ## Documents without small signed numbers -/

theorem Format.Scalar.calm {F : FloatOps} {neg : Prop} {bs : List UInt8} {t : Tree} (h : Format.Scalar F neg bs t)
    (hb : ∀ b ∈ bs, ¬ (16 ≤ b.toNat ∧ b.toNat < 23)) : Format.Scalar F False bs t := by
  cases h with
  | null => exact .null
  | false => exact .false
  | true => exact .true
  | undefined => exact .undefined
  | int two hs sign => exact .int two hs fun ⟨b, h0, h1, h2⟩ _ => hb b (List.mem_of_getElem? h0) ⟨h1, h2⟩
  | float tag len => exact .float tag len
  | double tag len => exact .double tag len
  | str two utf8 h => exact .str two utf8 h
  | data two h => exact .data two h

theorem Format.Here.mem {data : List UInt8} {p : Nat} {bs : List UInt8} (h : Format.Here data p bs) {b : UInt8} (hb : b ∈ bs) :
    b ∈ data := List.mem_of_mem_drop (h.subset hb)

theorem Format.Value.calm {r : Format.Reading} {data : List UInt8} {k : Option Bool} {p e : Nat} {t : Tree}
    (h : Format.Value r data k p e t) (hb : ∀ b ∈ data, ¬ (16 ≤ b.toNat ∧ b.toNat < 23)) :
    Format.Value { r with neg := False } data k p e t := by
  have key : ∀ {w q k}, Format.KeySlot r data w q k → Format.KeySlot { r with neg := False } data w q k := by
    intro w q k h
    cases h with
    | shared here len code => exact .shared here len code
    | inline here len hs => exact .inline here len (hs.calm fun b h => hb b (here.mem h))
    | pointer to here le hs => exact .pointer to here le (hs.calm fun b h => hb b (here.mem h))
  induction h with
  | scalar here hs => exact .scalar here (hs.calm fun b h => hb b (here.mem h))
  | inline here len hs => exact .inline here len (hs.calm fun b h => hb b (here.mem h))
  | pointer to le _ ih => exact .pointer to le ih
  | empty no le fits _ ih => exact .empty no le fits ih
  | arr here small fits _ ih => exact .arr here small fits ih
  | dict here small fits len keys names sorted _ ih =>
    refine .dict here small fits len (fun i k hk => key (keys i k hk)) (fun i k s t h1 h2 => ?_) sorted ih
    have := names i k s t h1 h2
    cases k with
    | shared c => exact this
    | string k => exact this

/-- If no byte could begin a signed number of fewer than eight bytes, there is none. -/
theorem Format.Document.calm {r : Format.Reading} {data : List UInt8} {t : Tree} (h : Format.Document r data t)
    (hb : ∀ b ∈ data, ¬ (16 ≤ b.toNat ∧ b.toNat < 23)) : Format.Document { r with neg := False } data t := by
  cases h with
  | alone two hs => exact .alone two (hs.calm hb)
  | narrow even len to le hv => exact .narrow even len to le (hv.calm hb)
  | wide even len first room to le hv => exact .wide even len first room to le (hv.calm hb)

/-- Without shared keys no document has a key twice. -/
theorem Format.Value.distinct {r : Format.Reading} (hs : r.scope = none) {data : List UInt8} {k : Option Bool} {p e : Nat}
    {t : Tree} (h : Format.Value r data k p e t) : t.Distinct := by
  have leaf : ∀ {F : FloatOps} {neg : Prop} {bs : List UInt8} {t : Tree}, Format.Scalar F neg bs t → t.Distinct := by
    intro F neg bs t h
    refine .leaf ?_ ?_ <;> rintro _ rfl <;> cases h
  induction h with
  | scalar here h => exact leaf h
  | inline here len h => exact leaf h
  | pointer to le _ ih => exact ih
  | empty no le fits _ ih => exact ih
  | arr here small fits _ ih =>
    refine .arr fun x hx => ?_
    obtain ⟨i, hi⟩ := List.mem_iff_getElem?.mp hx
    exact ih i x hi
  | @dict p w ks kvs here small fits len keys names sorted _ ih =>
    refine .dict ?_ fun x hx => ?_
    · have : ks = kvs.map fun kv => Key.string kv.1 := by
        apply List.ext_getElem (by simpa using len)
        intro i h1 h2
        rw [List.getElem_map]
        have hk := names i _ _ _ (List.getElem?_eq_getElem h1) (List.getElem?_eq_getElem (show i < kvs.length by omega))
        cases hks : ks[i] with
        | shared c =>
          rw [hks] at hk
          obtain ⟨sk, _, h3, _⟩ := hk
          rw [hs] at h3; cases h3
        | string k =>
          rw [hks] at hk
          exact congrArg Key.string hk.1
      rw [this, List.pairwise_map] at sorted
      rw [List.nodup_iff_pairwise_ne, List.pairwise_map]
      refine sorted.imp fun {a b} hlt heq => ?_
      have hlt : a.1 < b.1 := hlt
      rw [heq] at hlt
      exact absurd hlt (List.lt_irrefl _)
    · obtain ⟨i, hi⟩ := List.mem_iff_getElem?.mp hx
      exact ih i x.1 x.2 hi

theorem Format.Document.distinct {r : Format.Reading} (hs : r.scope = none) {data : List UInt8} {t : Tree}
    (h : Format.Document r data t) : t.Distinct := by
  cases h with
  | alone _ hv => exact hv.distinct hs
  | narrow _ _ _ _ hv => exact hv.distinct hs
  | wide _ _ _ _ _ _ hv => exact hv.distinct hs

end Fleece
