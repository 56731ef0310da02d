import Verif.Proofs.Liberal
import Verif.Proofs.ReadDepth

/-! # What the bytes say is what the reader reads -/

namespace Fleece.Liberal
open Fleece Res Spec

section
variable {m : Mem} {r : Reader} {v : Val}

theorem Size.reads {ε : Type} {bs : List UInt8} {k n : Nat} (hd : r.dbg = true) (h : Size r bs k n) :
    k ≠ 0 ∧ n < 2 ^ 64 ∧ Varint.read (ε := ε) true bs = .ok (k, n) := by
  cases h with
  | @plain g _ hg here len fits =>
    have := Varint.Groups.pos hg
    obtain ⟨rest, rfl⟩ := here
    exact ⟨by omega, fits, by rw [Varint.read_groups true hg len, Nat.mod_eq_of_lt fits]⟩
  | @large g _ odd hg here len big =>
    have := Varint.Groups.pos hg
    obtain ⟨rest, rfl⟩ := here
    exact ⟨by omega, Nat.mod_lt _ (by decide), Varint.read_groups true hg len rest⟩
  | eleven odd unchecked => rw [hd] at unchecked; cases unchecked

theorem NoSize.reads {ε : Type} {bs : List UInt8} (hd : r.dbg = true) (h : NoSize r bs) :
    Varint.read (ε := ε) true bs = .ok (0, 0) := by
  cases h with
  | endless odd hall few =>
    rw [Varint.read_all true bs hall, if_neg]
    have := few hd
    omega
  | long odd unchecked => rw [hd] at unchecked; cases unchecked

theorem here_take {data : List UInt8} {p : Nat} {s : List UInt8} (h : Format.Here data p s) :
    (data.drop p).take s.length = s := prefix_take h

theorem slice_of_here {a : Nat} {s : List UInt8} (hin : v.In m) (h : Format.Here m.data (v.pos + a) s) (room : a + s.length ≤ v.len) :
    v.slice m a (a + s.length) = .ok s := by
  unfold Val.In at hin
  unfold Val.slice
  rw [if_pos ⟨by omega, room⟩, rawRead_eq (by omega), Nat.add_sub_cancel_left, here_take h]

theorem slice_to_end {a : Nat} (hin : v.In m) (ha : a ≤ v.len) :
    v.slice m a v.len = .ok (between m.data (v.pos + a) (v.pos + v.len)) := by
  unfold Val.In at hin
  unfold Val.slice between
  rw [if_pos ⟨ha, Nat.le_refl _⟩, rawRead_eq (by omega), show v.pos + v.len - (v.pos + a) = v.len - a by omega]

theorem Counted.reads {tag : Nat} {s : List UInt8} (hdbg : m.dbg = true) (hm : m.data.length < 2 ^ 64) (hd : r.dbg = true) (hin : v.In m) (hl : 2 ≤ v.len)
    (h : Counted r m.data tag v.pos (v.pos + v.len) s) :
    v.getData m = .ok s ∧ ∃ b, m.data[v.pos]? = some b ∧ b.toNat / 16 = tag := by
  cases h with
  | @short b _ h0 len is here room =>
    refine ⟨?_, b, h0, by omega⟩
    unfold Val.getData
    rw [if_neg (by omega)]
    simp only [pure_eq, byte0 hin hl h0, ok_bind, byte_and0f]
    rw [show b.toNat % 16 = s.length by omega, if_neg (by omega)]
    exact slice_of_here hin here (by omega)
  | @long b _ k h0 is size here room =>
    refine ⟨?_, b, h0, by omega⟩
    obtain ⟨h1, h2, h3⟩ := size.reads (ε := DecodeError) hd
    unfold Val.getData
    rw [if_neg (by omega)]
    simp only [pure_eq, byte0 hin hl h0, ok_bind, byte_and0f]
    rw [show b.toNat % 16 = 15 by omega, if_pos rfl, slice_to_end hin (by omega)]
    simp only [ok_bind, hdbg, h3, if_neg h1]
    unfold Val.In at hin
    have hadd : usizeAdd (ε := DecodeError) true (1 + k) s.length = .ok (1 + k + s.length) := by
      unfold usizeAdd; rw [if_pos (by omega)]
    rw [hadd]
    exact slice_of_here hin (by rw [← Nat.add_assoc]; exact here) (by omega)
  | @none b h0 is no =>
    refine ⟨?_, b, h0, by omega⟩
    unfold Val.getData
    rw [if_neg (by omega)]
    simp only [pure_eq, byte0 hin hl h0, ok_bind, byte_and0f]
    rw [show b.toNat % 16 = 15 by omega, if_pos rfl, slice_to_end hin (by omega)]
    simp only [ok_bind, hdbg, no.reads hd, if_true]

/-- A code, a number or a constant is told by its first byte. -/
theorem Scalar.reads {t : Tree} (hdbg : m.dbg = Bool.true) (hm : m.data.length < 2 ^ 64) (hd : r.dbg = Bool.true) (hin : v.In m)
    (hl : 2 ≤ v.len) (h : Scalar r m.data v.pos (v.pos + v.len) t) (fuel : Nat) :
    readTree m r.F r.scope (fuel + 1) v = .ok t ∧ ∃ ty, v.type m = .ok ty ∧ ty ≠ .pointer := by
  have const : ∀ {b : UInt8} {ty : ValueType}, m.data[v.pos]? = some b → ValueType.fromByte b = ty → v.type m = .ok ty := by
    intro b ty h0 ht
    rw [type0 hin hl h0, ht]
  cases h with
  | null h0 => have ht := const h0 rfl; exact ⟨by unfold readTree; rw [ht]; rfl, _, ht, by decide⟩
  | false h0 => have ht := const h0 rfl; exact ⟨by unfold readTree; rw [ht]; rfl, _, ht, by decide⟩
  | true h0 => have ht := const h0 rfl; exact ⟨by unfold readTree; rw [ht]; rfl, _, ht, by decide⟩
  | undefined h0 => have ht := const h0 rfl; exact ⟨by unfold readTree; rw [ht]; rfl, _, ht, by decide⟩
  | @constant b odd h0 tag bits =>
    have htab : ∀ b : UInt8, b.toNat / 16 = 3 → b.toNat % 4 ≠ 0 → ValueType.fromByte b = .null := forall_byte (by decide +kernel)
    have ht := const h0 (htab b tag bits); exact ⟨by unfold readTree; rw [ht]; rfl, _, ht, by decide⟩
  | int hs sign =>
    rcases stores_toInt r.F hin hl hs with ⟨ht, h1, _⟩ | ⟨c, hc, ht, _, h3, _, _, h6⟩ | ⟨ht, _, h2, h3, h4, h5⟩
    · exact ⟨by unfold readTree; simp only [ht, ok_bind, h1]; rfl, _, ht, by decide⟩
    · rw [if_neg (by intro hh; have := sign (h3.mpr hh.1); omega)] at h6
      exact ⟨by unfold readTree; simp only [ht, ok_bind, h6]; rfl, _, ht, by decide⟩
    · refine ⟨?_, _, ht, by decide⟩
      unfold readTree
      simp only [ht, ok_bind, Val.toUnsignedInt, h5, pure_eq]
      refine congrArg (fun z => Res.ok (Tree.int z)) ?_
      split <;> omega
  | @negative z b odd hs first narrow neg =>
    have hn := narrow
    obtain ⟨b', hb', hb2⟩ := hn
    rw [first] at hb'; cases hb'
    rcases stores_toInt r.F hin hl hs with ⟨_, _, _, _, _, _, h2, _⟩ | ⟨c, hc, ht, _, h3, _, _, h6⟩ | ⟨_, _, h2, _⟩
    · exact absurd narrow h2
    · rw [if_pos ⟨h3.mp narrow, neg⟩] at h6
      refine ⟨?_, _, ht, by decide⟩
      unfold readTree
      simp only [ht, ok_bind, h6, pure_eq]
      refine congrArg (fun z => Res.ok (Tree.int z)) ?_
      cases hs with
      | short g0 tag _ => rw [first] at g0; cases g0; omega
      | @unsigned c' _ hc' g0 _ _ =>
        rw [first] at g0; cases g0
        rw [UInt8.toNat_ofNat'] at hb2; omega
      | @int c' bs hc' g0 len pre =>
        rw [first] at g0; cases g0
        obtain ⟨ft, _, hcount, _⟩ := fromByte_int c' hc'
        have hi := word_toInt r.F hin hl first (Or.inl ft) hcount len pre
        rw [UInt8.toNat_ofNat'] at hb2 ⊢
        rw [h6, bmod_small (by have := leNat_small (bs := bs) (by omega); omega)] at hi
        have hi := Res.ok.inj hi
        rw [hi]
        rw [littleEndian_eq] at neg ⊢
        unfold twos at neg ⊢
        split at neg
        · omega
        · rename_i hge
          rw [if_neg hge]
          rw [show (16 + c') % 2 ^ 8 - 15 = c' + 1 by omega, Int.pow_mul]
          have : (2 : Int) ^ 8 = 256 := rfl
          rw [this]; omega
    · exact absurd narrow h2
  | @float b d h0 tag len here room =>
    have htab : ∀ b : UInt8, b.toNat / 8 = 4 → ValueType.fromByte b = .float ∨ ValueType.fromByte b = .double32 :=
      forall_byte (by decide +kernel)
    have hsl := slice_of_here hin here (by omega)
    rw [len] at hsl
    rcases htab b tag with ht | ht <;>
    · have ht := const h0 ht
      refine ⟨?_, _, ht, by decide⟩
      unfold readTree
      simp only [ht, ok_bind, Val.toDouble, Val.floatBits, Bool.false_eq_true, if_false, hsl, pure_eq, littleEndian_eq]
  | @double b d h0 tag len here room =>
    have htab : ∀ b : UInt8, b.toNat / 8 = 5 → ValueType.fromByte b = .double64 := forall_byte (by decide +kernel)
    have hsl := slice_of_here hin here (by omega)
    rw [len] at hsl
    have ht := const h0 (htab b tag)
    refine ⟨?_, _, ht, by decide⟩
    unfold readTree
    simp only [ht, ok_bind, Val.toDouble, Val.floatBits, if_true, hsl, pure_eq, littleEndian_eq]
  | @str s hc utf8 =>
    obtain ⟨hg, b, h0, tag⟩ := hc.reads hdbg hm hd hin hl
    have htab : ∀ b : UInt8, b.toNat / 16 = 4 → ValueType.fromByte b = .string := forall_byte (by decide +kernel)
    have ht := const h0 (htab b tag)
    refine ⟨?_, _, ht, by decide⟩
    unfold readTree
    simp only [ht, ok_bind, Val.toStr, hg, pure_eq, utf8, if_true]
  | @text s odd hc bad =>
    obtain ⟨hg, b, h0, tag⟩ := hc.reads hdbg hm hd hin hl
    have htab : ∀ b : UInt8, b.toNat / 16 = 4 → ValueType.fromByte b = .string := forall_byte (by decide +kernel)
    have ht := const h0 (htab b tag)
    refine ⟨?_, _, ht, by decide⟩
    unfold readTree
    simp only [ht, ok_bind, Val.toStr, hg, pure_eq, bad, Bool.false_eq_true, if_false]
  | @data s hc =>
    obtain ⟨hg, b, h0, tag⟩ := hc.reads hdbg hm hd hin hl
    have htab : ∀ b : UInt8, b.toNat / 16 = 5 → ValueType.fromByte b = .data := forall_byte (by decide +kernel)
    have ht := const h0 (htab b tag)
    refine ⟨?_, _, ht, by decide⟩
    unfold readTree
    simp only [ht, ok_bind, Val.toData, hg, pure_eq]

/-! ## Pointers -/

theorem Back.reads {w : Bool} {q p len : Nat} (h : Back r m.data w q p) :
    q + Format.width w ≤ m.data.length ∧ p + 2 ≤ q ∧ Val.getOffset m ⟨q, len⟩ w = .ok (q - p) ∧ IsPointer m.data q := by
  have key : ∃ (bs : List UInt8) (off : Nat), Format.Here m.data q bs ∧ bs.length = Format.width w ∧
      2 ^ (8 * Format.width w - 1) ≤ Format.bigEndian bs ∧ Format.bigEndian bs % 2 ^ (8 * Format.width w - 2) = off ∧
      p + 2 * off = q ∧ p < q := by
    cases h with
    | inside h lt =>
      obtain ⟨bs, off, here, hlen, is, small, to⟩ := h
      refine ⟨bs, off, here, hlen, by omega, ?_, to, lt⟩
      rw [is]
      cases w <;> simp [Format.width] at * <;> omega
    | @external bs off odd here hlen is small to lt =>
      refine ⟨bs, off, here, hlen, ?_, ?_, to, lt⟩
      · rw [is]; cases w <;> simp [Format.width] at * <;> omega
      · rw [is]; cases w <;> simp [Format.width] at * <;> omega
  obtain ⟨bs, off, here, hlen, hbig, hoff, to, lt⟩ := key
  have hfit : q + Format.width w ≤ m.data.length := by
    have := here.length_le
    rw [hlen, List.length_drop] at this
    have : 0 < Format.width w := by cases w <;> simp [Format.width]
    omega
  have htake := here_take here
  rw [hlen] at htake
  have hraw : rawRead m q (Format.width w) = .ok bs := by rw [rawRead_eq hfit, htake]
  refine ⟨hfit, by omega, ?_, ?_⟩
  · rw [← beNat_big] at hoff
    unfold Val.getOffset
    cases w with
    | true =>
      have hraw : rawRead m q 4 = .ok bs := hraw
      simp only [if_true, hraw, ok_bind, pure_eq]
      have : beNat bs % 2 ^ 30 = off := hoff
      rw [this]
      exact congrArg Res.ok (by omega)
    | false =>
      have hraw : rawRead m q 2 = .ok bs := hraw
      simp only [Bool.false_eq_true, if_false, hraw, ok_bind, pure_eq]
      have : beNat bs % 2 ^ 14 = off := hoff
      rw [this]
      exact congrArg Res.ok (by omega)
  · rw [← beNat_big] at hbig
    have h0 : ∀ b : UInt8, bs[0]? = some b → m.data[q]? = some b := by
      intro b hb
      obtain ⟨t, ht⟩ := here
      have h1 : (bs ++ t)[0]? = some b := by
        rw [List.getElem?_append_left (by rw [hlen]; cases w <;> simp [Format.width])]; exact hb
      rw [ht, List.getElem?_drop, Nat.add_zero] at h1
      exact h1
    cases w with
    | false =>
      match bs, hlen with
      | [a, c], _ =>
        rw [beNat2] at hbig
        have := byte_lt c
        refine ⟨a, h0 a rfl, ?_⟩
        simp [Format.width] at hbig
        omega
    | true =>
      match bs, hlen with
      | [a, c, d, e], _ =>
        rw [beNat4] at hbig
        have := byte_lt c
        have := byte_lt d
        have := byte_lt e
        refine ⟨a, h0 a rfl, ?_⟩
        simp [Format.width] at hbig
        omega

theorem Leads.reads {w : Bool} {q p e : Nat} (h : Leads r m.data w q p e) : ∀ (fuel len : Nat), q < fuel →
    p + 2 ≤ e ∧ e ≤ m.data.length ∧ IsPointer m.data q ∧ derefUncheckedGo m fuel w ⟨q, len⟩ = .ok ⟨p, e - p⟩ := by
  have first : ∀ {w : Bool} {q p : Nat}, Back r m.data w q p → ∀ fuel len, derefUncheckedGo m (fuel + 1) w ⟨q, len⟩ = (do
      let t ← (⟨p, q - p⟩ : Val).type m
      if t = .pointer then derefUncheckedGo m fuel true ⟨p, q - p⟩ else pure ⟨p, q - p⟩) := by
    intro w q p hb fuel len
    obtain ⟨h1, h2, h3, _⟩ := hb.reads (len := len)
    rw [derefUncheckedGo]
    simp only [h3, ok_bind]
    rw [if_neg (by simp; omega), if_neg (by omega), mkSlice_eq (by omega), show q - (q - p) = p by omega]
    rfl
  induction h with
  | @one w q p hb no =>
    intro fuel len hf
    obtain ⟨h1, h2, _, h4⟩ := hb.reads (len := len)
    refine ⟨h2, by omega, h4, ?_⟩
    obtain ⟨fuel, rfl⟩ : ∃ f, fuel = f + 1 := ⟨fuel - 1, by omega⟩
    obtain ⟨t, ht⟩ := type_eq (m := m) (v := ⟨p, q - p⟩) (by unfold Val.In; dsimp only; omega) (by dsimp only; omega)
    rw [first hb, ht]
    simp only [ok_bind]
    rw [if_neg fun hp => no ((pointer_of_type ht).mp hp)]
    rfl
  | @more w q p p' e hb t ih =>
    intro fuel len hf
    obtain ⟨h1, h2, _, h4⟩ := hb.reads (len := len)
    obtain ⟨fuel, rfl⟩ : ∃ f, fuel = f + 1 := ⟨fuel - 1, by omega⟩
    obtain ⟨g1, g2, g3, g4⟩ := ih fuel (q - p) (by omega)
    refine ⟨g1, g2, h4, ?_⟩
    obtain ⟨t, ht⟩ := type_eq (m := m) (v := ⟨p, q - p⟩) (by unfold Val.In; dsimp only; omega) (by dsimp only; omega)
    rw [first hb, ht]
    simp only [ok_bind]
    rw [if_pos ((pointer_of_type ht).mpr g3), g4]

theorem Slot.reads {w : Bool} {q p e : Nat} (h : Slot r m.data w q p e) :
    p + 2 ≤ e ∧ e ≤ m.data.length ∧ q + Format.width w ≤ m.data.length ∧
      resolve m w ⟨q, Format.width w⟩ = .ok ⟨p, e - p⟩ := by
  have hw : 2 ≤ Format.width w := by cases w <;> simp [Format.width]
  cases h with
  | inline room no =>
    refine ⟨by omega, room, room, ?_⟩
    obtain ⟨t, ht⟩ := type_eq (m := m) (v := ⟨q, Format.width w⟩) (by unfold Val.In; exact room) (by dsimp only; omega)
    unfold resolve
    rw [ht]
    simp only [ok_bind]
    rw [if_neg fun hp => no ((pointer_of_type ht).mp hp), Nat.add_sub_cancel_left]
    rfl
  | pointer room hl =>
    obtain ⟨g1, g2, g3, g4⟩ := hl.reads (q + 1) (Format.width w) (by omega)
    refine ⟨g1, g2, room, ?_⟩
    obtain ⟨t, ht⟩ := type_eq (m := m) (v := ⟨q, Format.width w⟩) (by unfold Val.In; exact room) (by dsimp only; omega)
    unfold resolve
    rw [ht]
    simp only [ok_bind]
    rw [if_pos ((pointer_of_type ht).mpr g3)]
    exact g4

/-! ## Headers -/

theorem Header.reads {w d : Bool} {n size : Nat} (hdbg : m.dbg = true) (hd : r.dbg = true) (hin : v.In m) (hl : 2 ≤ v.len)
    (h : Header r m.data (if d then 7 else 6) v.pos (v.pos + v.len) w n size) :
    v.type m = .ok (if d then .dict else .array) ∧ v.isWide m = .ok w ∧ (n ≠ 0 → v.firstPos m = .ok size) ∧
      v.arrayLen m = (if d then usizeMul true n 2 else .ok n) := by
  have key : ∃ (b0 b1 : UInt8) (c : Nat), m.data[v.pos]? = some b0 ∧ m.data[v.pos + 1]? = some b1 ∧
      b0.toNat = (if d then 7 else 6) * 16 + (if w then 8 else 0) + c ∧ c < 8 ∧
      ((c * 256 + b1.toNat < 2047 ∧ n = c * 256 + b1.toNat ∧ size = 2) ∨
       (c * 256 + b1.toNat = 2047 ∧ ((n = 0 ∧ NoSize r (between m.data (v.pos + 2) (v.pos + v.len))) ∨
         ∃ k, Size r (between m.data (v.pos + 2) (v.pos + v.len)) k n ∧ size = 2 + k + k % 2))) := by
    cases h with
    | @short b0 b1 c h0 h1 is hc small => exact ⟨b0, b1, c, h0, h1, is, hc, .inl ⟨small, rfl, rfl⟩⟩
    | @long b0 _ k h0 h1 is hs => exact ⟨b0, 255, 7, h0, h1, is, by omega, .inr ⟨rfl, .inr ⟨k, hs, rfl⟩⟩⟩
    | @none b0 h0 h1 is no => exact ⟨b0, 255, 7, h0, h1, is, by omega, .inr ⟨rfl, .inl ⟨rfl, no⟩⟩⟩
  obtain ⟨b0, b1, c, h0, h1, is, hc, hcase⟩ := key
  obtain ⟨c0, c1, g0, g1, hb, hs⟩ := getShort_bytes hin hl
  rw [h0] at g0; cases g0
  rw [h1] at g1; cases g1
  rw [byte_and0f] at hs
  have hbl := byte_lt b1
  have hsize : (b0.toNat % 16 * 256 + b1.toNat) &&& 0x07FF = c * 256 + b1.toNat := by
    have := count_field b0 b1
    rw [byte_and0f] at this
    rw [this]
    cases d <;> cases w <;> simp at is <;> omega
  have ht : v.type m = .ok (if d then .dict else .array) := by
    rw [type0 hin hl h0]
    have htab : ∀ b : UInt8, (b.toNat / 16 = 7 → ValueType.fromByte b = .dict) ∧ (b.toNat / 16 = 6 → ValueType.fromByte b = .array) :=
      forall_byte (by decide +kernel)
    cases d with
    | true => rw [(htab b0).1 (by cases w <;> simp at is <;> omega)]; rfl
    | false => rw [(htab b0).2 (by cases w <;> simp at is <;> omega)]; rfl
  have hw : v.isWide m = .ok w := by
    unfold Val.isWide
    rw [hb]
    simp only [ok_bind, pure_eq]
    have htab : ∀ b : UInt8, decide (b &&& 0x08 ≠ 0) = decide (8 ≤ b.toNat % 16) := forall_byte (by decide +kernel)
    rw [htab b0]
    refine congrArg Res.ok ?_
    cases d <;> cases w <;> simp at is ⊢ <;> omega
  refine ⟨ht, hw, ?_, ?_⟩
  · intro hn
    unfold Val.firstPos
    rw [if_neg (by omega)]
    simp only [pure_eq, hs, ok_bind, hsize]
    rcases hcase with ⟨h1, h2, rfl⟩ | ⟨h1, ⟨h2, _⟩ | ⟨k, hk, rfl⟩⟩
    · rw [if_neg (by omega)]
    · exact absurd h2 hn
    · obtain ⟨_, _, h3⟩ := hk.reads (ε := DecodeError) hd
      rw [if_pos h1, slice_to_end hin hl]
      simp only [ok_bind, hdbg, h3]
      split
      · exact congrArg Res.ok (by omega)
      · exact congrArg Res.ok (by omega)
  · unfold Val.arrayLen
    simp only [hs, ok_bind, hsize, ht]
    have hlen : ∀ n, (if (if d then ValueType.dict else .array) = .dict then usizeMul (ε := DecodeError) m.dbg n 2 else pure n)
        = if d then usizeMul true n 2 else .ok n := by
      intro n
      rw [hdbg]
      cases d <;> rfl
    rcases hcase with ⟨h1, h2, rfl⟩ | ⟨h1, ⟨h2, h3⟩ | ⟨k, hk, rfl⟩⟩
    · rw [if_neg (by omega), hlen, h2]
    · rw [if_pos h1, slice_to_end hin hl]
      simp only [ok_bind, hdbg, h3.reads hd, if_true, h2]
      cases d <;> rfl
    · obtain ⟨h2, _, h3⟩ := hk.reads (ε := DecodeError) hd
      rw [if_pos h1, slice_to_end hin hl]
      simp only [ok_bind, hdbg, h3, if_neg h2]
      cases d <;> rfl

/-! ## Iteration -/

theorem step_reads {first n i : Nat} {w : Bool} {e : Val} (hi : i < n)
    (he : resolve m w (slotAt first (wof w) i) = .ok e) (hnext : i + 1 < n → (slotAt first (wof w) (i + 1)).In m) :
    (iterAt first (wof w) n i).step m = .ok (some e, iterAt first (wof w) n (i + 1)) := by
  unfold Iter.step iterAt
  simp only [if_pos hi]
  rw [if_neg (by simp; omega)]
  unfold resolve at he
  rw [bind_eq_ok] at he
  obtain ⟨t, ht, he⟩ := he
  simp only [ht, ok_bind, wof_eq4]
  rw [← ite_bind', he]
  simp only [ok_bind]
  by_cases hi' : i + 1 < n
  · have hin := hnext hi'
    unfold Val.In slotAt at hin
    simp at hin
    rw [Nat.add_mul] at hin
    rw [if_pos hi', mkSlice_eq (by simp [slotAt]; omega)]
    simp only [ok_bind, if_pos hi', slotAt, Nat.add_mul, Nat.one_mul, Nat.add_assoc]
    rfl
  · rw [if_neg hi']
    simp only [if_neg hi']
    rfl

theorem collect_reads {α : Type} {f : Val → R α} {first n : Nat} {w : Bool} : ∀ (fuel : Nat) {i : Nat} {xs : List α},
    i + xs.length = n → xs.length < fuel →
    (∀ j x, xs[j]? = some x → ∃ e, (slotAt first (wof w) (i + j)).In m ∧ resolve m w (slotAt first (wof w) (i + j)) = .ok e ∧
      f e = .ok x) → collect m f fuel (iterAt first (wof w) n i) = .ok xs
  | 0, _, _, _, h, _ => by omega
  | fuel + 1, i, [], hn, _, _ => by
    unfold collect
    rw [iterAt_step_end (by simp at hn; omega)]; rfl
  | fuel + 1, i, x :: xs, hn, hf, h => by
    simp only [List.length_cons] at hn hf
    obtain ⟨e, _, h2, h3⟩ := h 0 x rfl
    rw [Nat.add_zero] at h2
    unfold collect
    rw [step_reads (by omega) h2 (fun hlt => by
      cases xs with
      | nil => simp at hn; omega
      | cons y ys => obtain ⟨_, h1, _⟩ := h 1 y rfl; exact h1)]
    simp only [ok_bind, h3]
    rw [collect_reads fuel (xs := xs) (by omega) (by omega) fun j x hx => by
      obtain ⟨e, g⟩ := h (j + 1) x hx
      rw [show i + 1 + j = i + (j + 1) by omega]; exact ⟨e, g⟩]
    rfl

theorem dictStep_join {it it1 it2 : Iter} {k y : Val} {ty : ValueType} {s : List UInt8} {scope : Option SharedKeys}
    (hs : it.step m = .ok (some k, it1)) (hty : k.type m = .ok ty) (hk : keyOf m scope ty k = .ok (some s))
    (hy : it1.step m = .ok (some y, it2)) : it.dictStep m scope = .ok (some (s, y), it2) := by
  unfold Iter.dictStep
  simp only [hs, ok_bind, hty]
  unfold keyOf at hk
  by_cases hsh : ty = .short
  · rw [if_pos hsh] at hk ⊢
    cases scope with
    | none => cases hk
    | some sk =>
      obtain ⟨n, hn, hk⟩ := bind_eq_ok.mp hk
      have hk := Res.ok.inj hk
      simp only [hn, ok_bind, pure_eq, hk, hy]
  · rw [if_neg hsh] at hk ⊢
    obtain ⟨n, hn, hk⟩ := bind_eq_ok.mp hk
    cases hk
    simp only [hn, ok_bind, pure_eq, hy]

theorem dictStep_ends {it it1 : Iter} {k : Val} {ty : ValueType} {scope : Option SharedKeys}
    (hs : it.step m = .ok (some k, it1)) (hty : k.type m = .ok ty) (hk : keyOf m scope ty k = .ok none) :
    it.dictStep m scope = .ok (none, it1) := by
  unfold Iter.dictStep
  simp only [hs, ok_bind, hty]
  unfold keyOf at hk
  by_cases hsh : ty = .short
  · rw [if_pos hsh] at hk ⊢
    cases scope with
    | none => rfl
    | some sk =>
      obtain ⟨n, hn, hk⟩ := bind_eq_ok.mp hk
      have hk := Res.ok.inj hk
      simp only [hn, ok_bind, pure_eq, hk]
  · rw [if_neg hsh] at hk
    obtain ⟨n, hn, hk⟩ := bind_eq_ok.mp hk
    cases hk

theorem Code.reads {p e n : Nat} (h : Code m.data p n) (two : p + 2 ≤ e) (le : e ≤ m.data.length) (scope : Option SharedKeys) :
    (⟨p, e - p⟩ : Val).type m = .ok .short ∧ keyOf m scope .short ⟨p, e - p⟩ = .ok (scope.bind fun sk => sk.decode n) := by
  obtain ⟨b0, b1, h0, tag, h1, rfl⟩ := h
  have hin : (⟨p, e - p⟩ : Val).In m := by unfold Val.In; dsimp only; omega
  have hl : 2 ≤ (⟨p, e - p⟩ : Val).len := by dsimp only; omega
  refine ⟨by rw [type0 hin hl h0, fromByte_short b0 tag], ?_⟩
  have hg := (short_toInt hin hl h0 tag h1).1
  unfold keyOf
  rw [if_pos rfl]
  cases scope with
  | none => rfl
  | some sk => simp only [hg, ok_bind]; rfl

theorem Named.reads {p e : Nat} {s : List UInt8} (hdbg : m.dbg = true) (hm : m.data.length < 2 ^ 64) (hd : r.dbg = true)
    (two : p + 2 ≤ e) (le : e ≤ m.data.length) (h : Named r m.data p e s) :
    ∃ ty, (⟨p, e - p⟩ : Val).type m = .ok ty ∧ keyOf m r.scope ty ⟨p, e - p⟩ = .ok (some s) := by
  have hin : (⟨p, e - p⟩ : Val).In m := by unfold Val.In; dsimp only; omega
  have hl : 2 ≤ (⟨p, e - p⟩ : Val).len := by dsimp only; omega
  have he : p + (e - p) = e := by omega
  cases h with
  | str hs =>
    have hs' : Scalar r m.data (⟨p, e - p⟩ : Val).pos ((⟨p, e - p⟩ : Val).pos + (⟨p, e - p⟩ : Val).len) (.str s) := by
      dsimp only; rw [he]; exact hs
    obtain ⟨h1, ty, hty, hnp⟩ := hs'.reads hdbg hm hd hin hl 0
    have hstr : ty = .string ∧ (⟨p, e - p⟩ : Val).toStr m = .ok s := by
      unfold readTree at h1
      rw [hty] at h1
      simp only [ok_bind] at h1
      cases ty
      case string =>
        obtain ⟨x, hx, h1⟩ := bind_eq_ok.mp h1
        cases h1; exact ⟨rfl, hx⟩
      case array | dict =>
        obtain ⟨_, _, h1⟩ := bind_eq_ok.mp h1
        obtain ⟨_, _, h1⟩ := bind_eq_ok.mp h1
        cases h1
      case null | undefined | false | true | pointer => cases h1
      all_goals
        obtain ⟨_, _, h1⟩ := bind_eq_ok.mp h1
        cases h1
    obtain ⟨rfl, hstr⟩ := hstr
    refine ⟨_, hty, ?_⟩
    unfold keyOf
    rw [if_neg (by decide), hstr]; rfl
  | @code n _ hc hname =>
    obtain ⟨sk, c, h1, h2⟩ := hname
    obtain ⟨g1, g2⟩ := hc.reads two le r.scope
    refine ⟨_, g1, ?_⟩
    rw [g2, h1]
    simp [SharedKeys.decode, h2]
  | @other b odd h0 no =>
    have hty := type0 hin hl h0
    have hf := fromByte_sound b
    generalize ValueType.fromByte b = ty at hty hf
    have hne : ty ≠ .short ∧ ty ≠ .string := by
      constructor
      · rintro rfl
        have hf : b.toNat < 16 := hf
        omega
      · rintro rfl; exact no.2.2 hf
    refine ⟨ty, hty, ?_⟩
    unfold keyOf Val.toStr
    rw [if_neg hne.1, hty]
    cases ty <;> first | rfl | exact absurd rfl hne.2

theorem collectDict_reads {α : Type} {f : Val → R α} {first n : Nat} {w : Bool} (hdbg : m.dbg = true)
    (hm : m.data.length < 2 ^ 64) (hd : r.dbg = true) :
    ∀ (fuel : Nat) {i : Nat} {xs : List (List UInt8 × α)}, i + xs.length ≤ n → xs.length < fuel →
    (i + xs.length < n → Nameless r m.data w (first + 2 * (i + xs.length) * Format.width w)) →
    (∀ j s x, xs[j]? = some (s, x) → KeySlot r m.data w (first + 2 * (i + j) * Format.width w) s ∧
      ∃ e, (slotAt first (wof w) (2 * (i + j) + 1)).In m ∧
        resolve m w (slotAt first (wof w) (2 * (i + j) + 1)) = .ok e ∧ f e = .ok x) →
    collectDict m r.scope f fuel (iterAt first (wof w) (2 * n) (2 * i)) = .ok xs
  | 0, _, _, _, h, _, _ => by omega
  | fuel + 1, i, [], hn, _, hend, _ => by
    simp only [List.length_nil, Nat.add_zero] at hn hend
    unfold collectDict
    by_cases hi : i < n
    · rcases hend hi with @⟨p, e, c, odd, slot, hc, no, room⟩
      obtain ⟨g1, g2, g3, g4⟩ := slot.reads
      have hs := step_reads (m := m) (first := first) (n := 2 * n) (i := 2 * i) (w := w) (by omega) g4 (fun _ => by
        unfold Val.In slotAt
        simp only [Nat.add_mul, Nat.one_mul]
        simp only [width_eq_wof] at room
        omega)
      obtain ⟨c1, c2⟩ := hc.reads g1 g2 r.scope
      have hnone : r.scope.bind (fun sk => sk.decode c) = none := by
        cases hsc : r.scope with
        | none => rfl
        | some sk =>
          cases hent : sk.entries[c]? with
          | none => simp [SharedKeys.decode, hent]
          | some en => exact absurd ⟨sk, en.2, hsc, hent⟩ (no en.1)
      rw [hnone] at c2
      rw [dictStep_ends hs c1 c2]
      rfl
    · unfold Iter.dictStep
      rw [iterAt_step_end (by omega)]; rfl
  | fuel + 1, i, (s, x) :: xs, hn, hf, hend, h => by
    simp only [List.length_cons] at hn hf hend
    obtain ⟨⟨slot, hnm⟩, e, hvin, hres, hx⟩ := h 0 s x rfl
    rw [Nat.add_zero] at slot hvin hres
    obtain ⟨g1, g2, g3, g4⟩ := slot.reads
    have hs := step_reads (m := m) (first := first) (n := 2 * n) (i := 2 * i) (w := w) (by omega) g4 (fun _ => hvin)
    obtain ⟨ty, hty, hk⟩ := hnm.reads hdbg hm hd g1 g2
    have hs2 := step_reads (m := m) (first := first) (n := 2 * n) (i := 2 * i + 1) (w := w) (by omega) hres (fun hlt => by
      have room : first + 2 * (i + 1) * Format.width w + Format.width w ≤ m.data.length := by
        cases xs with
        | nil =>
          obtain ⟨_, slot, _, _, room⟩ := hend (by simp only [List.length_nil]; omega)
          simp only [List.length_nil, Nat.zero_add] at room
          omega
        | cons y ys =>
          obtain ⟨⟨slot, _⟩, _⟩ := h 1 y.1 y.2 rfl
          exact slot.reads.2.2.1
      unfold Val.In slotAt
      rw [show 2 * i + 1 + 1 = 2 * (i + 1) by omega]
      exact room)
    unfold collectDict
    rw [dictStep_join hs hty hk hs2]
    simp only [ok_bind, hx]
    rw [show 2 * i + 1 + 1 = 2 * (i + 1) by omega]
    rw [collectDict_reads hdbg hm hd fuel (xs := xs) (by omega) (by omega) (fun hlt => by
        have := hend (by omega)
        rw [show i + 1 + xs.length = i + (xs.length + 1) by omega]; exact this) fun j s x hx => by
      have := h (j + 1) s x hx
      rw [show i + 1 + j = i + (j + 1) by omega]; exact this]
    rfl

theorem iter_reads {w : Bool} {n size : Nat} (hw : v.isWide m = .ok w) (hn : v.arrayLen m = .ok n)
    (hf : n ≠ 0 → v.firstPos m = .ok size) (hin : 0 < n → (slotAt (v.pos + size) (wof w) 0).In m) :
    v.iter m = .ok (iterAt (v.pos + size) (wof w) n 0) := by
  unfold Val.iter Val.iterFirst
  simp only [hn, width_eq hw, ok_bind]
  by_cases hz : n = 0
  · subst hz
    simp [iterAt]
  · rw [if_neg hz]
    have h := hin (by omega)
    unfold Val.In slotAt at h
    simp only [Nat.zero_mul, Nat.add_zero] at h
    simp only [hf hz, ok_bind]
    rw [mkSlice_eq h]
    simp [iterAt, slotAt, Nat.pos_of_ne_zero hz]

/-- A traversal that goes deep enough finds the value, or follows the slot and finds it. -/
def Found (m : Mem) (r : Reader) (p e : Nat) (t : Tree) : Option Bool → Prop
  | none => p + 2 ≤ e ∧ e ≤ m.data.length ∧ ∃ D, readTree m r.F r.scope D ⟨p, e - p⟩ = .ok t
  | some w => p + Format.width w ≤ m.data.length ∧ ∃ x D, resolve m w ⟨p, Format.width w⟩ = .ok x ∧
      readTree m r.F r.scope D x = .ok t

theorem Value.reads (hdbg : m.dbg = true) (hm : m.data.length < 2 ^ 64) (hd : r.dbg = true) {k : Option Bool} {p e : Nat}
    {t : Tree} (h : Value r m.data k p e t) : Found m r p e t k := by
  induction h with
  | @scalar p e t two le hs =>
    refine ⟨two, le, 1, ?_⟩
    have he : p + (e - p) = e := by omega
    have hs' : Scalar r m.data (⟨p, e - p⟩ : Val).pos ((⟨p, e - p⟩ : Val).pos + (⟨p, e - p⟩ : Val).len) t := by
      dsimp only; rw [he]; exact hs
    exact (hs'.reads hdbg hm hd (by unfold Val.In; dsimp only; omega) (by dsimp only; omega) 0).1
  | @slot w q p e t slot _ ih =>
    obtain ⟨_, _, D, hD⟩ := ih
    obtain ⟨g1, g2, g3, g4⟩ := slot.reads
    exact ⟨g3, _, D, g4, hD⟩
  | @arr p e size w xs two le head each ih =>
    refine ⟨two, le, Tree.heightList xs + 1, ?_⟩
    have he : p + (e - p) = e := by omega
    have hin : (⟨p, e - p⟩ : Val).In m := by unfold Val.In; dsimp only; omega
    have head' : Header r m.data (if false then 7 else 6) (⟨p, e - p⟩ : Val).pos
        ((⟨p, e - p⟩ : Val).pos + (⟨p, e - p⟩ : Val).len) w xs.length size := by
      dsimp only; rw [he]; exact head
    obtain ⟨ht, hw, hfp, hlen⟩ := head'.reads hdbg hd hin (by dsimp only; omega)
    have hlen : (⟨p, e - p⟩ : Val).arrayLen m = .ok xs.length := hlen
    have ht : (⟨p, e - p⟩ : Val).type m = .ok .array := ht
    have hit := iter_reads hw hlen hfp (fun hpos => by
      obtain ⟨room, _⟩ := ih 0 xs[0] (List.getElem?_eq_getElem hpos)
      exact room)
    unfold readTree
    simp only [ht, ok_bind, hit]
    rw [collect_reads (f := readTree m r.F r.scope (Tree.heightList xs)) (xs := xs) _ (by simp) (by simp [iterAt]) fun j x hx => by
      obtain ⟨room, y, D, g1, g2⟩ := ih j x hx
      refine ⟨y, by rw [Nat.zero_add]; exact room, by rw [Nat.zero_add]; exact g1, ?_⟩
      rw [readTree_exact g2, if_pos (heightList_mem (List.mem_of_getElem? hx))]]
    rfl
  | @dict p e size n pairs w kvs two le head count len keys vals rest ih =>
    refine ⟨two, le, Tree.heightDict kvs + 1, ?_⟩
    have he : p + (e - p) = e := by omega
    have hin : (⟨p, e - p⟩ : Val).In m := by unfold Val.In; dsimp only; omega
    have head' : Header r m.data (if true then 7 else 6) (⟨p, e - p⟩ : Val).pos
        ((⟨p, e - p⟩ : Val).pos + (⟨p, e - p⟩ : Val).len) w n size := by
      dsimp only; rw [he]; exact head
    obtain ⟨ht, hw, hfp, hlen⟩ := head'.reads hdbg hd hin (by dsimp only; omega)
    have hpn : pairs = n ∧ n < 2 ^ 63 := by
      cases count with
      | plain h => exact ⟨rfl, h⟩
      | large _ unchecked => rw [hd] at unchecked; cases unchecked
    obtain ⟨rfl, hn⟩ := hpn
    have hlen : (⟨p, e - p⟩ : Val).arrayLen m = .ok (2 * pairs) := by
      rw [hlen, if_pos rfl]
      unfold usizeMul
      rw [if_pos (by omega), Nat.mul_comm]
    have ht : (⟨p, e - p⟩ : Val).type m = .ok .dict := ht
    have hit := iter_reads hw hlen (fun h => hfp (by omega)) (fun hpos => by
      have room : p + size + 2 * 0 * Format.width w + Format.width w ≤ m.data.length := by
        cases kvs with
        | nil =>
          obtain ⟨_, _, _, _, room⟩ := rest (by simp only [List.length_nil]; omega)
          simp only [List.length_nil] at room
          omega
        | cons y ys =>
          obtain ⟨slot, _⟩ := keys 0 y.1 y.2 rfl
          exact slot.reads.2.2.1
      exact room)
    unfold readTree
    simp only [ht, ok_bind, Val.dictIter, hit]
    have := collectDict_reads (f := readTree m r.F r.scope (Tree.heightDict kvs)) (first := p + size) (n := pairs) (w := w) (i := 0)
      (xs := kvs) hdbg hm hd ((iterAt (p + size) (wof w) (2 * pairs) 0).len + 1) (by omega) (by simp [iterAt]; omega)
      (fun hlt => by rw [Nat.zero_add] at hlt ⊢; exact rest hlt) fun j s x hx => by
        obtain ⟨room, y, D, g1, g2⟩ := ih j s x hx
        rw [Nat.zero_add]
        refine ⟨keys j s x hx, y, room, g1, ?_⟩
        rw [readTree_exact g2, if_pos (heightDict_mem (List.mem_of_getElem? hx)).1]
    rw [show (2 * 0 : Nat) = 0 from rfl] at this
    rw [this]
    rfl

end
end Fleece.Liberal
