import Verif.Proofs.EncBasic
import Verif.Proofs.Holds

/-! # Bytes at a position; collection headers -/

namespace Fleece
open Res

/-- The bytes `bs` are in `data` at position `p`. -/
def At (data : List UInt8) (p : Nat) (bs : List UInt8) : Prop := ∃ pre post, data = pre ++ bs ++ post ∧ p = pre.length

theorem At.append {data : List UInt8} {p : Nat} {bs : List UInt8} (h : At data p bs) (tail : List UInt8) :
    At (data ++ tail) p bs := by
  obtain ⟨pre, post, rfl, hp⟩ := h
  exact ⟨pre, post ++ tail, by simp, hp⟩

theorem At.mono {data data' : List UInt8} {p : Nat} {bs : List UInt8} (h : At data p bs) (hd : data <+: data') :
    At data' p bs := by
  obtain ⟨tail, rfl⟩ := hd
  exact h.append tail

theorem At.le {data : List UInt8} {p : Nat} {bs : List UInt8} (h : At data p bs) : p + bs.length ≤ data.length := by
  obtain ⟨pre, post, rfl, rfl⟩ := h
  simp only [List.length_append]; omega

theorem At.sub {data : List UInt8} {p : Nat} {a b c : List UInt8} (h : At data p (a ++ b ++ c)) :
    At data (p + a.length) b := by
  obtain ⟨pre, post, rfl, rfl⟩ := h
  exact ⟨pre ++ a, c ++ post, by simp, by simp⟩

theorem At.holds {m : Mem} {v : Val} {p : Nat} {bs : List UInt8} (h : At m.data p bs) (hp : v.pos = p) (hin : v.In m)
    (hl : bs.length ≤ v.len) : Holds m v bs := by
  obtain ⟨pre, post, hd, hp'⟩ := h
  refine ⟨hin, hl, ?_⟩
  rw [hd, hp, hp', List.append_assoc, List.drop_left', List.take_left']
  · rfl
  · rfl

/-- Position of the first slot, relative to the header. -/
def hdrLen (n : Nat) : Nat := headerSize n + headerSize n % 2

theorem hdrLen_ge (n : Nat) : 2 ≤ hdrLen n := by unfold hdrLen headerSize; split <;> omega
theorem hdrLen_le {n : Nat} (hn : n < 2 ^ 64) : hdrLen n ≤ 12 := by
  have := headerSize_le hn
  unfold hdrLen
  omega

theorem usizeMul_eq {ε : Type} (dbg : Bool) {a b : Nat} (h : a * b < 2 ^ 64) :
    usizeMul (ε := ε) dbg a b = .ok (a * b) := by
  unfold usizeMul; rw [if_pos h]

theorem header_byte (d w : Bool) : ∀ a : Fin 8,
    let b : UInt8 := if w then 0x08 ||| (if d then 0x70 else 0x60) ||| UInt8.ofNat a.val
      else (if d then 0x70 else 0x60) ||| UInt8.ofNat a.val
    ValueType.fromByte b = (if d then .dict else .array) ∧ decide (b &&& 0x08 ≠ 0) = w ∧
      (b &&& 0x0F).toNat = a.val + (if w then 8 else 0) := by
  cases d <;> cases w <;> decide +kernel

theorem header_read (d : Bool) {n : Nat} (hn : n < 2 ^ 63) {w : Bool} {m : Mem} {v : Val}
    (h : Holds m v (headerBytes (if d then 0x70 else 0x60) n w)) :
    v.type m = .ok (if d then .dict else .array) ∧ v.isWide m = .ok w ∧
      v.arrayLen m = .ok (if d then n * 2 else n) ∧ v.firstPos m = .ok (hdrLen n) := by
  have hlen := h.le
  have htail := h.tail (a := 2) (by unfold headerBytes; simp)
  obtain ⟨h1, h2, h3⟩ := header_byte d w ⟨min n 0x07FF / 256, by omega⟩
  dsimp only at h1 h2 h3
  unfold headerBytes at h htail
  have ht := h.type
  have hb := h.byte (i := 0) rfl
  have hg := h.getShort
  rw [h1] at ht
  rw [h3] at hg
  have hs : ((min n 2047 / 256 + if w = true then 8 else 0) * 256 + (UInt8.ofNat (min n 2047 % 256)).toNat) &&& 0x07FF =
      min n 2047 := by
    rw [show (0x07FF : Nat) = 2 ^ 11 - 1 from rfl, Nat.and_two_pow_sub_one_eq_mod, ofNat_toNat]
    cases w <;> simp only [Bool.false_eq_true, if_false, if_true] <;> omega
  have h2l : 2 ≤ v.len := getShort_ok_len hg
  obtain ⟨rest, htail⟩ := htail
  simp only [List.drop_succ_cons, List.drop_zero] at htail
  refine ⟨ht, ?_, ?_, ?_⟩
  · unfold Val.isWide
    rw [hb]; simp only [ok_bind, pure_eq, h2]
  · unfold Val.arrayLen
    simp only [hg, ok_bind, hs]
    by_cases hbig : n ≥ 0x07FF
    · rw [if_pos (by omega), htail, if_pos hbig]
      simp only [ok_bind]
      rw [Varint.read_write m.dbg n (by omega)]
      simp only [ok_bind]
      rw [if_neg (by have := Varint.write_length_pos n; omega), ht]
      simp only [ok_bind]
      cases d with
      | false => rw [if_neg (by simp)]; rfl
      | true => rw [if_pos rfl, usizeMul_eq m.dbg (by omega)]; rfl
    · rw [if_neg (by omega), ht]
      simp only [ok_bind, Nat.min_eq_left (show n ≤ 2047 by omega)]
      cases d with
      | false => rw [if_neg (by simp)]; rfl
      | true => rw [if_pos rfl, usizeMul_eq m.dbg (by omega)]; rfl
  · unfold Val.firstPos
    rw [if_neg (by omega)]
    simp only [hg, ok_bind, hs]
    unfold hdrLen headerSize
    by_cases hbig : n ≥ 0x07FF
    · rw [if_pos (by omega), htail, if_pos hbig, if_pos hbig]
      simp only [ok_bind]
      rw [Varint.read_write m.dbg n (by omega)]
      simp only [ok_bind]
      rw [Varint.write_length_eq n (by omega)]
      split <;> (simp only [pure_eq]; congr 1; omega)
    · rw [if_neg (by omega), if_neg hbig]; rfl

end Fleece
