import Verif.Proofs.Varint
import Verif.Spec.Groups

/-! # Reading numbers in groups of seven bits -/

namespace Fleece.Varint
open Fleece Spec Res

theorem Groups.pos {g : List UInt8} {n : Nat} (h : Groups g n) : 0 < g.length := by
  cases h <;> simp

/-- A byte string begins with a complete number, or all its bytes say that another follows. -/
theorem groups_or (bs : List UInt8) : (∃ g n rest, bs = g ++ rest ∧ Groups g n) ∨ ∀ b ∈ bs, 128 ≤ b.toNat := by
  induction bs with
  | nil => right; simp
  | cons b bs ih =>
    rcases Nat.lt_or_ge b.toNat 128 with h | h
    · exact .inl ⟨[b], _, bs, rfl, .last h⟩
    · rcases ih with ⟨g, n, rest, rfl, hg⟩ | hall
      · exact .inl ⟨b :: g, _, rest, rfl, .more h hg⟩
      · right
        intro c hc
        rcases List.mem_cons.mp hc with rfl | hc
        · exact h
        · exact hall c hc

theorem or_shift_mod {res x s : Nat} (hs : s ≤ 64) (hr : res < 2 ^ s) :
    res ||| (x * 2 ^ s % 2 ^ 64) = (res + x * 2 ^ s) % 2 ^ 64 := by
  have hp : 2 ^ 64 = 2 ^ (64 - s) * 2 ^ s := by rw [← Nat.pow_add]; congr 1; omega
  have h1 : x * 2 ^ s % 2 ^ 64 = (x % 2 ^ (64 - s)) * 2 ^ s := by rw [hp, Nat.mul_mod_mul_right]
  rw [h1, or_shift hr]
  have hlt : res + x % 2 ^ (64 - s) * 2 ^ s < 2 ^ 64 := by
    have : x % 2 ^ (64 - s) + 1 ≤ 2 ^ (64 - s) := Nat.mod_lt _ (Nat.two_pow_pos _)
    have := Nat.mul_le_mul_right (2 ^ s) this
    rw [← hp, Nat.add_mul] at this
    omega
  rw [← Nat.mod_eq_of_lt hlt, ← h1, Nat.add_mod_mod]

theorem readLoop_groups {ε : Type} (dbg : Bool) {g : List UInt8} {n : Nat} (h : Groups g n) : ∀ (i res : Nat) (rest : List UInt8),
    i + g.length ≤ 9 → res < 2 ^ (7 * i + 7) →
    readLoop (ε := ε) dbg (g ++ rest) i (7 * i + 7) res = .ok (i + 1 + g.length, (res + n * 2 ^ (7 * i + 7)) % 2 ^ 64) := by
  induction h with
  | @last b h =>
    intro i res rest hi hr
    simp only [List.length_cons, List.length_nil] at hi
    have hd : (dbg && decide (64 ≤ 7 * i + 7)) = false := by
      have : ¬ 64 ≤ 7 * i + 7 := by omega
      simp [this]
    have hb : ¬ (0x80 ≤ b) := by rw [byte_ge80_iff]; omega
    have hi10 : (i == maxLen) = false := by simp [maxLen]; omega
    simp only [List.cons_append, List.nil_append, readLoop, hd, hb, if_false, hi10, Nat.shiftLeft_eq, Bool.false_eq_true,
      Bool.false_and, byte_and7f, Nat.mod_eq_of_lt (show 7 * i + 7 < 64 by omega)]
    rw [Nat.mod_eq_of_lt h, or_shift_mod (by omega) hr]
    simp
  | @more b bs n h t ih =>
    intro i res rest hi hr
    have := Groups.pos t
    simp only [List.length_cons] at hi
    have hd : (dbg && decide (64 ≤ 7 * i + 7)) = false := by
      have : ¬ 64 ≤ 7 * i + 7 := by omega
      simp [this]
    have hb : 0x80 ≤ b := by rw [byte_ge80_iff]; omega
    have hx : b.toNat % 128 = b.toNat - 128 := by have := b.toNat_lt; omega
    have hle : 2 ^ (7 * i + 7) ≤ 2 ^ 56 := Nat.pow_le_pow_right (by omega) (by omega)
    have hlt : (b.toNat - 128) * 2 ^ (7 * i + 7) ≤ 127 * 2 ^ (7 * i + 7) :=
      Nat.mul_le_mul_right _ (by have := b.toNat_lt; omega)
    simp only [List.cons_append, readLoop, hd, hb, if_true, if_false, Nat.shiftLeft_eq, Bool.false_eq_true, byte_and7f,
      Nat.mod_eq_of_lt (show 7 * i + 7 < 64 by omega), hx]
    rw [Nat.mod_eq_of_lt (a := (b.toNat - 128) * _) (by omega), or_shift hr]
    have hs : 7 * i + 7 + 7 = 7 * (i + 1) + 7 := by omega
    rw [hs, ih (i + 1) _ rest (by omega) (by rw [← hs, pow_step (s := 7 * i + 7)]; omega), ← hs, pow_step (s := 7 * i + 7)]
    generalize 2 ^ (7 * i + 7) = q
    have e1 : i + 1 + 1 + bs.length = i + 1 + (b :: bs).length := by simp only [List.length_cons]; omega
    have e2 : res + (b.toNat - 128) * q + n * (128 * q) = res + (b.toNat - 128 + 128 * n) * q := by
      rw [Nat.add_mul, Nat.add_assoc, Nat.mul_comm 128 n, Nat.mul_assoc]
    rw [e1, e2]

/-- A number of at most ten bytes is read modulo 2^64, whatever follows. -/
theorem read_groups {ε : Type} (dbg : Bool) {g : List UInt8} {n : Nat} (h : Groups g n) (hl : g.length ≤ 10) (rest : List UInt8) :
    read (ε := ε) dbg (g ++ rest) = .ok (g.length, n % 2 ^ 64) := by
  cases h with
  | @last b h =>
    have hb : b < 0x80 := by rw [byte_lt80_iff]; omega
    simp only [List.cons_append, List.nil_append, read, hb, if_true, List.length_cons, List.length_nil]
    rw [Nat.mod_eq_of_lt (by omega)]
  | @more b bs n h t =>
    have hb : ¬ b < 0x80 := by rw [byte_lt80_iff]; omega
    simp only [List.length_cons] at hl
    simp only [List.cons_append, read, hb, if_false]
    have hx : (b &&& 0x7F).toNat = b.toNat - 128 := by rw [byte_and7f]; have := b.toNat_lt; omega
    rw [List.take_append, List.take_of_length_le (by simp [maxLen]; omega), hx]
    have key := fun r => readLoop_groups (ε := ε) dbg t 0 (b.toNat - 128) r (by omega) (by have := b.toNat_lt; omega)
    simp only [Nat.mul_zero, Nat.zero_add] at key
    rw [key, List.length_cons, Nat.add_comm 1, Nat.mul_comm n]

theorem readLoop_all {ε : Type} (dbg : Bool) : ∀ (bs : List UInt8) (i res : Nat), (∀ b ∈ bs, 128 ≤ b.toNat) →
    readLoop (ε := ε) dbg bs i (7 * i + 7) res = if dbg = true ∧ 10 ≤ i + bs.length ∧ 0 < bs.length then .panic else .ok (0, 0)
  | [], i, res => fun _ => by simp [readLoop]
  | b :: bs, i, res => fun h => by
    have hb : 0x80 ≤ b := by rw [byte_ge80_iff]; have := h b (by simp); omega
    simp only [readLoop, hb, if_true]
    by_cases hd : dbg = true ∧ 64 ≤ 7 * i + 7
    · obtain ⟨rfl, hd⟩ := hd
      simp only [Bool.true_and, decide_eq_true hd, if_true, true_and, List.length_cons]
      rw [if_pos (by omega)]
    · rw [if_neg (by simpa using hd)]
      have hs : 7 * i + 7 + 7 = 7 * (i + 1) + 7 := by omega
      rw [hs, readLoop_all dbg bs (i + 1) _ fun c hc => h c (by simp [hc])]
      simp only [List.length_cons]
      congr 1
      refine propext ⟨?_, ?_⟩
      · rintro ⟨h1, h2, h3⟩; exact ⟨h1, by omega, by omega⟩
      · rintro ⟨h1, h2, h3⟩
        have : ¬ 64 ≤ 7 * i + 7 := fun h => hd ⟨h1, h⟩
        exact ⟨h1, by omega, by omega⟩

/-- Bytes that all say that another follows: nothing is read, except that the eleventh makes the checked build panic. -/
theorem read_all {ε : Type} (dbg : Bool) (bs : List UInt8) (h : ∀ b ∈ bs, 128 ≤ b.toNat) :
    read (ε := ε) dbg bs = if dbg = true ∧ 11 ≤ bs.length then .panic else .ok (0, 0) := by
  cases bs with
  | nil => simp [read]
  | cons b bs =>
    have hb : ¬ b < 0x80 := by rw [byte_lt80_iff]; have := h b (by simp); omega
    simp only [read, hb, if_false]
    have := readLoop_all (ε := ε) dbg (bs.take (min (bs.length + 1) (maxLen + 1) - 1)) 0 (b &&& 0x7F).toNat
      fun c hc => h c (by simp [List.mem_of_mem_take hc])
    simp only [Nat.mul_zero, Nat.zero_add] at this
    rw [this]
    congr 1
    simp only [List.length_take, List.length_cons, maxLen]
    refine propext ⟨?_, ?_⟩
    · rintro ⟨h1, h2, h3⟩; exact ⟨h1, by omega⟩
    · rintro ⟨h1, h2⟩; exact ⟨h1, by omega, by omega⟩

theorem readLoop_long {ε : Type} (dbg : Bool) {g : List UInt8} {n : Nat} (h : Groups g n) : ∀ (i res : Nat) (rest : List UInt8),
    i ≤ 9 → 10 ≤ i + g.length →
    (dbg = true → readLoop (ε := ε) dbg ((g ++ rest).take (10 - i)) i (7 * i + 7) res = .panic) ∧
    (dbg = false → 10 < i + g.length → readLoop (ε := ε) dbg ((g ++ rest).take (10 - i)) i (7 * i + 7) res = .ok (0, 0)) ∧
    (dbg = false → 10 = i + g.length → ∃ x, readLoop (ε := ε) dbg ((g ++ rest).take (10 - i)) i (7 * i + 7) res = .ok (11, x)) := by
  induction h with
  | @last b h =>
    intro i res rest hi hl
    simp only [List.length_cons, List.length_nil] at hl
    obtain rfl : i = 9 := by omega
    have hb : ¬ (0x80 ≤ b) := by rw [byte_ge80_iff]; omega
    refine ⟨fun hd => ?_, fun _ hl => ?_, fun hd _ => ?_⟩
    · subst hd; simp [readLoop]
    · simp at hl
    · subst hd
      exact ⟨_, by simp [readLoop, hb, maxLen]; rfl⟩
  | @more b bs n h t ih =>
    intro i res rest hi hl
    have := Groups.pos t
    simp only [List.length_cons] at hl
    have hb : 0x80 ≤ b := by rw [byte_ge80_iff]; omega
    obtain ⟨k, hk⟩ : ∃ k, 10 - i = k + 1 := ⟨9 - i, by omega⟩
    have hs : 7 * i + 7 + 7 = 7 * (i + 1) + 7 := by omega
    rcases Nat.lt_or_ge i 9 with h9 | h9
    · have hd : (dbg && decide (64 ≤ 7 * i + 7)) = false := by
        have : ¬ 64 ≤ 7 * i + 7 := by omega
        simp [this]
      simp only [List.cons_append, hk, List.take_succ_cons, readLoop, hd, hb, if_true, Bool.false_eq_true, if_false, hs,
        List.length_cons]
      obtain rfl : k = 10 - (i + 1) := by omega
      obtain ⟨g1, g2, g3⟩ := ih (i + 1) (res ||| (((b &&& 0x7F).toNat <<< ((7 * i + 7) % 64)) % 2 ^ 64)) rest (by omega) (by omega)
      exact ⟨g1, fun hd h => g2 hd (by omega), fun hd h => g3 hd (by omega)⟩
    · obtain rfl : i = 9 := by omega
      obtain rfl : k = 0 := by omega
      simp only [List.cons_append, hk, List.take_succ_cons, List.take_zero, List.length_cons]
      refine ⟨fun hd => ?_, fun hd _ => ?_, fun hd hl => ?_⟩
      · subst hd; simp [readLoop]
      · subst hd; simp [readLoop, hb]
      · omega

/-- A number of eleven bytes or more: the checked build panics, the other one makes something of exactly eleven. -/
theorem read_long {ε : Type} {g : List UInt8} {n : Nat} (h : Groups g n) (hl : 11 ≤ g.length) (rest : List UInt8) :
    read (ε := ε) true (g ++ rest) = .panic ∧ (11 < g.length → read (ε := ε) false (g ++ rest) = .ok (0, 0)) ∧
    (g.length = 11 → ∃ x, read (ε := ε) false (g ++ rest) = .ok (11, x)) := by
  cases h with
  | last h => simp at hl
  | @more b bs n h t =>
    have hb : ¬ b < 0x80 := by rw [byte_lt80_iff]; omega
    simp only [List.length_cons] at hl
    have hk : min ((bs ++ rest).length + 1) (maxLen + 1) - 1 = 10 - 0 := by simp [maxLen]; omega
    simp only [List.cons_append, read, hb, if_false, hk, List.length_cons]
    have h1 := readLoop_long (ε := ε) true t 0 (b &&& 0x7F).toNat rest (by omega) (by omega)
    have h2 := readLoop_long (ε := ε) false t 0 (b &&& 0x7F).toNat rest (by omega) (by omega)
    simp only [Nat.mul_zero, Nat.zero_add] at h1 h2
    exact ⟨h1.1 trivial, fun h => h2.2.1 trivial (by omega), fun h => h2.2.2 trivial (by omega)⟩

end Fleece.Varint
