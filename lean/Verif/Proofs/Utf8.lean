import Verif.Model.SharedKeys
import Verif.Proofs.Bytes

/-! # The UTF-8 decoder of the model inverts Lean's own UTF-8 encoder, and accepts nothing else -/

namespace Fleece

/-- Low six bits, four bits... of bytes made by adding a tag. -/
theorem and3F {n : Nat} (h : n < 64) : (UInt8.ofNat (n + 128) &&& 0x3F).toNat = n ∧ isCont (UInt8.ofNat (n + 128)) = true := by
  have : ∀ n : Fin 64, (UInt8.ofNat (n.val + 128) &&& 0x3F).toNat = n.val ∧ isCont (UInt8.ofNat (n.val + 128)) = true := by decide +kernel
  exact this ⟨n, h⟩

theorem and1F {n : Nat} (h : n < 32) (h2 : 2 ≤ n) : (UInt8.ofNat (n + 0xC0) &&& 0x1F).toNat = n ∧ ¬ (UInt8.ofNat (n + 0xC0) < 0x80) ∧
    (0xC2 ≤ UInt8.ofNat (n + 0xC0)) ∧ UInt8.ofNat (n + 0xC0) ≤ 0xDF := by
  have : ∀ n : Fin 32, 2 ≤ n.val → (UInt8.ofNat (n.val + 0xC0) &&& 0x1F).toNat = n.val ∧ ¬ (UInt8.ofNat (n.val + 0xC0) < 0x80) ∧
    (0xC2 ≤ UInt8.ofNat (n.val + 0xC0)) ∧ UInt8.ofNat (n.val + 0xC0) ≤ 0xDF := by decide +kernel
  exact this ⟨n, h⟩ h2

theorem and0F {n : Nat} (h : n < 16) : (UInt8.ofNat (n + 0xE0) &&& 0x0F).toNat = n ∧ ¬ (UInt8.ofNat (n + 0xE0) < 0x80) ∧
    ¬ UInt8.ofNat (n + 0xE0) ≤ 0xDF := by
  have : ∀ n : Fin 16, (UInt8.ofNat (n.val + 0xE0) &&& 0x0F).toNat = n.val ∧ ¬ (UInt8.ofNat (n.val + 0xE0) < 0x80) ∧
    ¬ UInt8.ofNat (n.val + 0xE0) ≤ 0xDF := by decide +kernel
  exact this ⟨n, h⟩

/-- The conditions on three-byte sequences. -/
theorem three {n m : Nat} (h : n < 16) (hm : m < 64) (h1 : n = 0 → 32 ≤ m) (h2 : n = 13 → m < 32) :
    (UInt8.ofNat (n + 0xE0) == 0xE0 && 0xA0 ≤ UInt8.ofNat (m + 128) || 0xE1 ≤ UInt8.ofNat (n + 0xE0) && UInt8.ofNat (n + 0xE0) ≤ 0xEC ||
      UInt8.ofNat (n + 0xE0) == 0xED && UInt8.ofNat (m + 128) ≤ 0x9F || 0xEE ≤ UInt8.ofNat (n + 0xE0) && UInt8.ofNat (n + 0xE0) ≤ 0xEF) = true := by
  have : ∀ (n : Fin 16) (m : Fin 64), (n.val = 0 → 32 ≤ m.val) → (n.val = 13 → m.val < 32) →
    (UInt8.ofNat (n.val + 0xE0) == 0xE0 && 0xA0 ≤ UInt8.ofNat (m.val + 128) || 0xE1 ≤ UInt8.ofNat (n.val + 0xE0) && UInt8.ofNat (n.val + 0xE0) ≤ 0xEC ||
      UInt8.ofNat (n.val + 0xE0) == 0xED && UInt8.ofNat (m.val + 128) ≤ 0x9F || 0xEE ≤ UInt8.ofNat (n.val + 0xE0) && UInt8.ofNat (n.val + 0xE0) ≤ 0xEF) = true := by
    decide +kernel
  exact this ⟨n, h⟩ ⟨m, hm⟩ h1 h2

theorem four {n m : Nat} (h : n < 5) (hm : m < 64) (h1 : n = 0 → 16 ≤ m) (h2 : n = 4 → m < 16) :
    (UInt8.ofNat (n + 0xF0) == 0xF0 && 0x90 ≤ UInt8.ofNat (m + 128) || 0xF1 ≤ UInt8.ofNat (n + 0xF0) && UInt8.ofNat (n + 0xF0) ≤ 0xF3 ||
      UInt8.ofNat (n + 0xF0) == 0xF4 && UInt8.ofNat (m + 128) ≤ 0x8F) = true ∧
    (UInt8.ofNat (n + 0xF0) &&& 0x07).toNat = n ∧ ¬ (UInt8.ofNat (n + 0xF0) < 0x80) ∧ ¬ UInt8.ofNat (n + 0xF0) ≤ 0xDF ∧
    (UInt8.ofNat (n + 0xF0) == 0xE0) = false ∧ ¬ UInt8.ofNat (n + 0xF0) ≤ 0xEC ∧ (UInt8.ofNat (n + 0xF0) == 0xED) = false ∧ ¬ UInt8.ofNat (n + 0xF0) ≤ 0xEF := by
  have : ∀ (n : Fin 5) (m : Fin 64), (n.val = 0 → 16 ≤ m.val) → (n.val = 4 → m.val < 16) →
    (UInt8.ofNat (n.val + 0xF0) == 0xF0 && 0x90 ≤ UInt8.ofNat (m.val + 128) || 0xF1 ≤ UInt8.ofNat (n.val + 0xF0) && UInt8.ofNat (n.val + 0xF0) ≤ 0xF3 ||
      UInt8.ofNat (n.val + 0xF0) == 0xF4 && UInt8.ofNat (m.val + 128) ≤ 0x8F) = true ∧
    (UInt8.ofNat (n.val + 0xF0) &&& 0x07).toNat = n.val ∧ ¬ (UInt8.ofNat (n.val + 0xF0) < 0x80) ∧ ¬ UInt8.ofNat (n.val + 0xF0) ≤ 0xDF ∧
    (UInt8.ofNat (n.val + 0xF0) == 0xE0) = false ∧ ¬ UInt8.ofNat (n.val + 0xF0) ≤ 0xEC ∧ (UInt8.ofNat (n.val + 0xF0) == 0xED) = false ∧ ¬ UInt8.ofNat (n.val + 0xF0) ≤ 0xEF := by
    decide +kernel
  exact this ⟨n, h⟩ ⟨m, hm⟩ h1 h2

theorem decode_char (c : Char) (r : List UInt8) :
    utf8Decode? (String.utf8EncodeChar c ++ r) = (utf8Decode? r).map (c.toNat :: ·) := by
  have hv := c.valid
  simp only [UInt32.isValidChar, Nat.isValidChar] at hv
  have hcn : c.toNat = c.val.toNat := rfl
  rw [hcn]
  fun_cases String.utf8EncodeChar c with
  | case1 v h =>
    have hlt : UInt8.ofNat v < 0x80 := by
      rw [UInt8.lt_iff_toNat_lt, toNat_ofNat_lt (by omega)]
      show v < 128; omega
    simp only [List.cons_append, List.nil_append]
    conv => lhs; unfold utf8Decode?
    try simp only
    rw [if_pos hlt, toNat_ofNat_lt (by omega)]
  | case2 v h1 h2 =>
    obtain ⟨a1, a2, a3, a4⟩ := and1F (n := v / 64 % 32) (by omega) (by omega)
    obtain ⟨b1, b2⟩ := and3F (n := v % 64) (by omega)
    simp only [List.cons_append, List.nil_append]
    conv => lhs; unfold utf8Decode?
    try simp only
    rw [if_neg a2]
    simp only [a3, a4, b2, decide_true, Bool.and_self, if_true, a1, b1]
    congr 2
    funext x; congr 1; omega
  | case3 v h1 h2 h3 =>
    obtain ⟨a1, a2, a3⟩ := and0F (n := v / 4096 % 16) (by omega)
    obtain ⟨b1, b2⟩ := and3F (n := v / 64 % 64) (by omega)
    obtain ⟨c1, c2⟩ := and3F (n := v % 64) (by omega)
    have h3 := three (n := v / 4096 % 16) (m := v / 64 % 64) (by omega) (by omega) (by omega) (by omega)
    simp only [List.cons_append, List.nil_append]
    conv => lhs; unfold utf8Decode?
    try simp only
    rw [if_neg a2]
    simp only [a3, decide_false, Bool.and_false, Bool.false_and, Bool.false_eq_true, if_false, b2, c2, Bool.true_and, h3, if_true,
      a1, b1, c1]
    congr 2
    funext x; congr 1; omega
  | case4 v h1 h2 h3 =>
    obtain ⟨h4, a1, a2, a3, a4, a5, a6, a7⟩ := four (n := v / 262144 % 8) (m := v / 4096 % 64) (by omega) (by omega) (by omega) (by omega)
    obtain ⟨b1, b2⟩ := and3F (n := v / 4096 % 64) (by omega)
    obtain ⟨c1, c2⟩ := and3F (n := v / 64 % 64) (by omega)
    obtain ⟨d1, d2⟩ := and3F (n := v % 64) (by omega)
    simp only [List.cons_append, List.nil_append]
    conv => lhs; unfold utf8Decode?
    try simp only
    rw [if_neg a2]
    simp only [a3, a4, a5, a6, a7, decide_false, Bool.and_false, Bool.false_and, Bool.or_self, Bool.false_eq_true, if_false, b2, c2, d2,
      Bool.true_and, h4, if_true, a1, b1, c1, d1]
    congr 2
    funext x; congr 1; omega

/-- The UTF-8 of any text decodes to its code points. -/
theorem utf8Decode_encode (cs : List Char) : utf8Decode? (cs.flatMap String.utf8EncodeChar) = some (cs.map Char.toNat) := by
  induction cs with
  | nil => rfl
  | cons c cs ih => rw [List.flatMap_cons, decode_char, ih]; rfl

/-! ## The other direction -/

theorem back3F : ∀ b : UInt8, isCont b = true → UInt8.ofNat ((b &&& 0x3F).toNat + 128) = b ∧ (b &&& 0x3F).toNat < 64 :=
  forall_byte (by decide +kernel)
theorem back1F : ∀ b : UInt8, 0xC2 ≤ b → b ≤ 0xDF →
    UInt8.ofNat ((b &&& 0x1F).toNat + 0xC0) = b ∧ (b &&& 0x1F).toNat < 32 ∧ 2 ≤ (b &&& 0x1F).toNat :=
  forall_byte (by decide +kernel)
theorem back0F : ∀ b : UInt8, 0xE0 ≤ b → b ≤ 0xEF → UInt8.ofNat ((b &&& 0x0F).toNat + 0xE0) = b ∧ (b &&& 0x0F).toNat < 16 ∧
    ((b &&& 0x0F).toNat = 0 → b = 0xE0) ∧ ((b &&& 0x0F).toNat = 13 → b = 0xED) :=
  forall_byte (by decide +kernel)
theorem back07 : ∀ b : UInt8, 0xF0 ≤ b → b ≤ 0xF4 → UInt8.ofNat ((b &&& 0x07).toNat + 0xF0) = b ∧ (b &&& 0x07).toNat < 5 ∧
    ((b &&& 0x07).toNat = 0 → b = 0xF0) ∧ ((b &&& 0x07).toNat = 4 → b = 0xF4) :=
  forall_byte (by decide +kernel)
theorem lowA0 : ∀ b : UInt8, isCont b = true → ((0xA0 ≤ b) = (32 ≤ (b &&& 0x3F).toNat)) ∧ ((b ≤ 0x9F) = ((b &&& 0x3F).toNat < 32)) ∧
    ((0x90 ≤ b) = (16 ≤ (b &&& 0x3F).toNat)) ∧ ((b ≤ 0x8F) = ((b &&& 0x3F).toNat < 16)) := by
  have : ∀ b : UInt8, isCont b = true → ((0xA0 ≤ b) ↔ (32 ≤ (b &&& 0x3F).toNat)) ∧ ((b ≤ 0x9F) ↔ ((b &&& 0x3F).toNat < 32)) ∧
    ((0x90 ≤ b) ↔ (16 ≤ (b &&& 0x3F).toNat)) ∧ ((b ≤ 0x8F) ↔ ((b &&& 0x3F).toNat < 16)) := forall_byte (by decide +kernel)
  simpa using this

/-- The character with a given valid code point. -/
theorem char_of {n : Nat} (h : n < 0xD800 ∨ 0xDFFF < n ∧ n < 0x110000) : ∃ c : Char, c.val.toNat = n := by
  refine ⟨Char.ofNatAux n (by simp only [Nat.isValidChar]; omega), ?_⟩
  simp [Char.ofNatAux]

/-- Decoding succeeds only on UTF-8 of some text, and the result is its code points. -/
theorem utf8Decode_some (bs : List UInt8) : ∀ {ns : List Nat}, utf8Decode? bs = some ns →
    ∃ cs : List Char, bs = cs.flatMap String.utf8EncodeChar ∧ ns = cs.map Char.toNat := by
  have key : ∀ {r : List UInt8} {n : Nat} {ns : List Nat} {pre : List UInt8},
      (∀ {ns : List Nat}, utf8Decode? r = some ns → ∃ cs : List Char, r = cs.flatMap String.utf8EncodeChar ∧ ns = cs.map Char.toNat) →
      (utf8Decode? r).map (n :: ·) = some ns → (n < 0xD800 ∨ 0xDFFF < n ∧ n < 0x110000) →
      (∀ c : Char, c.val.toNat = n → String.utf8EncodeChar c = pre) →
      ∃ cs : List Char, pre ++ r = cs.flatMap String.utf8EncodeChar ∧ ns = cs.map Char.toNat := by
    intro r n ns pre ih h hn hpre
    rw [Option.map_eq_some_iff] at h
    obtain ⟨ns', h1, h2⟩ := h
    obtain ⟨cs, h3, h4⟩ := ih h1
    obtain ⟨c, hc⟩ := char_of hn
    refine ⟨c :: cs, ?_, ?_⟩
    · rw [List.flatMap_cons, hpre c hc, ← h3]
    · rw [List.map_cons, ← h4, ← h2, ← hc]; rfl
  fun_induction utf8Decode? bs with
  | case1 => intro ns h; cases h; exact ⟨[], rfl, rfl⟩
  | case2 b0 r0 h0 ih =>
    intro ns h
    have hb : b0.toNat < 128 := by rw [UInt8.lt_iff_toNat_lt] at h0; exact h0
    refine key (pre := [b0]) ih h (by omega) fun c hc => ?_
    fun_cases String.utf8EncodeChar c <;> first | omega | skip
    simp only [List.cons.injEq, and_true]
    show UInt8.ofNat c.val.toNat = b0
    rw [hc]; simp
  | case4 b0 h0 b1 r1 h1 ih =>
    intro ns h
    simp only [Bool.and_eq_true, decide_eq_true_eq] at h1
    obtain ⟨⟨g1, g2⟩, g3⟩ := h1
    obtain ⟨a1, a2, a3⟩ := back1F b0 g1 g2
    obtain ⟨c1, c2⟩ := back3F b1 g3
    refine key (pre := [b0, b1]) ih h (by omega) fun c hc => ?_
    fun_cases String.utf8EncodeChar c <;> first | omega | skip
    rename_i v _ _
    have e1 : v / 64 % 32 = (b0 &&& 0x1F).toNat := by omega
    have e2 : v % 64 = (b1 &&& 0x3F).toNat := by omega
    rw [e1, e2, a1, c1]
  | case6 b0 h0 b1 h1 b2 r2 h2 ih =>
    intro ns h
    simp only [Bool.and_eq_true, Bool.or_eq_true, decide_eq_true_eq, beq_iff_eq] at h2
    obtain ⟨⟨g1, g2⟩, g3⟩ := h2
    obtain ⟨c1, c2⟩ := back3F b1 g1
    obtain ⟨d1, d2⟩ := back3F b2 g2
    obtain ⟨l1, l2, -, -⟩ := lowA0 b1 g1
    rw [l1, l2] at g3
    have hb : 0xE0 ≤ b0 ∧ b0 ≤ 0xEF := by
      simp only [UInt8.le_iff_toNat_le, ← UInt8.toNat_inj] at g3 ⊢
      simp at g3 ⊢
      omega
    obtain ⟨a1, a2, a3, a4⟩ := back0F b0 hb.1 hb.2
    have hz : (b0 &&& 0x0F).toNat = 0 → 32 ≤ (b1 &&& 0x3F).toNat := by
      intro hz; rw [a3 hz] at g3; simpa using g3
    have hd : (b0 &&& 0x0F).toNat = 13 → (b1 &&& 0x3F).toNat < 32 := by
      intro hz; rw [a4 hz] at g3; simpa using g3
    refine key (pre := [b0, b1, b2]) ih h (by omega) fun c hc => ?_
    fun_cases String.utf8EncodeChar c <;> first | omega | skip
    rename_i v _ _ _
    have e1 : v / 4096 % 16 = (b0 &&& 0x0F).toNat := by omega
    have e2 : v / 64 % 64 = (b1 &&& 0x3F).toNat := by omega
    have e3 : v % 64 = (b2 &&& 0x3F).toNat := by omega
    rw [e1, e2, e3, a1, c1, d1]
  | case8 b0 h0 b1 h1 b2 h2 b3 r3 h3 ih =>
    intro ns h
    simp only [Bool.and_eq_true, Bool.or_eq_true, decide_eq_true_eq, beq_iff_eq] at h3
    obtain ⟨⟨⟨g1, g2⟩, g4⟩, g3⟩ := h3
    obtain ⟨c1, c2⟩ := back3F b1 g1
    obtain ⟨d1, d2⟩ := back3F b2 g2
    obtain ⟨f1, f2⟩ := back3F b3 g4
    obtain ⟨-, -, l1, l2⟩ := lowA0 b1 g1
    rw [l1, l2] at g3
    have hb : 0xF0 ≤ b0 ∧ b0 ≤ 0xF4 := by
      simp only [UInt8.le_iff_toNat_le, ← UInt8.toNat_inj] at g3 ⊢
      simp at g3 ⊢
      omega
    obtain ⟨a1, a2, a3, a4⟩ := back07 b0 hb.1 hb.2
    have hz : (b0 &&& 0x07).toNat = 0 → 16 ≤ (b1 &&& 0x3F).toNat := by
      intro hz; rw [a3 hz] at g3; simpa using g3
    have hd : (b0 &&& 0x07).toNat = 4 → (b1 &&& 0x3F).toNat < 16 := by
      intro hz; rw [a4 hz] at g3; simpa using g3
    refine key (pre := [b0, b1, b2, b3]) ih h (by omega) fun c hc => ?_
    fun_cases String.utf8EncodeChar c <;> first | omega | skip
    rename_i v _ _ _
    have e1 : v / 262144 % 8 = (b0 &&& 0x07).toNat := by omega
    have e2 : v / 4096 % 64 = (b1 &&& 0x3F).toNat := by omega
    have e3 : v / 64 % 64 = (b2 &&& 0x3F).toNat := by omega
    have e4 : v % 64 = (b3 &&& 0x3F).toNat := by omega
    rw [e1, e2, e3, e4, a1, c1, d1, f1]
  | case3 => intro ns h; cases h
  | case5 => intro ns h; cases h
  | case7 => intro ns h; cases h
  | case9 => intro ns h; cases h

/-- `validUtf8` accepts exactly the UTF-8 encodings of sequences of Unicode scalar values. -/
theorem validUtf8_iff (bs : List UInt8) : validUtf8 bs = true ↔ ∃ cs : List Char, bs = cs.flatMap String.utf8EncodeChar := by
  unfold validUtf8
  constructor
  · intro h
    obtain ⟨ns, hn⟩ := Option.isSome_iff_exists.mp h
    obtain ⟨cs, h1, -⟩ := utf8Decode_some bs hn
    exact ⟨cs, h1⟩
  · rintro ⟨cs, rfl⟩
    rw [utf8Decode_encode]; rfl

end Fleece
