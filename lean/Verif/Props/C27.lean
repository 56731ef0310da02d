import Verif.Proofs.Shared
import Verif.Proofs.Utf8

/-! # C27 Shared-key codes are stable, dense and invertible -/

namespace Fleece.Props
open Fleece

/-- `Inserted U sk sk'`: `sk'` can be obtained from `sk` by calls of `encode_and_insert`. -/
inductive Inserted (U : CharTable) (sk : SharedKeys) : SharedKeys → Prop where
  | refl : Inserted U sk sk
  | insert {sk' : SharedKeys} (key : List UInt8) : Inserted U sk sk' → Inserted U sk (sk'.encodeAndInsert U key).1

theorem Inserted.inv {U : CharTable} {sk sk' : SharedKeys} (hw : sk.WF) (h : Inserted U sk sk') : sk'.WF ∧ sk.Le sk' := by
  induction h with
  | refl => exact ⟨hw, .refl _⟩
  | insert key _ ih =>
    obtain ⟨h1, h2⟩ := ih.1.insert U key
    exact ⟨h1, ih.2.trans h2⟩

/-- **C27, dense.** In every history the codes handed out are `0, 1, …, len - 1`, at most 2048 of them; `decode` knows
exactly these. -/
theorem C27_dense (U : CharTable) (sk : SharedKeys) (h : Inserted U .new sk) :
    sk.len ≤ 2048 ∧ ∀ c, (sk.decode c).isSome ↔ c < sk.len := by
  have hw := (h.inv SharedKeys.new_wf).1
  rw [hw.len]
  exact ⟨hw.le, fun c => SharedKeys.decode_lt⟩

/-- **C27, invertible.** In every history `encode` and `decode` are inverse to each other on the stored names. -/
theorem C27_invertible (U : CharTable) (sk : SharedKeys) (h : Inserted U .new sk) (key : List UInt8) (c : Nat) :
    sk.encode key = some c ↔ sk.decode c = some (zstr key) :=
  (h.inv SharedKeys.new_wf).1.lookup_iff

/-- **C27, stable.** A code handed out for a key stays: in every later table `encode` returns it for that key, and
`decode` returns the stored name for it. -/
theorem C27_stable (U : CharTable) (sk sk' : SharedKeys) (h : Inserted U .new sk) (key : List UInt8) (c : Nat)
    (hc : (sk.encodeAndInsert U key).2 = some c) (hl : Inserted U (sk.encodeAndInsert U key).1 sk') :
    sk'.encode key = some c ∧ sk'.decode c = some (zstr key) := by
  have hw := (h.inv SharedKeys.new_wf).1
  obtain ⟨h1, _, h3, _⟩ := hw.insert_some U (sk' := (sk.encodeAndInsert U key).1) (Prod.ext rfl hc)
  obtain ⟨h4, h5⟩ := hl.inv h1
  have hd := h5.decode h3
  exact ⟨h4.lookup_iff.mpr hd, hd⟩

/-- **C27, stable (names).** No code ever changes its meaning. -/
theorem C27_decode_stable (U : CharTable) (sk sk' : SharedKeys) (h : Inserted U .new sk) (hl : Inserted U sk sk') (c : Nat)
    (k : List UInt8) (hc : sk.decode c = some k) : sk'.decode c = some k :=
  (hl.inv (h.inv SharedKeys.new_wf).1).2.decode hc

/-- **C27, insertion.** While the table has room, a key it accepts gets its old code if it has one, and then the table is
unchanged; otherwise it gets the next code. -/
theorem C27_insert (U : CharTable) (sk : SharedKeys) (h : Inserted U .new sk) (key : List UInt8)
    (hroom : sk.len < 2048) (hlen : key.length ≤ 16) (hchars : SharedKeys.canEncode U key = true) :
    (∀ c, sk.encode key = some c → sk.encodeAndInsert U key = (sk, some c)) ∧
      (sk.encode key = none → (sk.encodeAndInsert U key).2 = some sk.len ∧
        (sk.encodeAndInsert U key).1.len = sk.len + 1) := by
  have hw := (h.inv SharedKeys.new_wf).1
  have hca : sk.canAdd U key = true := by
    simp [SharedKeys.canAdd, SharedKeys.maxKeys, SharedKeys.maxKeyLen, hroom, hlen, hchars]
  refine ⟨fun c hc => ?_, fun hn => ?_⟩
  · unfold SharedKeys.encode at hc
    unfold SharedKeys.encodeAndInsert
    simp [hca, hc]
  · unfold SharedKeys.encode at hn
    have : sk.encodeAndInsert U key = (⟨sk.entries ++ [(zstr key, sk.len)]⟩, some sk.len) := by
      unfold SharedKeys.encodeAndInsert
      simp [hca, hn]
    rw [this]
    refine ⟨rfl, ?_⟩
    rw [hw.len] at hroom ⊢
    simp [SharedKeys.len]; omega

theorem canAdd_iff {U : CharTable} {sk : SharedKeys} {key : List UInt8} : sk.canAdd U key = true ↔
    (sk.len < 2048 ∧ key.length ≤ 16 ∧ SharedKeys.canEncode U key = true) := by
  unfold SharedKeys.canAdd
  rw [Bool.and_eq_true, Bool.and_eq_true, decide_eq_true_iff, decide_eq_true_iff, and_assoc]
  exact Iff.rfl

/-- **C27, refusal.** A key is refused, and the table left alone, exactly when the table is full, the key is longer than 16
bytes or has a character that is not allowed. -/
theorem C27_refused (U : CharTable) (sk : SharedKeys) (key : List UInt8) :
    (sk.encodeAndInsert U key).2 = none ↔
      ¬ (sk.len < 2048 ∧ key.length ≤ 16 ∧ SharedKeys.canEncode U key = true) := by
  unfold SharedKeys.encodeAndInsert
  by_cases hca : sk.canAdd U key = true
  · have h : (sk.len < 2048 ∧ key.length ≤ 16 ∧ SharedKeys.canEncode U key = true) := by
      exact canAdd_iff.mp hca
    simp only [hca, Bool.not_true, Bool.false_eq_true, if_false]
    cases hl : sk.lookup (zstr key) <;> simp [h]
  · have h : ¬ (sk.len < 2048 ∧ key.length ≤ 16 ∧ SharedKeys.canEncode U key = true) := by
      intro h; exact hca (canAdd_iff.mpr h)
    have : (!sk.canAdd U key) = true := by simpa using hca
    rw [if_pos this]
    exact ⟨fun _ => h, fun _ => rfl⟩

/-- **C27, characters.** The characters of a key decide: as long as there is room, a text of at most 16 bytes gets a code
exactly when all its characters are ASCII letters, digits, `_`, `-`, or alphanumeric beyond ASCII. -/
theorem C27_characters (U : CharTable) (sk : SharedKeys) (cs : List Char) (hroom : sk.len < 2048)
    (hlen : (cs.flatMap String.utf8EncodeChar).length ≤ 16) :
    (sk.encodeAndInsert U (cs.flatMap String.utf8EncodeChar)).2.isSome ↔
      ∀ c ∈ cs, c.isAlphanum ∨ c = '_' ∨ c = '-' ∨ (128 ≤ c.toNat ∧ U.alnum c.toNat = true) := by
  have h := C27_refused U sk (cs.flatMap String.utf8EncodeChar)
  have hc : SharedKeys.canEncode U (cs.flatMap String.utf8EncodeChar) = true ↔ ∀ c ∈ cs, U.keyChar c.toNat = true := by
    unfold SharedKeys.canEncode
    rw [utf8Decode_encode]
    simp
  have hk : ∀ c : Char, U.keyChar c.toNat = true ↔
      (c.isAlphanum ∨ c = '_' ∨ c = '-' ∨ (128 ≤ c.toNat ∧ U.alnum c.toNat = true)) := by
    intro c
    have e1 : c = '_' ↔ c.toNat = 95 := by rw [← Char.toNat_inj]; rfl
    have e2 : c = '-' ↔ c.toNat = 45 := by rw [← Char.toNat_inj]; rfl
    rw [e1, e2]
    have e3 : c.val.toNat = c.toNat := rfl
    simp only [CharTable.keyChar, Char.isAlphanum, Char.isAlpha, Char.isUpper, Char.isLower, Char.isDigit, Bool.or_eq_true,
      Bool.and_eq_true, decide_eq_true_eq, beq_iff_eq, ge_iff_le, UInt32.le_iff_toNat_le, e3]
    generalize U.alnum c.toNat = b
    cases b <;> simp <;> omega
  simp only [hk] at hc
  rw [← hc, Option.isSome_iff_ne_none, ne_eq, h]
  rw [Decidable.not_not]
  exact ⟨fun h => h.2.2, fun h => ⟨hroom, hlen, h⟩⟩

/-- "a-b_é" gets a code where é counts as alphanumeric, and "a.b" does not. -/
example : (SharedKeys.new.encodeAndInsert ⟨fun c => c == 233⟩ ("a-b_é".toList.flatMap String.utf8EncodeChar)).2 = some 0 ∧
    (SharedKeys.new.encodeAndInsert ⟨fun c => c == 233⟩ ("a.b".toList.flatMap String.utf8EncodeChar)).2 = none := by
  decide +kernel

def exampleChars : CharTable := ⟨fun _ => false⟩
def foo : List UInt8 := [0x66, 0x6f, 0x6f]
def bar : List UInt8 := [0x62, 0x61, 0x72]
def table1 : SharedKeys := (SharedKeys.new.encodeAndInsert exampleChars foo).1
def table2 : SharedKeys := (table1.encodeAndInsert exampleChars bar).1

/-- Keys "foo", "bar", "foo", "_": codes 0, 1, 0, 2. -/
example : Inserted exampleChars .new table2 ∧ (SharedKeys.new.encodeAndInsert exampleChars foo).2 = some 0 ∧
    (table1.encodeAndInsert exampleChars bar).2 = some 1 ∧ (table2.encodeAndInsert exampleChars foo).2 = some 0 ∧
    (table2.encodeAndInsert exampleChars [0x5f]).2 = some 2 ∧ table2.decode 1 = some bar ∧ table2.encode foo = some 0 :=
  ⟨.insert _ (.insert _ .refl), by decide +kernel⟩

end Fleece.Props
