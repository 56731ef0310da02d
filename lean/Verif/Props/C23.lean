import Verif.Proofs.KeyOrder
import Verif.Proofs.EncStep
import Verif.Proofs.ReadBack
import Verif.Props.C18

/-! # C23 Encoder and reader order dict keys the same way -/

namespace Fleece.Props
open Fleece Res

/-- **C23.** The key order (Spec/KeyOrder.lean) is a strict total order. -/
theorem C23_total_order :
    (∀ a : Key, ¬ Key.Lt a a) ∧ (∀ a b c : Key, Key.Lt a b → Key.Lt b c → Key.Lt a c) ∧
      (∀ a b : Key, Key.Lt a b ∨ a = b ∨ Key.Lt b a) :=
  ⟨Key.lt_irrefl, fun _ _ _ => Key.lt_trans, Key.total⟩

/-- **C23, encoder.** The comparison by which `end_dict` sorts is that order, on all pairs of keys in all forms. -/
theorem C23_encoder_order (a b : DictKey) : Key.Compares a.key b.key (DictKey.cmp a b) := DictKey.cmp_compares a b

/-- **C23, reader.** The comparison of the binary search, of a probe with a stored key, is that order. -/
theorem C23_reader_order (m : Mem) (wide : Bool) (v : Val) (k probe : Key) (hv : KeyValue m wide v k) :
    ∃ o, dictKeyCmp m probe v wide = .ok o ∧ Key.Compares probe k o := dictKeyCmp_compares hv probe

/-- **C23.** Hence they agree: comparing a probe with a stored key gives what the encoder got when it compared the two
keys. -/
theorem C23_agree (m : Mem) (wide : Bool) (v : Val) (a b : DictKey) (hv : KeyValue m wide v b.key) :
    dictKeyCmp m a.key v wide = .ok (DictKey.cmp a b) := by
  obtain ⟨o, h1, h2⟩ := dictKeyCmp_compares hv a.key
  rw [h1, Key.compares_unique h2 (DictKey.cmp_compares a b)]

theorem inline_byte (a : UInt8) (h : validUtf8 [a] = true) : (SizedValue.newNarrow (0x40 ||| 1) a).str = [a] := by
  revert h a; exact forall_byte (by decide +kernel)

theorem inline_str {k : List UInt8} (hv : validUtf8 k = true) {s : SizedValue} (h : dataSized 0x40 k = some s) :
    s.str = k := by
  match k, h with
  | [], h => cases h; rfl
  | [a], h => cases h; exact inline_byte a hv
  | a :: b :: l, h => cases h

/-- The key the encoder sorts by is the key that was given to it: the string itself, or its code. -/
theorem C23_stored_key (c : Cfg) (e : Enc) (k : RStr) (dk : DictKey) (tail : List UInt8) (sk' : Option SharedKeys)
    (h : KeyStored c e k.bytes dk tail sk') :
    dk.key = .string k.bytes ∨ ∃ sk code, e.sk = some sk ∧ (sk.encodeAndInsert c.chars k.bytes).2 = some code ∧
      dk.key = .shared code := by
  cases h with
  | @inline s h =>
    left
    simp only [DictKey.key, inline_str k.valid h]
  | shared hsk h2 h => exact .inr ⟨_, _, hsk, by rw [h], rfl⟩
  | plain hsk h2 hb hl ht => exact .inl rfl
  | unshared hsk h2 h hb hl ht => exact .inl rfl

/-- A dict `{"b": true, 5: false}` in memory: its second key is `"b"`, in the four bytes of a wide slot. -/
example : KeyValue ⟨[0x41, 0x62, 0, 0], 0, true⟩ true ⟨0, 4⟩ (.string [0x62]) := .inline (by decide +kernel) (by decide +kernel)
example : KeyValue ⟨[0x00, 0x05], 0, true⟩ false ⟨0, 2⟩ (.shared 5) := .short (by decide +kernel) (by decide +kernel)
example : KeyValue ⟨[0x42, 0x61, 0x62, 0, 0x80, 0x02], 0, true⟩ false ⟨4, 2⟩ (.string [0x61, 0x62]) :=
  .pointer (by decide +kernel) (tgt := ⟨0, 4⟩) (by decide +kernel) (by decide +kernel) (by simp)
example : DictKey.cmp (.shared 700) (.inline (SizedValue.newNarrow 0x40 0)) = .lt ∧
    DictKey.cmp (.pointer [0x61, 0x62] 0) (.inline (SizedValue.newNarrow 0x41 0x61)) = .gt := by decide +kernel

end Fleece.Props
