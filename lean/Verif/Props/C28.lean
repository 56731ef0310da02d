import Verif.Props.C27

/-! # C28 Distinct keys never share a code -/

namespace Fleece.Props
open Fleece

/-- **C28.** The code of a key of at most 15 bytes stands for that key, in the table and in all later ones. (Full claim:
for every accepted key; false for 16 bytes, `C28_refuted`.) -/
theorem C28_decode_partial (U : CharTable) (sk sk' : SharedKeys) (h : Inserted U .new sk) (key : List UInt8) (c : Nat)
    (hlen : key.length ≤ 15) (hc : (sk.encodeAndInsert U key).2 = some c)
    (hl : Inserted U (sk.encodeAndInsert U key).1 sk') : sk'.decode c = some key := by
  have hw := (h.inv SharedKeys.new_wf).1
  obtain ⟨h1, _, h3, _, _, _, hce, _⟩ := hw.insert_some U (sk' := (sk.encodeAndInsert U key).1) (Prod.ext rfl hc)
  rw [SharedKeys.zstr_eq hlen (SharedKeys.canEncode_no_nul hce)] at h3
  exact (hl.inv h1).2.decode h3

/-- **C28.** Two keys of at most 15 bytes that were given the same code, at any two points of a history, are equal. -/
theorem C28_injective_partial (U : CharTable) (sk sk' : SharedKeys) (h : Inserted U .new sk) (key key' : List UInt8)
    (c : Nat) (hlen : key.length ≤ 15) (hlen' : key'.length ≤ 15) (hc : (sk.encodeAndInsert U key).2 = some c)
    (hl : Inserted U (sk.encodeAndInsert U key).1 sk') (hc' : (sk'.encodeAndInsert U key').2 = some c) : key = key' := by
  have hw := (h.inv SharedKeys.new_wf).1
  obtain ⟨h1, _⟩ := hw.insert_some U (sk' := (sk.encodeAndInsert U key).1) (Prod.ext rfl hc)
  have hw' := (hl.inv h1).1
  obtain ⟨_, h2, h3, _, _, _, hce, _⟩ := hw'.insert_some U (sk' := (sk'.encodeAndInsert U key').1) (Prod.ext rfl hc')
  rw [SharedKeys.zstr_eq hlen' (SharedKeys.canEncode_no_nul hce)] at h3
  have := h2.decode (C28_decode_partial U sk sk' h key c hlen hc hl)
  rw [this] at h3
  exact Option.some.inj h3

/-- Two keys of 16 bytes, different in the last one. -/
def longKey (last : UInt8) : List UInt8 := List.replicate 15 0x61 ++ [last]

/-- **C28 is false of the code** for keys of 16 bytes, which `can_add` accepts: they are cut to 15 bytes, so two different
ones get one code, and decoding it gives neither. -/
theorem C28_refuted (U : CharTable) :
    ∃ (k k' : List UInt8) (sk sk' : SharedKeys) (c : Nat), k ≠ k' ∧ validUtf8 k = true ∧ validUtf8 k' = true ∧
      SharedKeys.new.encodeAndInsert U k = (sk, some c) ∧ sk.encodeAndInsert U k' = (sk', some c) ∧
      sk'.decode c ≠ some k ∧ sk'.decode c ≠ some k' := by
  refine ⟨longKey 0x62, longKey 0x63, ⟨[(List.replicate 15 0x61, 0)]⟩, ⟨[(List.replicate 15 0x61, 0)]⟩, 0, by decide,
    by decide +kernel, by decide +kernel, rfl, rfl, by decide, by decide⟩

example : (SharedKeys.new.encodeAndInsert ⟨fun _ => false⟩ [0x61, 0x62]).2 = some 0 := by decide +kernel

end Fleece.Props
