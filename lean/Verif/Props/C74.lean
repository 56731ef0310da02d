import Verif.Proofs.ReadDepth
import Verif.Props.C34
import Verif.Props.C37
import Verif.Props.C54

/-!
# C74 Formatting, converting and copying need a bounded stack

`Val.debug`, `Slot.newFromFleece` and `Enc.writeFleece` take how many calls of themselves may be active at one time, and do not
return if that is not enough. Full claim: there is a number that is enough for every accepted document. It is false (`C74_any_depth`).
What holds is that exactly as many are needed as the document is deep (`Tree.height`), neither more nor fewer, that a document is
no deeper than decoding it was, and that it is at most 3/2 times as deep as it has bytes.
-/

namespace Fleece.Props
open Fleece Res

variable (m : Mem) (F : FloatOps) (scope : Option SharedKeys)

/-- **C74, formatting.** `{:?}` of a value returns exactly if there is stack for as many calls as the value is deep. -/
theorem C74_format (P : Printer) (D : Nat) (v : Val) (t : Tree) (h : readTree m F scope D v = .ok t) (d : Nat) :
    (∃ s, v.debug P m F scope d = .ok s) ↔ t.height ≤ d := by
  have hx := readTree_exact h d
  constructor
  · rintro ⟨s, hs⟩
    have hp : v.type m ≠ .ok .pointer := by
      intro ht
      cases D with
      | zero => cases h
      | succ D => unfold readTree at h; rw [ht] at h; cases h
    obtain ⟨t', ht'⟩ := read_of_debug hp hs
    by_cases hle : t.height ≤ d
    · exact hle
    · rw [hx, if_neg hle] at ht'; cases ht'
  · intro hle
    rw [if_pos hle] at hx
    obtain ⟨s, hs, _⟩ := debug_of_read P hx
    exact ⟨s, hs⟩

/-- **C74, converting.** The same of `MutableArray::clone_from` and `MutableDict::clone_from`, for values they can convert (C34). -/
theorem C74_convert (hm : m.data.length < 2 ^ 63) (hsc : ∀ sk, scope = some sk → sk.WF) (D : Nat) (v : Val) (t : Tree)
    (h : readTree m F scope D v = .ok t) (hc : ∀ d, Copies m F scope (ScopeKeeps scope) d v) (w : Bool) (d : Nat) :
    (∃ s, Slot.newFromFleece m F scope d v w = .ok s) ↔ t.height ≤ d := by
  constructor
  · rintro ⟨s, hs⟩; exact newFromFleece_height h hs
  · intro hle
    have hx := readTree_exact h d
    rw [if_pos hle] at hx
    obtain ⟨s, hs, _⟩ := C34_partial m F scope hm hsc d v t hx (hc d) w
    exact ⟨s, hs⟩

/-- **C74, copying.** The same of `Encoder::write_fleece`: it never succeeds with less stack than that, and with as much it is the
calls that write the value one by one (C37), whatever the encoder makes of them. -/
theorem C74_copy (c : Cfg) (hm : m.data.length < 2 ^ 63) (D : Nat) (v : Val) (t : Tree)
    (h : readTree m F scope D v = .ok t) (hc : ∀ d, Copies m F scope (fun k => validUtf8 k = true) d v) (d : Nat) :
    (d < t.height → ∀ e e', Enc.writeFleece c m F scope d v e ≠ .ok (e', .ok ())) ∧
    (t.height ≤ d → ∃ ops, Op.total ops = t.weight ∧
      (∀ b b' : Build, b.accept t = .ok b' → b.run F ops = (b', List.replicate ops.length (.ok ()))) ∧
      ∀ e, Enc.writeFleece c m F scope d v e = (Enc.runStop c e ops).lift) := by
  constructor
  · intro hlt e e' hw
    have := writeFleece_height h hw
    omega
  · intro hle
    have hx := readTree_exact h d
    rw [if_pos hle] at hx
    obtain ⟨ops, h1, h2, h3⟩ := C37_calls_partial m F scope hm d v t hx (hc d)
    exact ⟨ops, h1, h2, fun e => h3 c e⟩

/-- **C74 against decoding.** If `f` nested calls were enough to decode a document, it is no deeper than `f`; and it is at most 3/2
times as deep as it has bytes. -/
theorem C74_decoded (hdbg : m.dbg = true) (f : Nat) (root : Val) (hok : fromBytesGo m f = .ok root)
    (m' : Mem) (hm : m' = m ∨ m' = { m with dbg := false }) (D : Nat) (t : Tree) (h : readTree m' F scope D root = .ok t) :
    t.height ≤ f ∧ t.height ≤ 3 * m.data.length / 2 + 1 := by
  have key : ∀ g, fromBytesGo m g = .ok root → t.height ≤ g := by
    intro g hg
    exact fromBytesGo_height hdbg hm hg h
  refine ⟨key f hok, key _ ?_⟩
  obtain ⟨h1, h2⟩ := C54_linear_partial m hdbg _ (Nat.le_refl (3 * m.data.length / 2 + 1))
  rw [h2]
  rcases Nat.le_total f (3 * m.data.length / 2 + 1) with hf | hf
  · rcases fromBytesGo_mono m _ _ hf with h3 | h3
    · rw [hok] at h3; cases h3
    · rw [← h2, ← h3, hok]
  · rw [← (C54_linear_partial m hdbg f hf).2, hok]

/-- **C74 is false**: whatever the size of the stack, there is a document of `4 * d + 6` bytes, arrays in arrays, that is accepted,
wherever it lies in memory and in both builds, and that can neither be formatted nor converted nor copied. -/
theorem C74_any_depth (d : Nat) : ∃ data : List UInt8, data.length = 4 * d + 6 ∧
    ∀ base dbg, base + data.length < 2 ^ 64 → ∃ v, fromBytes ⟨data, base, dbg⟩ = .ok v ∧
      (∀ P F scope s, v.debug P ⟨data, base, dbg⟩ F scope d ≠ .ok s) ∧
      (∀ F scope w s, Slot.newFromFleece ⟨data, base, dbg⟩ F scope d v w ≠ .ok s) ∧
      ∀ c F scope e e', Enc.writeFleece c ⟨data, base, dbg⟩ F scope d v e ≠ .ok (e', .ok ()) := by
  have hl := nesting_length d
  have hr : rootBytes 4 = [0x80, 0x02] := by decide
  have hd : (nesting d).length - 4 * d = 4 := by omega
  refine ⟨nesting d ++ rootBytes 4, by rw [List.length_append, hr, hl]; simp, fun base dbg hb => ?_⟩
  have read : ∀ F scope, fromBytes ⟨nesting d ++ rootBytes 4, base, dbg⟩ = .ok ⟨4 * d, 4⟩ ∧
      ∃ D, readTree ⟨nesting d ++ rootBytes 4, base, dbg⟩ F scope D ⟨4 * d, 4⟩ = .ok (nested d) := by
    intro F scope
    obtain ⟨h1, _, h3⟩ := (nesting_rep F d scope).document (m := ⟨nesting d ++ rootBytes 4, base, dbg⟩) hb (by rw [hd])
      (by omega) (by omega) (by rw [hd]; decide)
    rw [hd] at h1 h3
    exact ⟨h1, _, h3.read _ (Nat.le_refl _)⟩
  have hh := nested_height d
  refine ⟨⟨4 * d, 4⟩, (read ⟨fun _ => 0, fun _ => 0, fun _ => 0, fun _ => 0, fun _ => 0, fun _ => 0⟩ none).1, ?_, ?_, ?_⟩
  · intro P F scope s hs
    obtain ⟨_, D, hD⟩ := read F scope
    have := (C74_format _ F scope P D _ _ hD d).mp ⟨s, hs⟩
    omega
  · intro F scope w s hs
    obtain ⟨_, D, hD⟩ := read F scope
    have := newFromFleece_height hD hs
    omega
  · intro c F scope e e' hs
    obtain ⟨_, D, hD⟩ := read F scope
    have := writeFleece_height hD hs
    omega

set_option maxRecDepth 20000 in
/-- Not vacuous: `{"list": [7, "tree"], "n": true}` is three deep; three calls format and convert it, two do not. -/
example (P : Printer) (F : FloatOps) : fromBytes goodDoc = .ok ⟨18, 10⟩ ∧ (∃ s, Val.debug P goodDoc F none 3 ⟨18, 10⟩ = .ok s) ∧
    (¬ ∃ s, Val.debug P goodDoc F none 2 ⟨18, 10⟩ = .ok s) ∧ (∃ s, Slot.newFromFleece goodDoc F none 3 ⟨18, 10⟩ false = .ok s) ∧
    ¬ ∃ s, Slot.newFromFleece goodDoc F none 2 ⟨18, 10⟩ false = .ok s := by
  have h : readTree goodDoc F none 3 ⟨18, 10⟩ = .ok (.dict [([0x6c, 0x69, 0x73, 0x74], .arr [.int 7, .str [0x74, 0x72, 0x65, 0x65]]),
    ([0x6e], .bool true)]) := rfl
  have hf := C74_format goodDoc F none P 3 _ _ h
  refine ⟨by decide +kernel, (hf 3).mpr (by decide), fun hs => absurd ((hf 2).mp hs) (by decide), ⟨_, rfl⟩, ?_⟩
  rintro ⟨s, hs⟩
  exact absurd (newFromFleece_height h hs) (by decide)

end Fleece.Props
