import Verif.Proofs.Format
import Verif.Proofs.Lookup

/-!
# C61 The decoder reads the format

`Format.Document` (Spec.Format) says which bytes are which document without mentioning any code: the documents of every
encoder, not only of this one (C62). The full claim is false of numbers: negative ones of fewer than eight bytes become positive
(`C61_refuted`, as C46). Everything else in the specification is read as it says.
-/

namespace Fleece.Props
open Fleece Res Format

/-- **C61, complete traversal.** Bytes that are the document `t` are accepted, wherever they lie in memory and in both build
profiles, and a complete traversal gives `t`. Missing: negative numbers of fewer than eight bytes (`r.neg`). -/
theorem C61_decodes_partial (r : Reading) (hneg : ¬ r.neg) (data : List UInt8) (t : Tree) (h : Document r data t) (m : Mem)
    (hm : m.data = data) (hb : m.base + data.length < 2 ^ 64) :
    ∃ v, fromBytes m = .ok v ∧ ∀ fuel, data.length ≤ fuel → readTree m r.F r.scope fuel v = .ok t := by
  subst hm
  obtain ⟨p, e, len, h1, h2, h3, h4, h5⟩ := h.root hneg hb
  have := h2.le
  exact ⟨_, h1, fun fuel hf => h5.read fuel (by omega)⟩

/-- **C61, all of the reader.** Whatever a client learns by `len`, indexing, iteration and lookup, all the way down, agrees with
`t`. With shared keys: codes are positions, the texts in the table have at most 15 bytes and no NUL, and a text of the table is
not also used as a key in full. -/
theorem C61_shows_partial (r : Reading) (hneg : ¬ r.neg) (data : List UInt8) (t : Tree) (h : Document r data t)
    (hsk : ∀ sk, r.scope = some sk → sk.WF ∧ (∀ e ∈ sk.entries, e.1.length ≤ 15 ∧ (0 : UInt8) ∉ e.1) ∧
      ∀ s, r.plain s → sk.encode s = none)
    (m : Mem) (hm : m.data = data) (hb : m.base + data.length < 2 ^ 64) :
    ∃ v, fromBytes m = .ok v ∧
      Matches m r.F r.scope (fun k => r.scope = none ∨ k.length ≤ 15 ∧ (0 : UInt8) ∉ k) v t := by
  subst hm
  obtain ⟨p, e, len, h1, h2, h3, h4, h5⟩ := h.root hneg hb
  have hmat := h2.matches hb fun sk hs => by
    obtain ⟨g1, g2, g3⟩ := hsk sk hs
    exact ⟨g1, fun e he => SharedKeys.zstr_eq (g2 e he).1 (g2 e he).2, g3⟩
  dsimp only at hmat
  refine ⟨_, h1, (hmat ⟨p, len⟩ rfl h4 h3).weaken fun k hk sk hs => ?_⟩
  rcases hk with hk | hk
  · rw [hk] at hs; cases hs
  · exact .inl (SharedKeys.zstr_eq hk.1 hk.2)

/-- **C61, the specification is unambiguous.** Bytes are at most one document (of those without small negative numbers). -/
theorem C61_unambiguous (r : Reading) (hneg : ¬ r.neg) (data : List UInt8) (t t' : Tree) (hb : data.length < 2 ^ 64)
    (h : Document r data t) (h' : Document r data t') : t = t' := by
  obtain ⟨v, h1, h2⟩ := C61_decodes_partial r hneg data t h { data := data } rfl (by simpa using hb)
  obtain ⟨v', g1, g2⟩ := C61_decodes_partial r hneg data t' h' { data := data } rfl (by simpa using hb)
  rw [h1] at g1; cases g1
  have e1 := h2 data.length (Nat.le_refl _)
  rw [g2 data.length (Nat.le_refl _)] at e1
  cases e1; rfl

/-- **C61, refuted in full.** The bytes `10 FF` are the number -1; the decoder reads 255. -/
theorem C61_refuted (F : FloatOps) : Document ⟨F, none, True, fun _ => True⟩ [0x10, 0xFF] (.int (-1)) ∧
    fromBytes { data := [0x10, 0xFF] } = .ok ⟨0, 2⟩ ∧ ∀ fuel, readTree { data := [0x10, 0xFF] } F none (fuel + 1) ⟨0, 2⟩ = .ok (.int 255) := by
  refine ⟨.alone rfl (.scalar (bs := [0x10, 0xFF]) (List.prefix_refl _)
      (.int (by decide) (Spec.Stores.int (c := 0) (bs := [0xFF]) (by omega) rfl rfl (by simp)) fun _ _ => trivial)),
    by decide +kernel, fun fuel => ?_⟩
  have ht : (⟨0, 2⟩ : Val).type { data := [0x10, 0xFF] } = .ok .int := by decide +kernel
  have hb : (⟨0, 2⟩ : Val).byte { data := [0x10, 0xFF] } 0 = .ok 0x10 := by decide +kernel
  have hr : rawRead { data := [0x10, 0xFF] } 1 1 = .ok [0xFF] := by decide +kernel
  have h1 : ((0x10 : UInt8) &&& 0x07).toNat + 1 = 1 := by decide
  have h2 : Int.bmod (leNat [0xFF]) (2 ^ 64) = 255 := by decide
  simp only [readTree, ht, ok_bind, Val.toInt, hb, h1, Nat.zero_add, hr, pure_eq, h2]

/-! ## Documents of another encoder -/

section
variable (F : FloatOps)

/-- The bytes at a position of a literal. -/
theorem here_of {data : List UInt8} {p : Nat} {bs : List UInt8} (h : (data.drop p).take bs.length = bs) : Here data p bs := by
  have := List.take_prefix bs.length (data.drop p)
  rwa [h] at this

/-- `{"n": [1.5, -2, <data>], 3: "hello"}`, where 3 is the code of a shared key: `1.5` is a double stored as a float (`24`), which
this version never writes; the text "hello" is stored after the data it is not adjacent to; the array is wide; the dict is
narrow; the first key is inline. -/
def otherBytes : List UInt8 :=
  [0x24, 0x00, 0x00, 0x00, 0xC0, 0x3F,                                           -- 0: 1.5 as a float
   0x52, 0x07, 0x08, 0x00,                                                       -- 6: data 07 08
   0x45, 0x68, 0x65, 0x6C, 0x6C, 0x6F,                                           -- 10: "hello"
   0x68, 0x03, 0x80, 0x00, 0x00, 0x09, 0x0F, 0xFE, 0xAA, 0xAA, 0x80, 0, 0, 0x0A, -- 16: wide array: ->0, -2, ->6
   0x70, 0x02, 0x00, 0x03, 0x80, 0x0C, 0x41, 0x6E, 0x80, 0x0B,                   -- 30: dict: 3 -> 10, "n" -> 16
   0x80, 0x05]                                                                   -- 40: ->30

/-- Four shared keys: "k0", "k1", "k2", "id". -/
def otherKeys : SharedKeys := ⟨[([0x6B, 0x30], 0), ([0x6B, 0x31], 1), ([0x6B, 0x32], 2), ([0x69, 0x64], 3)]⟩

def otherTree : Tree := .dict [([0x69, 0x64], .str [0x68, 0x65, 0x6C, 0x6C, 0x6F]),
  ([0x6E], .arr [.float (F.widen 0x3FC00000), .int (-2), .data [7, 8]])]

def otherReading : Reading := ⟨F, some otherKeys, False, fun s => s = [0x6E]⟩

theorem points_of {data : List UInt8} {w : Bool} {q p : Nat} {bs : List UInt8} (off : Nat)
    (h : (data.drop q).take bs.length = bs) (len : bs.length = width w) (val : bigEndian bs = 2 ^ (8 * width w - 1) + off)
    (lt : off < 2 ^ (8 * width w - 2)) (eq : p + 2 * off = q) : Points data w q p :=
  ⟨bs, off, here_of h, len, val, lt, eq⟩

theorem other_document : Document (otherReading F) otherBytes (otherTree F) := by
  have h0 : Value (otherReading F) otherBytes none 0 6 (.float (F.widen 0x3FC00000)) :=
    .scalar (bs := [0x24, 0x00, 0x00, 0x00, 0xC0, 0x3F]) (here_of rfl)
      (.float (d := [0x00, 0x00, 0xC0, 0x3F]) (pad := []) (by decide) rfl)
  have h6 : Value (otherReading F) otherBytes none 6 10 (.data [7, 8]) :=
    .scalar (bs := [0x52, 0x07, 0x08, 0x00]) (here_of rfl)
      (.data (by decide) (.short (s := [7, 8]) (pad := [0]) (by decide) (by decide)))
  have h10 : Value (otherReading F) otherBytes none 10 16 (.str [0x68, 0x65, 0x6C, 0x6C, 0x6F]) :=
    .scalar (bs := [0x45, 0x68, 0x65, 0x6C, 0x6C, 0x6F]) (here_of rfl)
      (.str (by decide) (by decide +kernel) (.short (s := [0x68, 0x65, 0x6C, 0x6C, 0x6F]) (pad := []) (by decide) (by decide)))
  have h16 : Value (otherReading F) otherBytes none 16 30 (.arr [.float (F.widen 0x3FC00000), .int (-2), .data [7, 8]]) := by
    refine .arr (p := 16) (w := true) (xs := [.float (F.widen 0x3FC00000), .int (-2), .data [7, 8]]) ?_ (by simp) ?_ ?_
    · show Here otherBytes 16 (header 6 3 true)
      exact here_of (by decide +kernel)
    · show 16 + Format.headerSize 3 + 3 * 4 ≤ 42
      decide
    intro i t ht
    match i, ht with
    | 0, ht =>
      cases ht
      exact .pointer (w := true) (q := 18) (points_of (bs := [0x80, 0x00, 0x00, 0x09]) 9 rfl rfl (by decide) (by decide) rfl)
        (by decide) h0
    | 1, ht =>
      cases ht
      have hz : Spec.Stores [0x0F, 0xFE, 0xAA, 0xAA] 0 (-2) := by
        have h := Spec.Stores.short (data := [0x0F, 0xFE, 0xAA, 0xAA]) (pos := 0) (b0 := 0x0F) (b1 := 0xFE) rfl (by decide) rfl
        rwa [show Spec.twos 12 ((0x0F : UInt8).toNat * 256 + (0xFE : UInt8).toNat) = -2 by decide] at h
      exact .inline (w := true) (q := 22) (bs := [0x0F, 0xFE, 0xAA, 0xAA]) (here_of rfl) rfl
        (.int (by decide) hz fun ⟨b, hb, h1, _⟩ => by
          cases hb; exact absurd h1 (by decide))
    | 2, ht =>
      cases ht
      exact .pointer (w := true) (q := 26) (points_of (bs := [0x80, 0x00, 0x00, 0x0A]) 10 rfl rfl (by decide) (by decide) rfl)
        (by decide) h6
  refine .narrow (q := 40) (p := 30) (e := 40) rfl rfl (points_of (bs := [0x80, 0x05]) 5 rfl rfl (by decide) (by decide) rfl)
    (by decide) ?_
  refine .dict (p := 30) (w := false) (ks := [.shared 3, .string [0x6E]]) (kvs := [([0x69, 0x64], .str [0x68, 0x65, 0x6C, 0x6C, 0x6F]),
    ([0x6E], .arr [.float (F.widen 0x3FC00000), .int (-2), .data [7, 8]])]) ?_ (by simp) ?_ rfl ?_ ?_ ?_ ?_
  · show Here otherBytes 30 (header 7 2 false)
    exact here_of (by decide +kernel)
  · show 30 + Format.headerSize 2 + 2 * 2 * 2 ≤ 42
    decide
  · intro i k hk
    match i, hk with
    | 0, hk =>
      cases hk
      exact .shared (q := 32) (b0 := 0) (b1 := 3) (pad := []) (here_of rfl) rfl (by decide)
    | 1, hk =>
      cases hk
      exact .inline (q := 36) (bs := [0x41, 0x6E]) (here_of rfl) rfl
        (.str (by decide) (by decide +kernel) (.short (s := [0x6E]) (pad := []) (by decide) (by decide)))
  · intro i k s t hk ht
    match i, hk, ht with
    | 0, hk, ht => cases hk; cases ht; exact ⟨otherKeys, 3, rfl, rfl⟩
    | 1, hk, ht => cases hk; cases ht; exact ⟨rfl, rfl⟩
  · simp [Key.Lt]
  · intro i s t ht
    match i, ht with
    | 0, ht =>
      cases ht
      exact .pointer (w := false) (q := 34) (points_of (bs := [0x80, 0x0C]) 12 rfl rfl (by decide) (by decide) rfl) (by decide) h10
    | 1, ht =>
      cases ht
      exact .pointer (w := false) (q := 38) (points_of (bs := [0x80, 0x0B]) 11 rfl rfl (by decide) (by decide) rfl) (by decide) h16

/-- Traversal and lookup. -/
example (m : Mem) (hm : m.data = otherBytes) (hb : m.base + 42 < 2 ^ 64) :
    ∃ v, fromBytes m = .ok v ∧ readTree m F (some otherKeys) 42 v = .ok (otherTree F) := by
  obtain ⟨v, h1, h2⟩ := C61_decodes_partial (otherReading F) (fun h => h) otherBytes _ (other_document F) m hm hb
  exact ⟨v, h1, h2 42 (by decide)⟩

example (m : Mem) (hm : m.data = otherBytes) (hb : m.base + 42 < 2 ^ 64) :
    ∃ v, fromBytes m = .ok v ∧ Matches m F (some otherKeys)
      (fun k => some otherKeys = none ∨ k.length ≤ 15 ∧ (0 : UInt8) ∉ k) v (otherTree F) :=
  C61_shows_partial (otherReading F) (fun h => h) otherBytes _ (other_document F) (by
    rintro sk ⟨⟩
    refine ⟨?_, ?_, ?_⟩
    · constructor
      · intro i k c h
        match i, h with
        | 0, h => cases h; rfl
        | 1, h => cases h; rfl
        | 2, h => cases h; rfl
        | 3, h => cases h; rfl
      · decide
      · decide
    · decide
    · rintro s rfl; decide) m hm hb

/-- `[[], {}]`, the two empty collections in the slots themselves (this version points to them). -/
def emptyBytes : List UInt8 := [0x60, 0x02, 0x60, 0x00, 0x70, 0x00, 0x80, 0x03]

theorem empty_document : Document ⟨F, none, False, fun _ => True⟩ emptyBytes (.arr [.arr [], .dict []]) := by
  refine .narrow (q := 6) (p := 0) (e := 6) rfl rfl (points_of (bs := [0x80, 0x03]) 3 rfl rfl (by decide) (by decide) rfl)
    (by decide) ?_
  refine .arr (p := 0) (w := false) (xs := [.arr [], .dict []]) ?_ (by simp) ?_ ?_
  · show Here emptyBytes 0 (header 6 2 false)
    exact here_of (by decide +kernel)
  · show 0 + Format.headerSize 2 + 2 * 2 ≤ 8
    decide
  intro i t ht
  match i, ht with
  | 0, ht =>
    cases ht
    refine .empty (w := false) (q := 2) (e := 4) (.inl rfl) (by decide) (by decide) ?_
    refine .arr (p := 2) (w := false) (xs := []) ?_ (by simp) ?_ fun i t ht => by cases ht
    · show Here emptyBytes 2 (header 6 0 false)
      exact here_of (by decide +kernel)
    · show 2 + Format.headerSize 0 + 0 * 2 ≤ 8
      decide
  | 1, ht =>
    cases ht
    refine .empty (w := false) (q := 4) (e := 6) (.inr rfl) (by decide) (by decide) ?_
    refine .dict (p := 4) (w := false) (ks := []) (kvs := []) ?_ (by simp) ?_ rfl (fun i t ht => by cases ht)
      (fun i k s t ht => by cases ht) .nil fun i s t ht => by cases ht
    · show Here emptyBytes 4 (header 7 0 false)
      exact here_of (by decide +kernel)
    · show 4 + Format.headerSize 0 + 0 * 2 * 2 ≤ 8
      decide

example (m : Mem) (hm : m.data = emptyBytes) (hb : m.base + 8 < 2 ^ 64) :
    ∃ v, fromBytes m = .ok v ∧ readTree m F none 8 v = .ok (.arr [.arr [], .dict []]) := by
  obtain ⟨v, h1, h2⟩ := C61_decodes_partial ⟨F, none, False, fun _ => True⟩ (fun h => h) emptyBytes _ (empty_document F) m hm hb
  exact ⟨v, h1, h2 8 (by decide)⟩

end

end Fleece.Props
