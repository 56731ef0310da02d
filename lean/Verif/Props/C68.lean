import Verif.Proofs.DebugText
import Verif.Proofs.DebugSafe
import Verif.Props.C20
import Verif.Props.C61

/-!
# C68 `{:?}` shows a document, all of it and nothing else

`Spec.Renders` says which text is which document. How `core::fmt` writes a float, and which characters it prints as they are, is
left open (`Printer`).
-/

namespace Fleece.Props
open Fleece Res Spec

/-- **C68, everything is shown.** If a complete traversal of a value finds `t`, the text of the value is a text of `t`. -/
theorem C68_shows (P : Printer) (m : Mem) (F : FloatOps) (scope : Option SharedKeys) (hl : Legible scope) (d : Nat) (v : Val)
    (t : Tree) (h : readTree m F scope d v = .ok t) : ∃ s, v.debug P m F scope d = .ok s ∧ Renders P t s := by
  obtain ⟨s, h1, h2⟩ := debug_of_read P h
  exact ⟨s, h1, h2 hl⟩

/-- **C68, nothing else is.** What is printed of a value that a client reaches in an accepted document is a text of what a
complete traversal finds there. -/
theorem C68_only (P : Printer) (m : Mem) (hdbg : m.dbg = true) (root : Val) (hok : fromBytes m = .ok root) (m' : Mem)
    (hm : m' = m ∨ m' = { m with dbg := false }) (F : FloatOps) (scope : Option SharedKeys) (hl : Legible scope) (v : Val)
    (hv : Reach m' scope root v) (d : Nat) (s : Text) (h : v.debug P m' F scope d = .ok s) :
    ∃ t, readTree m' F scope d v = .ok t ∧ Renders P t s := by
  have hd : DeepOK m' root := by
    have hd : DeepOK m root := fromBytesGo_deep hdbg _ _ hok
    rcases hm with rfl | rfl
    · exact hd
    · exact hd.rel hdbg
  have ht : v.type m' ≠ .ok .pointer := by
    cases hd.reach hv with
    | scalar _ _ ty _ _ np => rw [ty]; intro e; injection e with e; exact np e
    | coll _ ty ad => rw [ty]; intro e; injection e with e; subst e; rcases ad with h | h <;> cases h
  obtain ⟨t, h1⟩ := read_of_debug ht h
  obtain ⟨s', h2, h3⟩ := debug_of_read P h1
  rw [h] at h2
  cases h2
  exact ⟨t, h1, h3 hl⟩

/-- **C68, a text is one document.** Values with the same text, of whatever documents, have the same content, except that floats
may differ which `core::fmt` writes the same way (as it does all NaNs). `core::fmt` writes no parenthesis in a float. -/
theorem C68_faithful (P : Printer) (hp : ∀ d, ')' ∉ P.float d) (F F' : FloatOps) (m m' : Mem) (scope scope' : Option SharedKeys)
    (hl : Legible scope) (hl' : Legible scope') (d d' : Nat) (v v' : Val) (t t' : Tree) (h : readTree m F scope d v = .ok t)
    (h' : readTree m' F' scope' d' v' = .ok t') (s : Text) (hs : v.debug P m F scope d = .ok s)
    (hs' : v'.debug P m' F' scope' d' = .ok s) : Alike P t t' := by
  obtain ⟨s1, h1, r1⟩ := C68_shows P m F scope hl d v t h
  obtain ⟨s2, h2, r2⟩ := C68_shows P m' F' scope' hl' d' v' t' h'
  rw [hs] at h1; cases h1
  rw [hs'] at h2; cases h2
  exact (r1.prefix_ hp r2 (r := []) (r' := []) rfl).1

/-- **C68, and exactly that one** if no float in it has the text of another float. -/
theorem C68_exact (P : Printer) (hp : ∀ d, ')' ∉ P.float d) (F F' : FloatOps) (m m' : Mem) (scope scope' : Option SharedKeys)
    (hl : Legible scope) (hl' : Legible scope') (d d' : Nat) (v v' : Val) (t t' : Tree) (h : readTree m F scope d v = .ok t)
    (h' : readTree m' F' scope' d' v' = .ok t') (s : Text) (hs : v.debug P m F scope d = .ok s)
    (hs' : v'.debug P m' F' scope' d' = .ok s) (hf : ∀ a, HasFloat a t → ∀ b, P.float a = P.float b → a = b) : t = t' :=
  (C68_faithful P hp F F' m m' scope scope' hl hl' d d' v v' t t' h h' s hs hs').eq hf

/-- The word before the parenthesis. -/
def words : List (ValueType × String) :=
  [(.null, "Null"), (.undefined, "Undefined"), (.false, "False"), (.true, "True"), (.short, "Short"), (.int, "Int"),
   (.unsignedInt, "UnsignedInt"), (.float, "Float"), (.double32, "Double32"), (.double64, "Double64"), (.string, "String"),
   (.data, "Data"), (.array, "Array"), (.dict, "Dict"), (.pointer, "Pointer")]

/-- **C68, how it is stored.** The text starts with the type of the value, which also tells how a number is stored. -/
theorem C68_type (P : Printer) (m : Mem) (F : FloatOps) (scope : Option SharedKeys) (d : Nat) (v : Val) (s : Text)
    (h : v.debug P m F scope d = .ok s) :
    ∃ ty word rest, v.type m = .ok ty ∧ (ty, word) ∈ words ∧ s = word.toList ++ '(' :: (rest ++ [')']) := by
  cases d with
  | zero => cases h
  | succ d =>
    unfold Val.debug at h
    obtain ⟨ty, ht, h⟩ := bind_eq_ok.mp h
    obtain ⟨field, _, h⟩ := bind_eq_ok.mp h
    cases h
    have : ∃ word, (ty, word) ∈ words ∧ ty.name = word.toList := by
      cases ty <;> exact ⟨_, by simp only [words, List.mem_cons]; first | exact .inl rfl | (repeat (first | exact .inl rfl | refine .inr ?_)), rfl⟩
    obtain ⟨word, h1, h2⟩ := this
    refine ⟨ty, word, separated ((if v.len = 0 then [literalText ['E', 'm', 'p', 't', 'y']] else []) ++ [field]), ht, h1, ?_⟩
    unfold tupleText
    rw [h2, List.append_assoc, List.append_assoc]
    rfl

/-- **C68 of the format.** Bytes that are the document `t` (C61; whoever wrote them) are printed as `t`. Missing: negative numbers
of fewer than eight bytes (C46). -/
theorem C68_document_partial (P : Printer) (r : Format.Reading) (hneg : ¬ r.neg) (hl : Legible r.scope) (data : List UInt8)
    (t : Tree) (h : Format.Document r data t) (m : Mem) (hm : m.data = data) (hb : m.base + data.length < 2 ^ 64) :
    ∃ v, fromBytes m = .ok v ∧ ∀ d, data.length ≤ d → ∃ s, v.debug P m r.F r.scope d = .ok s ∧ Renders P t s := by
  obtain ⟨v, h1, h2⟩ := C61_decodes_partial r hneg data t h m hm hb
  exact ⟨v, h1, fun d hd => C68_shows P m r.F r.scope hl d v t (h2 d hd)⟩

/-- **C68 of the encoder.** A document with narrow slots that the encoder wrote is printed as what was written, with the entries
of each dict in the order in which they are stored (`Tree.Same`). Missing: what the encoder gets wrong (C20, C60). -/
theorem C68_written_partial (P : Printer) (c : Cfg) (F : FloatOps) (sk : Option SharedKeys) (hsk : ∀ s, sk = some s → s.WF)
    (ops : List Op) (hsize : Op.total ops ≤ SizedValue.maxNarrow) (hplain : ∀ op ∈ ops, op.Plain sk.isSome)
    (hcap : ∀ n, Op.beginArray n ∈ ops → n * 4 < 2 ^ 63) (hall : AllOk F {} ops) (t : Tree)
    (ht : (Build.run F {} ops).1.finish = some t) :
    ∃ e rs out, ({ Enc.new with sk } : Enc).run c ops = .ok (e, rs) ∧ e.finish c = .ok out ∧
      ∀ scope, ScopeLe e.sk scope → Legible scope → ∀ m : Mem, m.data = out → m.base + out.length < 2 ^ 64 →
        ∃ v t', fromBytes m = .ok v ∧ Tree.Same t t' ∧
          ∀ d, out.length ≤ d → ∃ s, v.debug P m F scope d = .ok s ∧ Renders P t' s := by
  obtain ⟨e, rs, out, h1, _, h3, h4⟩ := C20_small_partial c F sk hsk ops hsize hplain hcap hall t ht
  refine ⟨e, rs, out, h1, h3, fun scope hs hl m hm hb => ?_⟩
  obtain ⟨v, t', g1, g2, g3⟩ := h4 scope hs m hm hb
  exact ⟨v, t', g1, g2, fun d hd => C68_shows P m F scope hl d v t' (g3 d hd)⟩

/-! ## Examples -/

/-- A printer: floats by their bits, ASCII other than control characters as it is. -/
def asciiPrinter : Printer := ⟨fun d => natText d.toNat, fun c => 0x20 ≤ c.toNat && c.toNat < 0x7F⟩

/-- `{"a\n": [-1, true], "é": null}` and its text. -/
def printedDoc : List UInt8 :=
  [0x42, 0x61, 0x0A, 0x00,  -- 0: "a\n"
   0x42, 0xC3, 0xA9, 0x00,  -- 4: "é"
   0x60, 0x02, 0x0F, 0xFF, 0x38, 0x00,  -- 8: [-1, true]
   0x70, 0x02, 0x80, 0x08, 0x80, 0x05, 0x80, 0x08, 0x30, 0x00,  -- 14
   0x80, 0x05]

private def F0 : FloatOps := ⟨fun _ => 0, fun _ => 0, fun _ => 0, fun _ => 0, fun _ => 0, fun _ => 0⟩

private theorem printed : fromBytes { data := printedDoc } = .ok ⟨14, 10⟩ ∧
    (⟨14, 10⟩ : Val).debug asciiPrinter { data := printedDoc } F0 none 4 =
      .ok "Dict({\"a\\n\": Array([Short(-1), True(\"True\")]), \"\\u{e9}\": Null(\"Null\")})".toList := by decide +kernel

example : ∃ t, readTree { data := printedDoc } F0 none 4 ⟨14, 10⟩ = .ok t ∧
    Renders asciiPrinter t "Dict({\"a\\n\": Array([Short(-1), True(\"True\")]), \"\\u{e9}\": Null(\"Null\")})".toList :=
  C68_only asciiPrinter { data := printedDoc } rfl _ printed.1 _ (.inl rfl) F0 none (by intro _ h; cases h) _ .root 4 _ printed.2

example : Legible none := by intro _ h; cases h

/-- The printer writes no parenthesis in a float, and no two floats the same way. -/
example : (∀ d, ')' ∉ asciiPrinter.float d) ∧ ∀ a b, asciiPrinter.float a = asciiPrinter.float b → a = b := by
  have num : ∀ n : Nat, Digits 10 n (natText n) := fun n => toDigits_digits (by decide) n
  refine ⟨fun d h => ?_, fun a b h => UInt64.toNat_inj.mp ((num a.toNat).unique (by decide) (num b.toNat) h)⟩
  obtain ⟨x, hx, e⟩ := (num d.toNat).chars _ h
  have : ∀ x, x < 10 → ')' ≠ Nat.digitChar x := by decide
  exact this x hx e

end Fleece.Props
