import Verif.Proofs.DebugAlt
import Verif.Props.C68

/-!
# C79 `{:#?}` says what `{:?}` says, on many lines

`Spec/Lines.lean` has texts made of pieces and groups (`Doc`), on one line (`line`) and on many (`lines`), and a function that takes
the line breaks out (`joined`) without knowing what the text is made of. What is asked of the texts of floats (`Printer.Flat`)
`core::fmt` does: they are made of digits, `-`, `.` and letters.
-/

namespace Fleece.Props
open Fleece Res Spec

/-- **C79, the same text.** Of any value in any bytes, in either build: take the line breaks out of what `{:#?}` writes, and it is
what `{:?}` writes; and if one fails, the other does so in the same way. -/
theorem C79_same (P : Printer) (hP : P.Flat) (m : Mem) (F : FloatOps) (scope : Option SharedKeys) (fuel : Nat) (v : Val) :
    (joined .inside <$> v.debugAlt P m F scope fuel) = v.debug P m F scope fuel := by
  rcases debug_both hP (m := m) (F := F) (scope := scope) fuel v with ⟨d, h1, h2, h3, h4⟩ | ⟨h1, h2⟩
  · rw [h3, h4, map_eq, ok_bind]
    have := (Doc.joined_lines d h1 0).2 h2 []
    simp only [List.append_nil, joined] at this
    rw [this]
  · rw [← h1]
    cases hx : v.debug P m F scope fuel with
    | ok s => exact absurd hx (h2 s)
    | _ => rfl

/-- **C79, the lines.** The text is that of `{:?}` with a break at every bracket and comma outside quotes (`Doc.Good`), and four
spaces at the start of a line for every bracket that is open there. -/
theorem C79_lines (P : Printer) (hP : P.Flat) (m : Mem) (F : FloatOps) (scope : Option SharedKeys) (fuel : Nat) (v : Val) (s : Text)
    (h : v.debugAlt P m F scope fuel = .ok s) : ∃ d : Doc, d.Good ∧ v.debug P m F scope fuel = .ok d.line ∧ s = d.lines 0 := by
  rcases debug_both hP (m := m) (F := F) (scope := scope) fuel v with ⟨d, h1, _, h3, h4⟩ | ⟨h1, h2⟩
  · rw [h] at h4
    cases h4
    exact ⟨d, h1, h3, rfl⟩
  · rw [h] at h1
    exact absurd h1 (h2 s)

/-- **C79, a text is one document.** Values with the same text on many lines have the same content (as in `C68_faithful`). -/
theorem C79_faithful (P : Printer) (hP : P.Flat) (hp : ∀ d, ')' ∉ P.float d) (F F' : FloatOps) (m m' : Mem)
    (scope scope' : Option SharedKeys) (hl : Legible scope) (hl' : Legible scope') (d d' : Nat) (v v' : Val) (t t' : Tree)
    (h : readTree m F scope d v = .ok t) (h' : readTree m' F' scope' d' v' = .ok t') (s : Text)
    (hs : v.debugAlt P m F scope d = .ok s) (hs' : v'.debugAlt P m' F' scope' d' = .ok s) : Alike P t t' := by
  have e := C79_same P hP m F scope d v
  have e' := C79_same P hP m' F' scope' d' v'
  rw [hs] at e
  rw [hs'] at e'
  exact C68_faithful P hp F F' m m' scope scope' hl hl' d d' v v' t t' h h' _ e.symm e'.symm

/-- **C79, everything is shown** that a complete traversal of a value finds. -/
theorem C79_shows (P : Printer) (hP : P.Flat) (m : Mem) (F : FloatOps) (scope : Option SharedKeys) (hl : Legible scope) (d : Nat)
    (v : Val) (t : Tree) (h : readTree m F scope d v = .ok t) :
    ∃ s, v.debugAlt P m F scope d = .ok s ∧ Renders P t (joined .inside s) := by
  obtain ⟨s, h1, h2⟩ := C68_shows P m F scope hl d v t h
  have e := C79_same P hP m F scope d v
  rw [h1, map_eq] at e
  obtain ⟨s', g1, g2⟩ := bind_eq_ok.mp e
  cases g2
  exact ⟨s', g1, h2⟩

/-! ## Examples -/

private def F0 : FloatOps := ⟨fun _ => 0, fun _ => 0, fun _ => 0, fun _ => 0, fun _ => 0, fun _ => 0⟩

/-- The document of C68's example, whose key has a line break: none is in the text but those of the layout. -/
private theorem printed : (⟨14, 10⟩ : Val).debugAlt asciiPrinter { data := printedDoc } F0 none 4 =
    .ok "Dict(\n    {\n        \"a\\n\": Array(\n            [\n                Short(\n                    -1,\n                ),\n                True(\n                    \"True\",\n                ),\n            ],\n        ),\n        \"\\u{e9}\": Null(\n            \"Null\",\n        ),\n    },\n)".toList := by
  decide +kernel

example : joined .inside "Dict(\n    {\n        \"a,\\n\": Array(\n            [],\n        ),\n        \"b\": Short(\n            1,\n        ),\n    },\n)".toList =
    "Dict({\"a,\\n\": Array([]), \"b\": Short(1)})".toList := by decide +kernel

/-- The printer of C68's example is flat. -/
theorem asciiPrinter_flat : asciiPrinter.Flat := by
  intro d
  have := digit_chars (by decide) (toDigits_digits (b := 10) (by decide) d.toNat)
  exact ⟨this.1, this.2.1, this.2.2.1⟩

example : ∃ d : Doc, d.Good ∧ (⟨14, 10⟩ : Val).debug asciiPrinter { data := printedDoc } F0 none 4 = .ok d.line :=
  (C79_lines asciiPrinter asciiPrinter_flat _ _ _ _ _ _ printed).imp fun _ h => ⟨h.1, h.2.1⟩

end Fleece.Props
