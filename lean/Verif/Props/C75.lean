import Verif.Model.Errors
import Verif.Proofs.Text
import Verif.Proofs.DebugText

/-!
# C75 The text of an error tells which error it is

Full claim: two errors that are written alike (`{}`) are alike, numbers included, and the numbers are those of the error. It holds
of all errors of the crate itself. It is false of `Error::Message`, whose text is serde's (`C75_refuted`).
-/

namespace Fleece.Props
open Fleece Res Fleece.Spec

/-! ## Numbers and words -/

private theorem dec_prefix {n n' : Nat} {c c' : Char} {r r' : Text} (hc : ¬ numeric c) (hc' : ¬ numeric c')
    (h : natText n ++ c :: r = natText n' ++ c' :: r') : n = n' ∧ c = c' ∧ r = r' := by
  obtain ⟨h1, h2, h3⟩ := split_at (natText_numeral n).chars (natText_numeral n').chars hc hc' h
  have h4 := natText_numeral n'
  rw [← h1] at h4
  have := (natText_numeral n).unique h4
  exact ⟨by omega, h2, h3⟩

private def hexDigit (c : Char) : Prop := ∃ d, d < 16 ∧ c = Nat.digitChar d

private theorem not_hexDigit {c : Char} (h : ∀ d : Fin 16, c ≠ Nat.digitChar d.val) : ¬ hexDigit c := by
  rintro ⟨d, hd, e⟩
  exact h ⟨d, hd⟩ e

private theorem hex_prefix {n n' : Nat} {c c' : Char} {r r' : Text} (hc : ¬ hexDigit c) (hc' : ¬ hexDigit c')
    (h : Nat.toDigits 16 n ++ c :: r = Nat.toDigits 16 n' ++ c' :: r') : n = n' ∧ c = c' ∧ r = r' := by
  have d1 := toDigits_digits (b := 16) (by decide) n
  have d2 := toDigits_digits (b := 16) (by decide) n'
  obtain ⟨h1, h2, h3⟩ := split_at d1.chars d2.chars hc hc' h
  exact ⟨d1.unique (by decide) d2 h1, h2, h3⟩

private theorem space : ¬ numeric ' ' := by unfold numeric; decide
private theorem spaceHex : ¬ hexDigit ' ' := not_hexDigit (by decide)

private theorem name_inj {t t' : ValueType} (h : t.name = t'.name) : t = t' := by
  cases t <;> cases t' <;> first | rfl | exact absurd h (by decide)

private theorem name_prefix {t t' : ValueType} {r r' : Text} (h : t.name ++ ' ' :: r = t'.name ++ ' ' :: r') : t = t' ∧ r = r' := by
  have hn : ∀ t : ValueType, ∀ c ∈ t.name, c ≠ ' ' := by intro t; cases t <;> decide
  obtain ⟨h1, _, h2⟩ := split_at (hn t) (hn t') (by simp) (by simp) h
  exact ⟨name_inj h1, h2⟩

private theorem keyName_inj {t t' : KeyType} (h : t.name = t'.name) : t = t' := by
  cases t <;> cases t' <;> first | rfl | exact absurd h (by decide)

/-! ## The kinds of errors -/

private theorem dec_then {n n' : Nat} {w r r' : Text} (hw : ∃ c t, w = c :: t ∧ ¬ numeric c)
    (h : natText n ++ (w ++ r) = natText n' ++ (w ++ r')) : n = n' ∧ r = r' := by
  obtain ⟨c, t, rfl, hc⟩ := hw
  obtain ⟨h1, _, h2⟩ := dec_prefix hc hc h
  exact ⟨h1, List.append_cancel_left h2⟩

private theorem dec_end {n n' : Nat} {w : Text} (h : natText n ++ w = natText n' ++ w) : n = n' := by
  have h := List.append_cancel_right h
  have h4 := natText_numeral n'
  rw [← h] at h4
  have := (natText_numeral n).unique h4
  omega

private theorem hex_then {n n' : Nat} {w r r' : Text} (hw : ∃ c t, w = c :: t ∧ ¬ hexDigit c)
    (h : hexText n ++ (w ++ r) = hexText n' ++ (w ++ r')) : n = n' ∧ r = r' := by
  obtain ⟨c, t, rfl, hc⟩ := hw
  unfold hexText at h
  simp only [List.cons_append, List.cons.injEq, true_and] at h
  obtain ⟨h1, _, h2⟩ := hex_prefix hc hc h
  exact ⟨h1, List.append_cancel_left h2⟩

private theorem hex_end {n n' : Nat} {w : Text} (h : hexText n ++ w = hexText n' ++ w) : n = n' := by
  have h := List.append_cancel_right h
  unfold hexText at h
  simp only [List.cons.injEq, true_and] at h
  exact (toDigits_digits (b := 16) (by decide) n).unique (by decide) (toDigits_digits (b := 16) (by decide) n') h

private theorem name_then {t t' : ValueType} {w r r' : Text} (hw : ∃ u, w = ' ' :: u)
    (h : t.name ++ (w ++ r) = t'.name ++ (w ++ r')) : t = t' ∧ r = r' := by
  obtain ⟨u, rfl⟩ := hw
  obtain ⟨h1, h2⟩ := name_prefix h
  exact ⟨h1, List.append_cancel_left h2⟩

private theorem startDecode : ∀ e : DecodeError, e.text.take 15 =
    (match e with
      | .inputIncorrectlySized => txt!"Incorrectly siz"
      | .rootNotPointer => txt!"Root value is n"
      | .pointerTooSmall _ _ => txt!"Pointer expecte"
      | .pointerOffsetZero => txt!"Pointer offset "
      | .isNotDict => txt!"Value is not a "
      | .isNotArray => txt!"Value is not an"
      | .pointerTargetOutOfBounds _ _ _ => txt!"Pointer with of"
      | .arrayOutOfBounds _ _ _ => txt!"Array with widt"
      | .valueOutOfBounds _ _ _ => txt!"Value with type")
  | .inputIncorrectlySized => rfl
  | .rootNotPointer => rfl
  | .pointerTooSmall _ _ => rfl
  | .pointerOffsetZero => rfl
  | .isNotDict => rfl
  | .isNotArray => rfl
  | .pointerTargetOutOfBounds _ _ _ => rfl
  | .arrayOutOfBounds _ _ _ => rfl
  | .valueOutOfBounds _ _ _ => rfl

/-- **C75, reading.** -/
theorem C75_decode {e e' : DecodeError} (h : e.text = e'.text) : e = e' := by
  have hs := startDecode e
  rw [h, startDecode e'] at hs
  cases e <;> cases e' <;> first
    | rfl
    | (dsimp only at hs; exact absurd hs (by decide))
    | skip
  all_goals
    simp only [DecodeError.text, List.append_assoc] at h
    have h := List.append_cancel_left h
  · obtain ⟨h1, h⟩ := dec_then ⟨' ', _, rfl, space⟩ h
    rw [h1, dec_end h]
  · obtain ⟨h1, h⟩ := dec_then ⟨' ', _, rfl, space⟩ h
    obtain ⟨h2, h⟩ := hex_then ⟨' ', _, rfl, spaceHex⟩ h
    rw [h1, h2, hex_end h]
  · obtain ⟨h1, h⟩ := dec_then ⟨' ', _, rfl, space⟩ h
    obtain ⟨h2, h⟩ := dec_then ⟨' ', _, rfl, space⟩ h
    rw [h1, h2, dec_end h]
  · obtain ⟨h1, h⟩ := name_then ⟨_, rfl⟩ h
    obtain ⟨h2, h⟩ := dec_then ⟨' ', _, rfl, space⟩ h
    rw [h1, h2, dec_end h]

/-- **C75, writing.** -/
theorem C75_encode {e e' : EncodeError} (h : e.text = e'.text) : e = e' := by
  cases e <;> cases e' <;> first | rfl | exact absurd h (by decide)

/-- What begins the text of an error. -/
private theorem start (P : Printer) : ∀ e : Error, (∀ m, e ≠ .message m) → (e.text P).take 3 =
    (match e with | .encode _ => ['E', 'n', 'c'] | .decode _ => ['D', 'e', 'c'] | .serialize _ => ['S', 'e', 'r'] | _ => ['D', 'e', 's'])
  | .encode _, _ => rfl
  | .decode _, _ => rfl
  | .serialize _, _ => rfl
  | .deserialize _, _ => rfl
  | .message m, h => absurd rfl (h m)

private theorem startDeserialize (P : Printer) : ∀ e : DeserializeError, (e.text P).take 28 =
    (match e with
      | .notArray => txt!"Attempted to deserialize a s"
      | .notDict => txt!"Attempted to deserialize a m"
      | .invalidEnumType _ => txt!"Invalid Enum, expected Array"
      | .keyWithoutValue => txt!"Found a Dict Key without Val"
      | .invalidEnumLayout _ => txt!"Invalid layout for Enum / Va"
      | .cannotDecodeSharedKeys => txt!"Failed to decode SharedKeys")
  | .notArray => rfl
  | .notDict => rfl
  | .invalidEnumType _ => rfl
  | .keyWithoutValue => rfl
  | .invalidEnumLayout _ => rfl
  | .cannotDecodeSharedKeys => rfl

/-- **C75, all errors of the crate**, of whatever kind. -/
theorem C75_partial (P : Printer) {e e' : Error} (hm : ∀ m, e ≠ .message m) (hm' : ∀ m, e' ≠ .message m)
    (h : e.text P = e'.text P) : e = e' := by
  have hs := start P e hm
  rw [h, start P e' hm'] at hs
  cases e with
  | message m => exact absurd rfl (hm m)
  | encode e =>
    cases e' with
    | message m => exact absurd rfl (hm' m)
    | encode e' => rw [C75_encode (List.append_cancel_left h)]
    | _ => exact absurd hs (by simp)
  | decode e =>
    cases e' with
    | message m => exact absurd rfl (hm' m)
    | decode e' => rw [C75_decode (List.append_cancel_left h)]
    | _ => exact absurd hs (by simp)
  | serialize e =>
    cases e' with
    | message m => exact absurd rfl (hm' m)
    | serialize e' =>
      have h := List.append_cancel_left h
      cases e with
      | keyNotString k =>
        cases e' with
        | keyNotString k' => rw [keyName_inj (List.append_cancel_left h)]
        | valueNotCollection => exact absurd (congrArg (List.take 1) h) (by show ['M'] ≠ ['T']; decide)
      | valueNotCollection =>
        cases e' with
        | keyNotString k' => exact absurd (congrArg (List.take 1) h) (by show ['T'] ≠ ['M']; decide)
        | valueNotCollection => rfl
    | _ => exact absurd hs (by simp)
  | deserialize e =>
    cases e' with
    | message m => exact absurd rfl (hm' m)
    | deserialize e' =>
      have h := List.append_cancel_left h
      have hs := startDeserialize P e
      rw [h, startDeserialize P e'] at hs
      cases e <;> cases e' <;> first
        | rfl
        | (dsimp only at hs; exact absurd hs (by decide))
        | skip
      all_goals have h := List.append_cancel_left h
      · rw [name_inj h]
      · have all : ∀ cs : Text, EscapedAll P cs (cs.flatMap P.escape) := by
          intro cs
          induction cs with
          | nil => exact .nil
          | cons c cs ih => exact .cons (escape_escaped P c) ih
        simp only [List.cons.injEq, true_and] at h
        rw [((all _).prefix_ (all _) h).1]
    | _ => exact absurd hs (by simp)

/-! ## What the numbers are -/

/-- `phrase` occurs in `s`. -/
def Says (s phrase : Text) : Prop := ∃ a b, s = a ++ (phrase ++ b)

private theorem dec (n : Nat) : Digits 10 n (natText n) := toDigits_digits (by decide) n
private theorem hex (n : Nat) : Digits 16 n (Nat.toDigits 16 n) := toDigits_digits (by decide) n

/-- **C75, numbers.** Each number stands where the words around it say: sizes and counts in decimal, addresses in hexadecimal. -/
theorem C75_numbers :
    (∀ actual expected, ∃ a e, Digits 10 actual a ∧ Digits 10 expected e ∧
      Says (DecodeError.pointerTooSmall actual expected).text (txt!"expected to be " ++ e ++ txt!" bytes") ∧
      Says (DecodeError.pointerTooSmall actual expected).text (txt!"was " ++ a ++ txt!" bytes")) ∧
    (∀ start target offset, ∃ s t o, Digits 16 start s ∧ Digits 16 target t ∧ Digits 10 offset o ∧
      Says (DecodeError.pointerTargetOutOfBounds start target offset).text (txt!"offset " ++ o ++ txt!" ") ∧
      Says (DecodeError.pointerTargetOutOfBounds start target offset).text (txt!"target 0x" ++ t ++ txt!" ") ∧
      Says (DecodeError.pointerTargetOutOfBounds start target offset).text (txt!"start: 0x" ++ s ++ txt!")")) ∧
    (∀ count width available, ∃ c w a, Digits 10 count c ∧ Digits 10 width w ∧ Digits 10 available a ∧
      Says (DecodeError.arrayOutOfBounds count width available).text (txt!"width " ++ w ++ txt!" ") ∧
      Says (DecodeError.arrayOutOfBounds count width available).text (txt!" " ++ c ++ txt!" elements") ∧
      Says (DecodeError.arrayOutOfBounds count width available).text (txt!"available " ++ a ++ txt!" bytes")) ∧
    ∀ vt required available, ∃ r a, Digits 10 required r ∧ Digits 10 available a ∧
      Says (DecodeError.valueOutOfBounds vt required available).text (txt!"type " ++ vt.name ++ txt!" ") ∧
      Says (DecodeError.valueOutOfBounds vt required available).text (txt!"requires " ++ r ++ txt!" bytes") ∧
      Says (DecodeError.valueOutOfBounds vt required available).text (txt!"available " ++ a ++ txt!" bytes") := by
  refine ⟨fun a e => ⟨_, _, dec a, dec e, ⟨txt!"Pointer ", txt!", but was " ++ natText a ++ txt!" bytes", ?_⟩,
      ⟨txt!"Pointer expected to be " ++ natText e ++ txt!" bytes, but ", [], ?_⟩⟩,
    fun s t o => ⟨_, _, _, hex s, hex t, dec o,
      ⟨txt!"Pointer with ", txt!"target " ++ hexText t ++ txt!" outside of source data (start: " ++ hexText s ++ txt!")", ?_⟩,
      ⟨txt!"Pointer with offset " ++ natText o ++ txt!" ", txt!"outside of source data (start: " ++ hexText s ++ txt!")", ?_⟩,
      ⟨txt!"Pointer with offset " ++ natText o ++ txt!" target " ++ hexText t ++ txt!" outside of source data (", [], ?_⟩⟩,
    fun c w a => ⟨_, _, _, dec c, dec w, dec a,
      ⟨txt!"Array with ", txt!"and " ++ natText c ++ txt!" elements exceeded the available " ++ natText a ++ txt!" bytes", ?_⟩,
      ⟨txt!"Array with width " ++ natText w ++ txt!" and", txt!" exceeded the available " ++ natText a ++ txt!" bytes", ?_⟩,
      ⟨txt!"Array with width " ++ natText w ++ txt!" and " ++ natText c ++ txt!" elements exceeded the ", [], ?_⟩⟩,
    fun vt r a => ⟨_, _, dec r, dec a,
      ⟨txt!"Value with ", txt!"which requires " ++ natText r ++ txt!" bytes exceeded the available " ++ natText a ++ txt!" bytes", ?_⟩,
      ⟨txt!"Value with type " ++ vt.name ++ txt!" which ", txt!" exceeded the available " ++ natText a ++ txt!" bytes", ?_⟩,
      ⟨txt!"Value with type " ++ vt.name ++ txt!" which requires " ++ natText r ++ txt!" bytes exceeded the ", [], ?_⟩⟩⟩ <;>
    simp only [DecodeError.text, hexText, List.append_assoc, List.cons_append, List.nil_append, List.append_nil]

/-! ## Messages -/

/-- **C75 is false of messages**: every other error has the text of some `Error::Message`, which is made of any text at all. -/
theorem C75_refuted (P : Printer) (e : Error) (hm : ∀ m, e ≠ .message m) : ∃ e', e' ≠ e ∧ e'.text P = e.text P :=
  ⟨.message (e.text P), fun h => hm _ h.symm, rfl⟩

/-- Not vacuous: the error for an array of 3 elements of 2 bytes in 4. -/
example : (DecodeError.arrayOutOfBounds 3 2 4).text = txt!"Array with width 2 and 3 elements exceeded the available 4 bytes" := by
  decide +kernel

end Fleece.Props
