import Verif.Spec.Lines
import Verif.Model.DebugAlt

namespace Fleece.Spec
open Fleece

theorem Start.append {s : Text} (h : Start s) (t : Text) : Start (s ++ t) := by
  obtain ⟨c, r, rfl, h⟩ := h
  exact ⟨c, r ++ t, rfl, h⟩

theorem padded_false {s : Text} (h : '\n' ∉ s) (r : Text) : padded false (s ++ r) = s ++ padded false r := by
  induction s with
  | nil => rfl
  | cons c s ih =>
    simp only [List.mem_cons, not_or] at h
    have : (c == '\n') = false := by simpa using Ne.symm h.1
    simp only [List.cons_append, padded, this, Bool.false_eq_true, if_false, List.nil_append, ih h.2]

theorem padded_nl (r : Text) : padded false ('\n' :: r) = '\n' :: padded true r := by
  simp [padded]

theorem padded_true {s : Text} (hs : s ≠ []) (h : '\n' ∉ s) (r : Text) :
    padded true (s ++ r) = [' ', ' ', ' ', ' '] ++ s ++ padded false r := by
  cases s with
  | nil => exact absurd rfl hs
  | cons c s =>
    simp only [List.mem_cons, not_or] at h
    have : (c == '\n') = false := by simpa using Ne.symm h.1
    simp only [List.cons_append, padded, this, if_true, padded_false h.2, List.append_assoc]

theorem nl_margin (n : Nat) : '\n' ∉ margin n := by
  unfold margin
  intro h
  exact absurd (List.eq_of_mem_replicate h) (by decide)

theorem margin_succ (n : Nat) : margin (n + 1) = [' ', ' ', ' ', ' '] ++ margin n := by
  unfold margin
  rw [Nat.mul_succ, Nat.add_comm, ← List.replicate_append_replicate]
  rfl

theorem front_nl {p : Text} (h : p = [] ∨ '\n' ∉ p ∧ Start p ∧ ∃ q, p = q ++ [':', ' '] ∧ InQuotes q) : '\n' ∉ p := by
  rcases h with rfl | h
  · simp
  · exact h.1

mutual
/-- An adapter around a text moves it one level in. -/
theorem Doc.padded_lines : ∀ (d : Doc), d.Good → ∀ n r, padded false (d.lines n ++ r) = d.lines (n + 1) ++ padded false r
  | .piece s, h, n, r => by
    unfold Doc.Good at h
    simp only [Doc.lines, padded_false h.1]
  | .group o .nil c, h, n, r => by
    unfold Doc.Good at h
    have hc : '\n' ∉ [c] := by
      have := h.2.2.2.2
      simp only [List.mem_cons, List.not_mem_nil, or_false] at this ⊢
      rcases this with rfl | rfl | rfl <;> decide
    simp only [Doc.lines, List.append_assoc, padded_false h.2.1, padded_false hc]
  | .group o (.cons p d es) c, h, n, r => by
    unfold Doc.Good at h
    have hc : '\n' ∉ [c] := by
      have := h.2.2.2.2
      simp only [List.mem_cons, List.not_mem_nil, or_false] at this ⊢
      rcases this with rfl | rfl | rfl <;> decide
    have hm : '\n' ∉ margin n ++ [c] := by
      simp only [List.mem_append, not_or]
      exact ⟨nl_margin n, hc⟩
    have e := Entries.padded_lines (.cons p d es) h.2.2.2.1 (n + 1) (margin n ++ [c] ++ r)
    simp only [Doc.lines, List.append_assoc, padded_false h.2.1, List.cons_append, padded_nl] at e ⊢
    have pt := padded_true (s := margin n ++ [c]) (by simp) hm r
    simp only [List.append_assoc, List.cons_append, List.nil_append] at pt e ⊢
    rw [e, pt, margin_succ n]
    simp only [List.append_assoc, List.cons_append, List.nil_append]
theorem Entries.padded_lines : ∀ (es : Entries), es.Good → ∀ n r,
    padded true (es.lines n ++ r) = es.lines (n + 1) ++ padded true r
  | .nil, _, n, r => rfl
  | .cons p d es, h, n, r => by
    unfold Entries.Good at h
    have hp := front_nl h.1
    have e := Doc.padded_lines d h.2.1 n
    have e2 := Entries.padded_lines es h.2.2 n r
    -- the first line
    have first : padded true (margin n ++ p ++ d.lines n ++ (',' :: '\n' :: (es.lines n ++ r))) =
        [' ', ' ', ' ', ' '] ++ margin n ++ p ++ d.lines (n + 1) ++ padded false (',' :: '\n' :: (es.lines n ++ r)) := by
      have hx : '\n' ∉ margin n ++ p := by simp only [List.mem_append, not_or]; exact ⟨nl_margin n, hp⟩
      by_cases h0 : margin n ++ p = []
      · rw [h0]
        have hm : margin n = [] := (List.append_eq_nil_iff.mp h0).1
        have hp' : p = [] := (List.append_eq_nil_iff.mp h0).2
        subst hp'
        rw [hm]
        simp only [List.nil_append, List.append_nil, List.append_assoc]
        rw [← e]
        obtain ⟨c, s, hs, _⟩ := Doc.start d h.2.1 n
        rw [hs]
        rfl
      · rw [List.append_assoc, padded_true h0 hx, e]
        simp only [List.append_assoc]
    simp only [Entries.lines, List.append_assoc, List.cons_append, List.nil_append] at first ⊢
    rw [first, margin_succ n]
    have : ∀ s, padded false (',' :: '\n' :: s) = ',' :: '\n' :: padded true s := by intro s; simp [padded]
    rw [this, e2]
    simp only [List.append_assoc, List.cons_append, List.nil_append]
theorem Doc.start : ∀ (d : Doc), d.Good → ∀ n, Start (d.lines n)
  | .piece s, h, n => by
    unfold Doc.Good at h
    simpa only [Doc.lines] using h.2.1
  | .group o .nil c, h, n => by
    unfold Doc.Good at h
    simpa only [Doc.lines] using h.2.2.1.append [c]
  | .group o (.cons p d es) c, h, n => by
    unfold Doc.Good at h
    simpa only [Doc.lines, List.append_assoc] using h.2.2.1.append _
end

/-- One entry in the alternate mode. -/
theorem entryAlt_lines {p : Text} {d : Doc} (hp : p = [] ∨ '\n' ∉ p ∧ Start p ∧ ∃ q, p = q ++ [':', ' '] ∧ InQuotes q) (hd : d.Good) :
    entryAlt (p ++ d.lines 0) = Entries.lines 1 (.cons p d .nil) := by
  have := Entries.padded_lines (.cons p d .nil) (by unfold Entries.Good; exact ⟨hp, hd, trivial⟩) 0 []
  simp only [Entries.lines, List.append_nil, padded] at this
  unfold entryAlt
  simp only [Entries.lines, List.append_nil]
  rw [← this]
  rfl

/-! ## Joining -/

theorem joined_piece {a : Text} (h : '\n' ∉ a) (r : Text) :
    joined .inside (a ++ ',' :: r) = a ++ joined .comma r ∧ joined .comma (a ++ ',' :: r) = ',' :: a ++ joined .comma r := by
  induction a with
  | nil => simp [joined]
  | cons c a ih =>
    simp only [List.mem_cons, not_or] at h
    obtain ⟨i1, i2⟩ := ih h.2
    have hc : c ≠ '\n' := Ne.symm h.1
    by_cases e : c = ','
    · subst e
      simp [joined, i2]
    · simp [joined, e, hc, i1]

theorem joined_bracket {a : Text} (h : '\n' ∉ a) {b : Char} (h1 : b ≠ ',') (h2 : b ≠ '\n') (r : Text) :
    joined .inside (a ++ b :: r) = a ++ b :: joined .inside r ∧
      joined .comma (a ++ b :: r) = ',' :: a ++ b :: joined .inside r := by
  induction a with
  | nil => simp [joined, h1, h2]
  | cons c a ih =>
    simp only [List.mem_cons, not_or] at h
    obtain ⟨i1, i2⟩ := ih h.2
    have hc : c ≠ '\n' := Ne.symm h.1
    by_cases e : c = ','
    · subst e
      simp [joined, i2]
    · simp [joined, e, hc, i1]

theorem joined_margin (n : Nat) (r : Text) :
    joined .opened (margin n ++ r) = joined .opened r ∧ joined .next (margin n ++ r) = joined .next r := by
  unfold margin
  induction 4 * n with
  | zero => simp
  | succ k ih => simpa [List.replicate_succ, joined] using ih

theorem joined_start {s : Text} (h : Start s) (hn : '\n' ∉ s.take 1) (r : Text) :
    joined .opened (s ++ r) = joined .inside (s ++ r) ∧ joined .next (s ++ r) = ',' :: ' ' :: joined .inside (s ++ r) := by
  obtain ⟨c, t, rfl, h1, h2, h3⟩ := h
  have hn : c ≠ '\n' := by simpa [eq_comm] using hn
  simp [joined, h1, h2, h3, hn]

theorem Doc.start_nl : ∀ (d : Doc), d.Good → ∀ n, '\n' ∉ (d.lines n).take 1
  | .piece s, h, n => by
    unfold Doc.Good at h
    simp only [Doc.lines]
    exact fun hm => h.1 (List.mem_of_mem_take hm)
  | .group o .nil c, h, n => by
    unfold Doc.Good at h
    obtain ⟨x, r, rfl, _⟩ := h.2.2.1
    simp only [Doc.lines, List.cons_append]
    exact fun hm => h.2.1 (by simp at hm; rw [hm]; exact List.mem_cons_self)
  | .group o (.cons p d es) c, h, n => by
    unfold Doc.Good at h
    obtain ⟨x, r, rfl, _⟩ := h.2.2.1
    simp only [Doc.lines, List.cons_append]
    exact fun hm => h.2.1 (by simp at hm; rw [hm]; exact List.mem_cons_self)

theorem closer_ne {c : Char} (h : c ∈ [')', ']', '}']) : c ≠ ',' ∧ c ≠ '\n' ∧ c ≠ ' ' := by
  simp only [List.mem_cons, List.not_mem_nil, or_false] at h
  rcases h with rfl | rfl | rfl <;> decide

/-- Not a piece. -/
def Doc.IsGroup : Doc → Prop
  | .piece _ => False
  | .group .. => True

mutual
theorem Doc.joined_lines : ∀ (d : Doc), d.Good → ∀ n,
    (∀ r, joined .inside (d.lines n ++ ',' :: r) = d.line ++ joined .comma r) ∧
    (d.IsGroup → ∀ r, joined .inside (d.lines n ++ r) = d.line ++ joined .inside r)
  | .piece s, h, n => by
    unfold Doc.Good at h
    exact ⟨fun r => by simpa only [Doc.lines, Doc.line] using (joined_piece h.1 r).1, fun h => h.elim⟩
  | .group o es c, h, n => by
    have all : ∀ r, joined .inside ((Doc.group o es c).lines n ++ r) = (Doc.group o es c).line ++ joined .inside r := by
      intro r
      unfold Doc.Good at h
      obtain ⟨⟨nm, b, rfl, hb, _⟩, hn, _, he, hc⟩ := h
      have hb : b ≠ ',' := by rintro rfl; exact absurd hb (by decide)
      have hn' : '\n' ∉ nm ∧ '\n' ≠ b := by simpa [not_or] using hn
      have e := (Entries.joined_lines es he (n + 1) (margin n ++ c :: r)).1
      have hcl : joined .next (margin n ++ c :: r) = c :: joined .inside r := by
        rw [(joined_margin n _).2]
        simp only [joined, (closer_ne hc).2.2, if_false, if_pos hc]
      rw [hcl] at e
      cases es with
      | nil =>
        simp only [Doc.lines, Doc.line, Entries.line, List.append_assoc, List.cons_append, List.nil_append]
        rw [(joined_bracket hn'.1 hb (Ne.symm hn'.2) _).1]
        have := (joined_bracket (a := []) (by simp) (closer_ne hc).1 (closer_ne hc).2.1 r).1
        simp only [List.nil_append] at this
        rw [this]
      | cons p d es =>
        have e := e (by simp)
        simp only [Doc.lines, Doc.line, List.append_assoc, List.cons_append, List.nil_append] at e ⊢
        rw [(joined_bracket hn'.1 hb (Ne.symm hn'.2) _).1]
        simp only [joined, if_false, if_true, Char.reduceEq]
        rw [e]
    refine ⟨fun r => ?_, fun _ => all⟩
    rw [all]
    simp [joined]
theorem Entries.joined_lines : ∀ (es : Entries), es.Good → ∀ n r,
    (es ≠ .nil → joined .opened (es.lines n ++ r) = es.line ++ joined .next r) ∧
    joined .next (es.lines n ++ r) = es.comma ++ es.line ++ joined .next r
  | .nil, _, n, r => ⟨fun h => absurd rfl h, rfl⟩
  | .cons p d es, h, n, r => by
    unfold Entries.Good at h
    have hd := (Doc.joined_lines d h.2.1 n).1
    -- the entry itself
    have entry : ∀ r, joined .inside (p ++ d.lines n ++ ',' :: '\n' :: r) = p ++ d.line ++ joined .next r := by
      intro r
      rcases h.1 with rfl | ⟨h1, _, q, rfl, _⟩
      · simp only [List.nil_append, hd]
        simp [joined]
      · have hq : '\n' ∉ q ++ [':'] := fun hm => h1 (by simp at hm ⊢; exact hm)
        have := (joined_bracket hq (b := ' ') (by decide) (by decide) (d.lines n ++ ',' :: '\n' :: r)).1
        simp only [List.append_assoc, List.cons_append, List.nil_append] at this ⊢
        rw [this, hd]
        simp [joined]
    have hs : Start (p ++ d.lines n) ∧ '\n' ∉ (p ++ d.lines n).take 1 := by
      rcases h.1 with rfl | ⟨h1, h2, _⟩
      · exact ⟨Doc.start d h.2.1 n, Doc.start_nl d h.2.1 n⟩
      · refine ⟨h2.append _, ?_⟩
        obtain ⟨x, t, rfl, _⟩ := h2
        exact fun hm => h1 (by simp at hm; rw [hm]; exact List.mem_cons_self)
    have rest : joined .next (es.lines n ++ r) = es.comma ++ es.line ++ joined .next r :=
      (Entries.joined_lines es h.2.2 n r).2
    have j := joined_start hs.1 hs.2 (',' :: '\n' :: (es.lines n ++ r))
    have mg := joined_margin n (p ++ d.lines n ++ ',' :: '\n' :: (es.lines n ++ r))
    rw [j.1, j.2, entry, rest] at mg
    simp only [Entries.lines, Entries.line, Entries.comma, List.append_assoc, List.cons_append, List.nil_append] at mg ⊢
    exact ⟨fun _ => mg.1, mg.2⟩
end

end Fleece.Spec
