import Verif.Spec.Text
import Verif.Proofs.Utf8

/-! # The text of a document can be read in one way only -/

namespace Fleece.Spec
open Fleece

/-- Two texts that end before the first character without the property `p`. -/
theorem split_at {p : Char → Prop} : ∀ {s s' : Text} {c c' : Char} {r r' : Text}, (∀ x ∈ s, p x) → (∀ x ∈ s', p x) → ¬ p c →
    ¬ p c' → s ++ c :: r = s' ++ c' :: r' → s = s' ∧ c = c' ∧ r = r'
  | [], [], _, _, _, _ => fun _ _ _ _ h => by cases h; exact ⟨rfl, rfl, rfl⟩
  | [], y :: _, _, _, _, _ => fun _ h2 hc _ h => by
    cases h; exact absurd (h2 y (by simp)) hc
  | x :: _, [], _, _, _, _ => fun h1 _ _ hc' h => by
    cases h; exact absurd (h1 x (by simp)) hc'
  | x :: s, y :: s', _, _, _, _ => fun h1 h2 hc hc' h => by
    simp only [List.cons_append, List.cons.injEq] at h
    obtain ⟨rfl, h⟩ := h
    obtain ⟨rfl, h3⟩ := split_at (fun z hz => h1 z (by simp [hz])) (fun z hz => h2 z (by simp [hz])) hc hc' h
    exact ⟨rfl, h3⟩

/-! ## Numbers -/

theorem digitChar_inj {a b : Nat} (ha : a < 16) (hb : b < 16) (h : Nat.digitChar a = Nat.digitChar b) : a = b := by
  have : ∀ a b : Fin 16, Nat.digitChar a.val = Nat.digitChar b.val → a.val = b.val := by decide +kernel
  exact this ⟨a, ha⟩ ⟨b, hb⟩ h

theorem Digits.ne_nil {b n : Nat} {s : Text} (h : Digits b n s) : s ≠ [] := by
  cases h <;> simp

theorem Digits.chars {b n : Nat} {s : Text} (h : Digits b n s) : ∀ c ∈ s, ∃ d, d < b ∧ c = Nat.digitChar d := by
  induction h with
  | @one d lt => intro c hc; exact ⟨d, lt, by simpa using hc⟩
  | @more n d s pos lt h ih =>
    intro c hc
    rcases List.mem_append.mp hc with hc | hc
    · exact ih c hc
    · exact ⟨d, lt, by simpa using hc⟩

theorem Digits.unique {b : Nat} (hb : b ≤ 16) {n : Nat} {s : Text} (h : Digits b n s) :
    ∀ {n' : Nat} {s' : Text}, Digits b n' s' → s = s' → n = n' := by
  induction h with
  | @one d lt =>
    intro n' s' h' e
    cases h' with
    | @one d' lt' =>
      simp only [List.cons.injEq, and_true] at e
      exact digitChar_inj (by omega) (by omega) e
    | @more m d' s'' pos' lt' h' =>
      have hne := h'.ne_nil
      cases s'' with
      | nil => exact absurd rfl hne
      | cons x xs => simp at e
  | @more n d s pos lt h ih =>
    intro n' s' h' e
    cases h' with
    | @one d' lt' =>
      have hne := h.ne_nil
      cases s with
      | nil => exact absurd rfl hne
      | cons x xs => simp at e
    | @more m d' s'' pos' lt' h' =>
      obtain ⟨e1, e2⟩ := List.append_inj' e rfl
      have := ih h' e1
      simp only [List.cons.injEq, and_true] at e2
      rw [this, digitChar_inj (by omega) (by omega) e2]

theorem digit_isDigit {d : Nat} (h : d < 10) : (Nat.digitChar d).isDigit = true := by
  have : ∀ a : Fin 10, (Nat.digitChar a.val).isDigit = true := by decide +kernel
  exact this ⟨d, h⟩

/-- A character of a number. -/
def numeric (c : Char) : Prop := c = '-' ∨ c.isDigit = true

theorem Numeral.chars {z : Int} {s : Text} (h : Numeral z s) : ∀ c ∈ s, numeric c := by
  cases h with
  | nonneg h =>
    intro c hc
    obtain ⟨d, h1, rfl⟩ := h.chars c hc
    exact .inr (digit_isDigit h1)
  | neg h _ =>
    intro c hc
    rcases List.mem_cons.mp hc with rfl | hc
    · exact .inl rfl
    obtain ⟨d, h1, rfl⟩ := h.chars c hc
    exact .inr (digit_isDigit h1)

theorem Numeral.cons {z : Int} {s : Text} (h : Numeral z s) : ∃ c r, s = c :: r ∧ numeric c := by
  have := h.chars
  cases s with
  | nil =>
    cases h with
    | nonneg h => exact absurd rfl h.ne_nil
  | cons c r => exact ⟨c, r, rfl, this c (by simp)⟩

theorem Numeral.unique {z z' : Int} {s : Text} (h : Numeral z s) (h' : Numeral z' s) : z = z' := by
  have minus : ∀ {n : Nat} {s : Text}, ¬ Digits 10 n ('-' :: s) := by
    intro n s h
    obtain ⟨d, h1, h2⟩ := h.chars '-' (by simp)
    have := digit_isDigit h1
    rw [← h2] at this
    exact absurd this (by decide)
  cases h with
  | nonneg h =>
    cases h' with
    | nonneg h' => rw [h.unique (by omega) h' rfl]
    | neg h' _ => exact absurd h minus
  | neg h _ =>
    cases h' with
    | nonneg h' => exact absurd h' minus
    | neg h' _ => rw [h.unique (by omega) h' rfl]

/-! ## Strings -/

theorem escapes_inj : ∀ a ∈ escapes, ∀ b ∈ escapes, a.2 = b.2 → a.1 = b.1 := by decide
theorem escapes_u : ∀ a ∈ escapes, a.2 ≠ 'u' := by decide

theorem Escaped.prefix_ {P : Printer} {c c' : Char} {s s' r r' : Text} (h : Escaped P c s) (h' : Escaped P c' s')
    (e : s ++ r = s' ++ r') : c = c' ∧ r = r' := by
  have hex : ∀ {n : Nat} {s : Text}, Digits 16 n s → ∀ x ∈ s, x ≠ '}' := by
    intro n s h x hx
    obtain ⟨d, h1, rfl⟩ := h.chars x hx
    have : ∀ a : Fin 16, Nat.digitChar a.val ≠ '}' := by decide +kernel
    exact this ⟨d, h1⟩
  cases h with
  | @short x hx =>
    cases h' with
    | @short x' hx' =>
      simp only [List.cons_append, List.nil_append, List.cons.injEq, true_and] at e
      exact ⟨escapes_inj _ hx _ hx' e.1, e.2⟩
    | plain hn _ =>
      simp only [List.cons_append, List.nil_append, List.cons.injEq] at e
      exact absurd (by rw [← e.1]; decide) (hn '\\')
    | hex hn _ ds =>
      simp only [List.cons_append, List.nil_append, List.cons.injEq, true_and] at e
      exact absurd e.1 (escapes_u _ hx)
  | plain hn _ =>
    cases h' with
    | @short x' hx' =>
      simp only [List.cons_append, List.nil_append, List.cons.injEq] at e
      exact absurd (by rw [e.1]; decide) (hn '\\')
    | plain hn' _ =>
      simp only [List.cons_append, List.nil_append, List.cons.injEq] at e
      exact e
    | hex hn' _ ds =>
      simp only [List.cons_append, List.nil_append, List.cons.injEq] at e
      exact absurd (by rw [e.1]; decide) (hn '\\')
  | hex hn _ ds =>
    cases h' with
    | @short x' hx' =>
      simp only [List.cons_append, List.nil_append, List.cons.injEq, true_and] at e
      exact absurd e.1.symm (escapes_u _ hx')
    | plain hn' _ =>
      simp only [List.cons_append, List.nil_append, List.cons.injEq] at e
      exact absurd (by rw [← e.1]; decide) (hn' '\\')
    | hex hn' _ ds' =>
      simp only [List.cons_append, List.nil_append, List.append_assoc, List.cons.injEq, true_and] at e
      obtain ⟨rfl, _, h2⟩ := split_at (p := fun x => x ≠ '}') (hex ds) (hex ds') (by simp) (by simp) e
      have := ds.unique (by omega) ds' rfl
      exact ⟨Char.toNat_inj.mp this, h2⟩

theorem Escaped.head {P : Printer} {c : Char} {s : Text} (h : Escaped P c s) : ∃ x r, s = x :: r ∧ x ≠ '"' := by
  cases h with
  | short _ => exact ⟨_, _, rfl, by decide⟩
  | plain hn _ =>
    refine ⟨_, _, rfl, ?_⟩
    rintro rfl
    exact hn '"' (by decide)
  | hex _ _ _ => exact ⟨_, _, rfl, by decide⟩

theorem EscapedAll.prefix_ {P : Printer} {cs : List Char} {s : Text} (h : EscapedAll P cs s) :
    ∀ {cs' : List Char} {s' r r' : Text}, EscapedAll P cs' s' → s ++ '"' :: r = s' ++ '"' :: r' → cs = cs' ∧ r = r' := by
  induction h with
  | nil =>
    intro cs' s' r r' h' e
    cases h' with
    | nil => cases e; exact ⟨rfl, rfl⟩
    | cons h t =>
      obtain ⟨x, y, rfl, hx⟩ := h.head
      cases e; exact absurd rfl hx
  | cons h t ih =>
    intro cs' s' r r' h' e
    cases h' with
    | nil =>
      obtain ⟨x, y, rfl, hx⟩ := h.head
      cases e; exact absurd rfl hx
    | cons h' t' =>
      rw [List.append_assoc, List.append_assoc] at e
      obtain ⟨rfl, e⟩ := h.prefix_ h' e
      obtain ⟨rfl, e⟩ := ih t' e
      exact ⟨rfl, e⟩

theorem Quoted.prefix_ {P : Printer} {b b' : List UInt8} {s s' r r' : Text} (h : Quoted P b s) (h' : Quoted P b' s')
    (e : s ++ r = s' ++ r') : b = b' ∧ r = r' := by
  cases h with
  | intro h =>
    cases h' with
    | intro h' =>
      simp only [List.cons_append, List.append_assoc, List.nil_append, List.cons.injEq, true_and] at e
      obtain ⟨rfl, e⟩ := h.prefix_ h' e
      exact ⟨rfl, e⟩

theorem Quoted.head {P : Printer} {b : List UInt8} {s : Text} (h : Quoted P b s) : ∃ r, s = '"' :: r := by
  cases h with
  | intro h => exact ⟨_, rfl⟩

/-! ## Lists -/

/-- Items that can be told from what follows them, if that does not begin with a character of a number. -/
def Telling {α : Type} (A : α → Text → Prop) (E : α → α → Prop) (a : α) (s : Text) : Prop :=
  (∃ c r, s = c :: r ∧ c ≠ ']' ∧ c ≠ '}') ∧ ∀ {a' : α} {s' : Text} {c c' : Char} {r r' : Text}, A a' s' → ¬ numeric c → ¬ numeric c' →
    s ++ c :: r = s' ++ c' :: r' → E a a' ∧ c :: r = c' :: r'

theorem Joined.prefix_ {α : Type} {A : α → Text → Prop} {E : α → α → Prop} {e : Char} (he : e = ']' ∨ e = '}') {ss : List Text}
    {s : Text} (h : Joined ss s) : ∀ {xs xs' : List α} {ss' : List Text} {s' r r' : Text}, Joined ss' s' →
    ss.length = xs.length → ss'.length = xs'.length →
    (∀ (i : Nat) (a : α) (x : Text), xs[i]? = some a → ss[i]? = some x → Telling A E a x) →
    (∀ (i : Nat) (a : α) (x : Text), xs'[i]? = some a → ss'[i]? = some x → A a x ∧ ∃ c r, x = c :: r ∧ c ≠ ']' ∧ c ≠ '}') →
    s ++ e :: r = s' ++ e :: r' → xs.length = xs'.length ∧
      (∀ (i : Nat) (a a' : α), xs[i]? = some a → xs'[i]? = some a' → E a a') ∧ r = r' := by
  have hen : ¬ numeric e := by rcases he with rfl | rfl <;> (unfold numeric; decide)
  have hce : ¬ numeric ',' := by unfold numeric; decide
  have hne : e ≠ ',' := by rcases he with rfl | rfl <;> decide
  have first : ∀ {x r r' : Text}, (∃ c r, x = c :: r ∧ c ≠ ']' ∧ c ≠ '}') → e :: r ≠ x ++ r' := by
    rintro x r r' ⟨c, y, rfl, h1, h2⟩ h
    cases h
    rcases he with rfl | rfl
    · exact h1 rfl
    · exact h2 rfl
  induction h with
  | nil =>
    intro xs xs' ss' s' r r' h' l l' hA hA' heq
    cases xs with
    | cons a xs => simp at l
    | nil =>
    cases h' with
    | nil =>
      cases xs' with
      | cons a xs => simp at l'
      | nil =>
        cases heq
        exact ⟨rfl, fun i a a' h => (by cases h), rfl⟩
    | @one x =>
      cases xs' with
      | nil => simp at l'
      | cons a' xs' => exact absurd heq (first (hA' 0 a' _ rfl rfl).2)
    | @more x y s ys h' =>
      cases xs' with
      | nil => simp at l'
      | cons a' xs' =>
        rw [List.append_assoc] at heq
        exact absurd heq (first (hA' 0 a' _ rfl rfl).2)
  | @one x =>
    intro xs xs' ss' s' r r' h' l l' hA hA' heq
    match xs, l with
    | [a], _ =>
    have ht := hA 0 a x rfl rfl
    cases h' with
    | nil => exact absurd heq.symm (first ht.1)
    | @one x' =>
      match xs', l' with
      | [a'], _ =>
        obtain ⟨h1, h2⟩ := ht.2 (hA' 0 a' _ rfl rfl).1 hen hen heq
        refine ⟨rfl, ?_, by cases h2; rfl⟩
        intro i b b' hb hb'
        match i, hb, hb' with
        | 0, hb, hb' => cases hb; cases hb'; exact h1
        | i + 1, hb, _ => cases hb
    | @more x' y s ys h' =>
      match xs', l' with
      | a' :: xs', _ =>
        rw [List.append_assoc] at heq
        obtain ⟨h1, h2⟩ := ht.2 (hA' 0 a' _ rfl rfl).1 hen hce heq
        cases h2
        exact absurd rfl hne
  | @more x y s ys h ih =>
    intro xs xs' ss' s' r r' h' l l' hA hA' heq
    match xs, l with
    | a :: xs, l =>
    have ht := hA 0 a x rfl rfl
    rw [List.append_assoc] at heq
    cases h' with
    | nil => exact absurd heq.symm (first ht.1)
    | @one x' =>
      match xs', l' with
      | [a'], _ =>
        obtain ⟨h1, h2⟩ := ht.2 (hA' 0 a' _ rfl rfl).1 hce hen heq
        cases h2
        exact absurd rfl hne
    | @more x' y' s' ys' h' =>
      match xs', l' with
      | a' :: xs', l' =>
        rw [List.append_assoc] at heq
        obtain ⟨h1, h2⟩ := ht.2 (hA' 0 a' x' rfl rfl).1 hce hce heq
        have h2 : s ++ e :: r = s' ++ e :: r' := (List.cons.inj (List.cons.inj h2).2).2
        obtain ⟨g1, g2, g3⟩ := ih h' (xs := xs) (xs' := xs') (by simpa using l) (by simpa using l')
          (fun i b z hb hz => hA (i + 1) b z hb hz) (fun i b z hb hz => hA' (i + 1) b z hb hz) h2
        refine ⟨by simp [g1], ?_, g3⟩
        intro i b b' hb hb'
        match i, hb, hb' with
        | 0, hb, hb' => cases hb; cases hb'; exact h1
        | i + 1, hb, hb' => exact g2 i b b' hb hb'

/-! ## Documents -/

/-- The constructor of a tree. -/
def kind : Tree → Nat
  | .null => 0
  | .undefined => 1
  | .bool b => if b then 3 else 2
  | .int _ => 4
  | .float _ => 5
  | .str _ => 6
  | .data _ => 7
  | .arr _ => 8
  | .dict _ => 9

/-- The constructor that goes with a name. -/
def kindOf (name : Text) : Nat :=
  if name = "Null".toList then 0
  else if name = "Undefined".toList then 1
  else if name = "False".toList then 2
  else if name = "True".toList then 3
  else if name ∈ ["Short".toList, "Int".toList, "UnsignedInt".toList] then 4
  else if name ∈ ["Float".toList, "Double32".toList, "Double64".toList] then 5
  else if name = "String".toList then 6
  else if name = "Data".toList then 7
  else if name = "Array".toList then 8
  else 9

theorem Renders.named {P : Printer} {t : Tree} {s : Text} (h : Renders P t s) :
    ∃ name body, s = name ++ '(' :: body ∧ (∀ c ∈ name, c ≠ '(') ∧ kindOf name = kind t ∧
      ∃ c r, name = c :: r ∧ c ≠ ']' ∧ c ≠ '}' := by
  cases h with
  | null => exact ⟨"Null".toList, "\"Null\")".toList, rfl, by decide, by decide, _, _, rfl, by decide, by decide⟩
  | undefined => exact ⟨"Undefined".toList, "\"Undefined\")".toList, rfl, by decide, by decide, _, _, rfl, by decide, by decide⟩
  | false => exact ⟨"False".toList, "\"False\")".toList, rfl, by decide, by decide, _, _, rfl, by decide, by decide⟩
  | true => exact ⟨"True".toList, "\"True\")".toList, rfl, by decide, by decide, _, _, rfl, by decide, by decide⟩
  | @int z name s how h =>
    refine ⟨name, s ++ [')'], rfl, ?_⟩
    simp only [List.mem_cons, List.not_mem_nil, or_false] at how
    rcases how with rfl | rfl | rfl <;> exact ⟨by decide, by show _ = 4; decide, _, _, rfl, by decide, by decide⟩
  | @float d name how =>
    refine ⟨name, P.float d ++ [')'], rfl, ?_⟩
    simp only [List.mem_cons, List.not_mem_nil, or_false] at how
    rcases how with rfl | rfl | rfl <;> exact ⟨by decide, by show _ = 5; decide, _, _, rfl, by decide, by decide⟩
  | @str b s h => exact ⟨"String".toList, s ++ ")".toList, rfl, by decide, by show _ = 6; decide, _, _, rfl, by decide, by decide⟩
  | @data d ss s len each h => exact ⟨"Data".toList, '[' :: (s ++ "])".toList), rfl, by decide, by show _ = 7; decide, _, _, rfl, by decide, by decide⟩
  | @arr xs ss s len each h => exact ⟨"Array".toList, '[' :: (s ++ "])".toList), rfl, by decide, by show _ = 8; decide, _, _, rfl, by decide, by decide⟩
  | @dict kvs ks vs s _ _ _ _ h =>
    exact ⟨"Dict".toList, '{' :: (s ++ "})".toList), rfl, by decide, by show _ = 9; decide, _, _, rfl, by decide, by decide⟩

theorem Renders.head {P : Printer} {t : Tree} {s : Text} (h : Renders P t s) : ∃ c r, s = c :: r ∧ c ≠ ']' ∧ c ≠ '}' := by
  obtain ⟨name, body, rfl, _, _, c, r, rfl, h1, h2⟩ := h.named
  exact ⟨c, _, rfl, h1, h2⟩

theorem Renders.kinds {P : Printer} {t t' : Tree} {s s' r r' : Text} (h : Renders P t s) (h' : Renders P t' s')
    (e : s ++ r = s' ++ r') : kind t = kind t' := by
  obtain ⟨name, body, rfl, h1, h2, _⟩ := h.named
  obtain ⟨name', body', rfl, h1', h2', _⟩ := h'.named
  rw [List.append_assoc, List.append_assoc] at e
  obtain ⟨rfl, _⟩ := split_at (p := fun c => c ≠ '(') h1 h1' (by simp) (by simp) e
  rw [← h2, h2']

theorem append_left {s r r' : Text} (h : s ++ r = s ++ r') : r = r' := List.append_cancel_left h

theorem name_split {name name' s s' r r' : Text} (n : ∀ c ∈ name, c ≠ '(') (n' : ∀ c ∈ name', c ≠ '(')
    (e : (name ++ '(' :: s) ++ r = (name' ++ '(' :: s') ++ r') : s ++ r = s' ++ r' := by
  rw [List.append_assoc, List.append_assoc] at e
  exact (split_at (p := fun c => c ≠ '(') n n' (by simp) (by simp) e).2.2

theorem Renders.prefix_ {P : Printer} (hfl : ∀ d, ')' ∉ P.float d) {t : Tree} {s : Text} (h : Renders P t s) :
    ∀ {t' : Tree} {s' r r' : Text}, Renders P t' s' → s ++ r = s' ++ r' → Alike P t t' ∧ r = r' := by
  have ints : ∀ name ∈ ["Short".toList, "Int".toList, "UnsignedInt".toList], ∀ c ∈ name, c ≠ '(' := by decide
  have floats : ∀ name ∈ ["Float".toList, "Double32".toList, "Double64".toList], ∀ c ∈ name, c ≠ '(' := by decide
  induction h with
  | null =>
    intro t' s' r r' h' e
    have hk := Renders.kinds .null h' e
    cases h' with
    | null => exact ⟨.refl _, append_left e⟩
    | _ => simp [kind] at hk
  | undefined =>
    intro t' s' r r' h' e
    have hk := Renders.kinds .undefined h' e
    cases h' with
    | undefined => exact ⟨.refl _, append_left e⟩
    | _ => simp [kind] at hk
  | false =>
    intro t' s' r r' h' e
    have hk := Renders.kinds .false h' e
    cases h' with
    | false => exact ⟨.refl _, append_left e⟩
    | _ => simp [kind] at hk
  | true =>
    intro t' s' r r' h' e
    have hk := Renders.kinds .true h' e
    cases h' with
    | true => exact ⟨.refl _, append_left e⟩
    | _ => simp [kind] at hk
  | @int z name s how h =>
    intro t' s' r r' h' e
    have hk := Renders.kinds (.int how h) h' e
    cases h' with
    | @int z' name' s' how' h' =>
      have e := name_split (ints _ how) (ints _ how') e
      rw [List.append_assoc, List.append_assoc] at e
      have hp : ¬ numeric ')' := by unfold numeric; decide
      obtain ⟨rfl, _, h2⟩ := split_at (p := numeric) h.chars h'.chars hp hp e
      rw [h.unique h']
      exact ⟨.refl _, h2⟩
    | _ => simp [kind] at hk
  | @float d name how =>
    intro t' s' r r' h' e
    have hk := Renders.kinds (.float how) h' e
    cases h' with
    | @float d' name' how' =>
      have e := name_split (floats _ how) (floats _ how') e
      rw [List.append_assoc, List.append_assoc] at e
      obtain ⟨h1, _, h2⟩ := split_at (p := fun c => c ≠ ')') (fun c hc => by rintro rfl; exact hfl d hc)
        (fun c hc => by rintro rfl; exact hfl d' hc) (by simp) (by simp) e
      exact ⟨.float h1, h2⟩
    | _ => simp [kind] at hk
  | @str b s h =>
    intro t' s' r r' h' e
    have hk := Renders.kinds (.str h) h' e
    cases h' with
    | @str b' s' h' =>
      rw [List.append_assoc, List.append_assoc, List.append_assoc, List.append_assoc] at e
      have e := append_left e
      obtain ⟨rfl, e⟩ := h.prefix_ h' e
      exact ⟨.refl _, append_left e⟩
    | _ => simp [kind] at hk
  | @data d ss s len each h =>
    intro t' s' r r' h' e
    have hk := Renders.kinds (.data len each h) h' e
    cases h' with
    | @data d' ss' s' len' each' h' =>
      rw [List.append_assoc, List.append_assoc, List.append_assoc, List.append_assoc] at e
      have e : s ++ ']' :: ([')'] ++ r) = s' ++ ']' :: ([')'] ++ r') := append_left e
      have tell : ∀ {b : UInt8} {x : Text}, Numeral b.toNat x →
          Telling (fun (b : UInt8) x => Numeral b.toNat x) (fun a b => a = b) b x := by
        intro b x hx
        obtain ⟨c, y, rfl, hc⟩ := hx.cons
        refine ⟨⟨c, y, rfl, ?_, ?_⟩, ?_⟩
        · rintro rfl; unfold numeric at hc; exact absurd hc (by decide)
        · rintro rfl; unfold numeric at hc; exact absurd hc (by decide)
        · intro a' s' c1 c2 r r' h2 hc1 hc2 e
          obtain ⟨rfl, rfl, rfl⟩ := split_at (p := numeric) hx.chars h2.chars hc1 hc2 e
          have := hx.unique h2
          exact ⟨UInt8.toNat_inj.mp (Int.ofNat_inj.mp this), rfl⟩
      obtain ⟨g1, g2, g3⟩ := h.prefix_ (A := fun (b : UInt8) x => Numeral b.toNat x) (E := fun a b => a = b) (.inl rfl) h' len len'
        (fun i b x hb hx => tell (each i b x hb hx))
        (fun i b x hb hx => ⟨each' i b x hb hx, (tell (each' i b x hb hx)).1⟩) e
      have : d = d' := by
        apply List.ext_getElem? fun i => ?_
        rcases Nat.lt_or_ge i d.length with hi | hi
        · rw [List.getElem?_eq_getElem hi, List.getElem?_eq_getElem (show i < d'.length by omega),
            g2 i _ _ (List.getElem?_eq_getElem hi) (List.getElem?_eq_getElem (by omega))]
        · rw [List.getElem?_eq_none hi, List.getElem?_eq_none (by omega)]
      subst this
      exact ⟨.refl _, append_left g3⟩
    | _ => simp [kind] at hk
  | @arr xs ss s len each h ih =>
    intro t' s' r r' h' e
    have hk := Renders.kinds (.arr len each h) h' e
    cases h' with
    | @arr xs' ss' s' len' each' h' =>
      rw [List.append_assoc, List.append_assoc, List.append_assoc, List.append_assoc] at e
      have e : s ++ ']' :: ([')'] ++ r) = s' ++ ']' :: ([')'] ++ r') := append_left e
      obtain ⟨g1, g2, g3⟩ := h.prefix_ (A := Renders P) (E := Alike P) (.inl rfl) h' len len'
        (fun i b x hb hx => ⟨(each i b x hb hx).head, fun h2 _ _ e => ih i b x hb hx h2 e⟩)
        (fun i b x hb hx => ⟨each' i b x hb hx, (each' i b x hb hx).head⟩) e
      exact ⟨.arr g1 g2, append_left g3⟩
    | _ => simp [kind] at hk
  | @dict kvs ks vs s lenk lenv keys vals h ih =>
    intro t' s' r r' h' e
    have hk := Renders.kinds (.dict lenk lenv keys vals h) h' e
    cases h' with
    | @dict kvs' ks' vs' s' lenk' lenv' keys' vals' h' =>
      rw [List.append_assoc, List.append_assoc, List.append_assoc, List.append_assoc] at e
      have e : s ++ '}' :: ([')'] ++ r) = s' ++ '}' :: ([')'] ++ r') := append_left e
      have parts : ∀ {ks vs : List Text} {i : Nat} {x : Text},
          (List.zipWith (fun k v => k ++ ':' :: ' ' :: v) ks vs)[i]? = some x →
          ∃ k v, ks[i]? = some k ∧ vs[i]? = some v ∧ x = k ++ ':' :: ' ' :: v := by
        intro ks vs i x hx
        rw [List.getElem?_zipWith] at hx
        cases hk : ks[i]? with
        | none => rw [hk] at hx; simp at hx
        | some k =>
          cases hv : vs[i]? with
          | none => rw [hk, hv] at hx; simp at hx
          | some v =>
            rw [hk, hv] at hx
            exact ⟨k, v, rfl, rfl, by simpa using hx.symm⟩
      let A : List UInt8 × Tree → Text → Prop := fun kv x => ∃ k v, Quoted P kv.1 k ∧ Renders P kv.2 v ∧ x = k ++ ':' :: ' ' :: v
      obtain ⟨g1, g2, g3⟩ := h.prefix_ (A := A) (E := fun a b => a.1 = b.1 ∧ Alike P a.2 b.2) (.inr rfl) (xs := kvs) (xs' := kvs') h'
        (by simp [lenk, lenv]) (by simp [lenk', lenv'])
        (fun i b x hb hx => by
          obtain ⟨k, v, hk, hv, rfl⟩ := parts hx
          have q := keys i b k hb hk
          refine ⟨?_, ?_⟩
          · obtain ⟨y, rfl⟩ := q.head
            exact ⟨_, _, rfl, by decide, by decide⟩
          · rintro a' _ c c' r r' ⟨k', v', q', v2, rfl⟩ _ _ e
            rw [List.append_assoc, List.append_assoc] at e
            obtain ⟨e1, e⟩ := q.prefix_ q' e
            simp only [List.cons_append, List.cons.injEq, true_and] at e
            obtain ⟨e2, e⟩ := ih i b v hb hv v2 e
            exact ⟨⟨e1, e2⟩, e⟩)
        (fun i b x hb hx => by
          obtain ⟨k, v, hk, hv, rfl⟩ := parts hx
          have q := keys' i b k hb hk
          refine ⟨⟨k, v, q, vals' i b v hb hv, rfl⟩, ?_⟩
          obtain ⟨y, rfl⟩ := q.head
          exact ⟨_, _, rfl, by decide, by decide⟩) e
      refine ⟨.dict ?_ fun i x y hx hy => (g2 i x y hx hy).2, append_left g3⟩
      apply List.ext_getElem (by simpa using g1)
      intro i h1 h2
      rw [List.getElem_map, List.getElem_map]
      exact (g2 i _ _ (List.getElem?_eq_getElem (by simpa using h1)) (List.getElem?_eq_getElem (by simpa using h2))).1
    | _ => simp [kind] at hk

/-- If no float of the document has the text of another one, the documents are the same. -/
theorem Alike.eq {P : Printer} {t t' : Tree} (h : Alike P t t')
    (hinj : ∀ a, HasFloat a t → ∀ b, P.float a = P.float b → a = b) : t = t' := by
  induction h with
  | refl => rfl
  | float h => rw [hinj _ .self _ h]
  | @arr xs ys len each ih =>
    congr 1
    apply List.ext_getElem len
    intro i h1 h2
    exact ih i _ _ (List.getElem?_eq_getElem h1) (List.getElem?_eq_getElem h2)
      fun a ha => hinj a (.arr (List.getElem_mem h1) ha)
  | @dict xs ys keys each ih =>
    congr 1
    have len : xs.length = ys.length := by simpa using congrArg List.length keys
    apply List.ext_getElem len
    intro i h1 h2
    have e2 := ih i _ _ (List.getElem?_eq_getElem h1) (List.getElem?_eq_getElem h2)
      fun a ha => hinj a (.dict (List.getElem_mem h1) ha)
    have e1 : (xs.map Prod.fst)[i]'(by simpa using h1) = (ys.map Prod.fst)[i]'(by simpa using h2) := by simp only [keys]
    rw [List.getElem_map, List.getElem_map] at e1
    exact Prod.ext e1 e2

end Fleece.Spec
