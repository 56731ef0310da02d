import Verif.Proofs.Lines
import Verif.Proofs.DebugText

/-! # Both modes of formatting write the same document -/

namespace Fleece
open Res Spec

/-- What is asked of the texts of floats: no line break, a first character that is no layout, and no brackets or commas. -/
def Printer.Flat (P : Printer) : Prop := ∀ d, '\n' ∉ P.float d ∧ Start (P.float d) ∧ Plain (P.float d)

/-- The same result, but for the layout. -/
def Both (x y : R Text) : Prop :=
  (∃ d : Doc, d.Good ∧ x = .ok d.line ∧ y = .ok (d.lines 0)) ∨ x = y ∧ ∀ s, x ≠ .ok s

/-- Entries of a list. -/
def Entries.ofList : List (Text × Doc) → Entries
  | [] => .nil
  | (p, d) :: ds => .cons p d (Entries.ofList ds)

def GoodFront (p : Text) : Prop := p = [] ∨ '\n' ∉ p ∧ Start p ∧ ∃ q, p = q ++ [':', ' '] ∧ InQuotes q

theorem ofList_good : ∀ {ds : List (Text × Doc)}, (∀ x ∈ ds, GoodFront x.1 ∧ x.2.Good) → (Entries.ofList ds).Good
  | [], _ => trivial
  | (p, d) :: ds, h => by
    unfold Entries.ofList Entries.Good
    exact ⟨(h _ List.mem_cons_self).1, (h _ List.mem_cons_self).2, ofList_good fun x hx => h x (List.mem_cons_of_mem _ hx)⟩

theorem ofList_line : ∀ ds : List (Text × Doc), (Entries.ofList ds).line = separated (ds.map fun x => x.1 ++ x.2.line)
  | [] => rfl
  | [(p, d)] => by simp [Entries.ofList, Entries.line, Entries.comma, separated]
  | (p, d) :: (p', d') :: ds => by
    have := ofList_line ((p', d') :: ds)
    simp only [Entries.ofList, Entries.line, Entries.comma, separated, List.map_cons, List.append_assoc] at this ⊢
    rw [this]

theorem ofList_lines : ∀ ds : List (Text × Doc), (∀ x ∈ ds, GoodFront x.1 ∧ x.2.Good) →
    (Entries.ofList ds).lines 1 = ds.flatMap fun x => entryAlt (x.1 ++ x.2.lines 0)
  | [], _ => rfl
  | (p, d) :: ds, h => by
    have h1 := h _ List.mem_cons_self
    rw [List.flatMap_cons, entryAlt_lines h1.1 h1.2, ← ofList_lines ds fun x hx => h x (List.mem_cons_of_mem _ hx)]
    simp only [Entries.ofList, Entries.lines, List.append_nil]

/-- A group from a list of entries, on many lines. -/
theorem group_lines (o : Text) (ds : List (Text × Doc)) (c : Char) (h : ∀ x ∈ ds, GoodFront x.1 ∧ x.2.Good) :
    (Doc.group o (Entries.ofList ds) c).lines 0 =
      o ++ (if ds = [] then [] else '\n' :: ds.flatMap fun x => entryAlt (x.1 ++ x.2.lines 0)) ++ [c] := by
  cases ds with
  | nil => simp [Entries.ofList, Doc.lines]
  | cons x ds =>
    have := ofList_lines (x :: ds) h
    obtain ⟨p, d⟩ := x
    rw [if_neg (by simp), ← this]
    simp [Entries.ofList, Doc.lines, margin]

theorem unended_simple : ∀ {s : Text}, (∀ c ∈ s, c ≠ '"' ∧ c ≠ '\\') → unended s = true
  | [], _ => rfl
  | [c], h => by
    have := h c List.mem_cons_self
    simp [unended, this.1, this.2]
  | c :: d :: s, h => by
    have h1 := h c List.mem_cons_self
    have := unended_simple (s := d :: s) fun x hx => h x (List.mem_cons_of_mem _ hx)
    unfold unended
    rw [if_neg h1.2, this]
    simp [h1.1]

theorem unended_append : ∀ {s t : Text}, unended s = true → unended t = true → unended (s ++ t) = true
  | [], _, _, h => h
  | [c], t, h1, h2 => by
    have : c ≠ '"' ∧ c ≠ '\\' := by simpa [unended] using h1
    cases t with
    | nil => exact h1
    | cons d t =>
      rw [List.singleton_append]
      unfold unended
      rw [if_neg this.2, h2]
      simp [this.1]
  | c :: d :: s, t, h1, h2 => by
    unfold unended at h1
    rw [List.cons_append, List.cons_append]
    unfold unended
    by_cases hc : c = '\\'
    · rw [if_pos hc] at h1 ⊢
      exact unended_append h1 h2
    · rw [if_neg hc, Bool.and_eq_true] at h1 ⊢
      exact ⟨h1.1, unended_append (s := d :: s) h1.2 h2⟩

theorem digit_chars {b n : Nat} {s : Text} (hb : b ≤ 16) (h : Digits b n s) :
    '\n' ∉ s ∧ Start s ∧ Plain s ∧ unended s = true := by
  have ok : ∀ x, x < 16 → Nat.digitChar x ≠ '\n' ∧ Nat.digitChar x ≠ ' ' ∧ Nat.digitChar x ≠ ',' ∧
      Nat.digitChar x ∉ [')', ']', '}'] := by decide
  have ok2 : ∀ x, x < 16 → Nat.digitChar x ∉ ['(', '[', '{', ','] ∧ Nat.digitChar x ≠ '"' ∧ Nat.digitChar x ≠ '\\' := by decide
  refine ⟨fun hm => ?_, ?_, fun c hc => ?_, unended_simple fun c hc => ?_⟩
  rotate_left 2
  · obtain ⟨x, hx, rfl⟩ := h.chars c hc
    exact (ok2 x (by omega)).1
  · obtain ⟨x, hx, rfl⟩ := h.chars c hc
    exact (ok2 x (by omega)).2
  · obtain ⟨x, hx, e⟩ := h.chars _ hm
    exact (ok x (by omega)).1 e.symm
  · have hne : s ≠ [] := by cases h <;> simp
    cases s with
    | nil => exact absurd rfl hne
    | cons c r =>
      obtain ⟨x, hx, e⟩ := h.chars c List.mem_cons_self
      exact ⟨c, r, rfl, e ▸ (ok x (by omega)).2⟩

theorem natText_piece (n : Nat) : (Doc.piece (natText n)).Good := by
  unfold Doc.Good
  obtain ⟨h1, h2, h3, _⟩ := digit_chars (by decide) (toDigits_digits (b := 10) (by decide) n)
  exact ⟨h1, h2, .inl h3⟩

theorem intText_piece (z : Int) : (Doc.piece (intText z)).Good := by
  cases z with
  | ofNat n => exact natText_piece n
  | negSucc n =>
    obtain ⟨h1, _, h3, _⟩ := digit_chars (by decide) (toDigits_digits (b := 10) (by decide) (n + 1))
    unfold Doc.Good
    refine ⟨?_, ⟨'-', natText (n + 1), rfl, by decide⟩, .inl ?_⟩
    · unfold intText
      simp only [List.mem_cons, not_or]
      exact ⟨by decide, h1⟩
    · intro c hc
      rcases List.mem_cons.mp hc with rfl | hc
      · decide
      · exact h3 c hc

theorem quoted_piece {s : Text} (h : '\n' ∉ s) (hq : unended s = true) : (Doc.piece ('"' :: s ++ ['"'])).Good := by
  unfold Doc.Good
  refine ⟨?_, ⟨'"', s ++ ['"'], rfl, by decide⟩, .inr ⟨s, rfl, hq⟩⟩
  simp [h]

theorem escape_nl (P : Printer) (c : Char) : '\n' ∉ P.escape c ∧ unended (P.escape c) = true := by
  have h := escape_escaped P c
  generalize P.escape c = s at h
  cases h with
  | short h =>
    simp only [escapes, List.mem_cons, Prod.mk.injEq, List.not_mem_nil, or_false] at h
    rcases h with ⟨_, rfl⟩ | ⟨_, rfl⟩ | ⟨_, rfl⟩ | ⟨_, rfl⟩ | ⟨_, rfl⟩ | ⟨_, rfl⟩ <;> decide
  | plain h _ =>
    refine ⟨fun hm => ?_, ?_⟩
    · rw [List.mem_singleton] at hm
      exact h 'n' (by rw [← hm]; decide)
    · have h1 : c ≠ '"' := by rintro rfl; exact h '"' (by decide)
      have h2 : c ≠ '\\' := by rintro rfl; exact h '\\' (by decide)
      simp [unended, h1, h2]
  | hex _ _ ds =>
    obtain ⟨h1, _, _, h2⟩ := digit_chars (by decide) ds
    refine ⟨by simp [h1], ?_⟩
    exact unended_append (s := ['\\', 'u', '{']) (by decide) (unended_append h2 (by decide))

theorem strText_nl (P : Printer) (s : List UInt8) :
    '\n' ∉ ((utf8Decode? s).getD []).flatMap (fun n => P.escape (Char.ofNat n)) ∧
      unended (((utf8Decode? s).getD []).flatMap fun n => P.escape (Char.ofNat n)) = true := by
  generalize (utf8Decode? s).getD [] = cs
  refine ⟨fun h => ?_, ?_⟩
  · obtain ⟨n, _, h⟩ := List.mem_flatMap.mp h
    exact (escape_nl P _).1 h
  · induction cs with
    | nil => rfl
    | cons c cs ih =>
      rw [List.flatMap_cons]
      exact unended_append (escape_nl P _).2 ih

theorem strText_piece (P : Printer) (s : List UInt8) : (Doc.piece (P.strText s)).Good := quoted_piece (strText_nl P s).1 (strText_nl P s).2

theorem strText_front (P : Printer) (s : List UInt8) : GoodFront (P.strText s ++ [':', ' ']) := by
  have := strText_piece P s
  unfold Doc.Good at this
  refine .inr ⟨?_, this.2.1.append _, _, rfl, _, rfl, (strText_nl P s).2⟩
  simp [this.1]

theorem pointerText_piece (a b : Nat) : (Doc.piece (pointerText a b)).Good := by
  obtain ⟨h1, _, _, h1'⟩ := digit_chars (by decide) (toDigits_digits (b := 10) (by decide) a)
  obtain ⟨h2, _, _, h2'⟩ := digit_chars (by decide) (toDigits_digits (b := 10) (by decide) b)
  apply quoted_piece
  · simp [h1, h2, natText]
  · exact unended_append (unended_append (unended_append (unended_append (by decide) h1') (by decide)) h2') (by decide)

theorem Both.piece {s : Text} (h : (Doc.piece s).Good) : Both (.ok s) (.ok s) :=
  .inl ⟨.piece s, h, rfl, rfl⟩

theorem Both.same {α : Type} {x : R α} {f g : α → R Text} (h : ∀ a, x = .ok a → Both (f a) (g a)) :
    Both (x >>= f) (x >>= g) := by
  cases hx : x with
  | ok a => exact h a hx
  | _ => exact .inr ⟨rfl, fun s h => by cases h⟩

theorem list_good {ds : List Doc} (h : ∀ d ∈ ds, d.Good) (o : Text) (ho : ∃ n b, o = n ++ [b] ∧ b ∈ ['(', '[', '{'] ∧ Plain n) (hn : '\n' ∉ o)
    (hs : Start o) (c : Char) (hc : c ∈ [')', ']', '}']) : (Doc.group o (Entries.ofList (ds.map fun d => ([], d))) c).Good := by
  unfold Doc.Good
  refine ⟨ho, hn, hs, ofList_good ?_, hc⟩
  intro x hx
  obtain ⟨d, hd, rfl⟩ := List.mem_map.mp hx
  exact ⟨.inl rfl, h d hd⟩

theorem Both.list {ds : List Doc} (h : ∀ d ∈ ds, d.Good) :
    Both (.ok (listText (ds.map Doc.line))) (.ok (listAlt (ds.map (Doc.lines 0)))) := by
  refine .inl ⟨.group ['['] (Entries.ofList (ds.map fun d => ([], d))) ']',
    list_good h _ ⟨[], '[', rfl, by decide, by simp [Plain]⟩ (by decide) ⟨'[', [], rfl, by decide⟩ _ (by decide), ?_, ?_⟩
  · simp [Doc.line, ofList_line, listText, Function.comp_def]
  · rw [group_lines _ _ _ (by intro x hx; obtain ⟨d, hd, rfl⟩ := List.mem_map.mp hx; exact ⟨.inl rfl, h d hd⟩)]
    simp [listAlt, List.flatMap_map]

theorem Both.map {ds : List (Text × Doc)} (h : ∀ x ∈ ds, GoodFront (x.1 ++ [':', ' ']) ∧ x.2.Good) :
    Both (.ok (mapText (ds.map fun x => (x.1, x.2.line)))) (.ok (mapAlt (ds.map fun x => (x.1, x.2.lines 0)))) := by
  have hg : ∀ x ∈ ds.map (fun x => (x.1 ++ [':', ' '], x.2)), GoodFront x.1 ∧ x.2.Good := by
    intro x hx
    obtain ⟨d, hd, rfl⟩ := List.mem_map.mp hx
    exact h d hd
  refine .inl ⟨.group ['{'] (Entries.ofList (ds.map fun x => (x.1 ++ [':', ' '], x.2))) '}', ?_, ?_, ?_⟩
  · unfold Doc.Good
    exact ⟨⟨[], '{', rfl, by decide, by simp [Plain]⟩, by decide, ⟨'{', [], rfl, by decide⟩, ofList_good hg, by decide⟩
  · simp [Doc.line, ofList_line, mapText, Function.comp_def]
  · rw [group_lines _ _ _ hg]
    simp [mapAlt, List.flatMap_map]

theorem name_good (ty : ValueType) : '\n' ∉ ty.name ++ ['('] ∧ Start (ty.name ++ ['(']) := by
  cases ty <;> exact ⟨by decide, _, _, rfl, by decide⟩

theorem Both.tuple (ty : ValueType) {ds : List Doc} (h0 : ds ≠ []) (h : ∀ d ∈ ds, d.Good) :
    ∃ d : Doc, d.Good ∧ d.IsGroup ∧ tupleText ty.name (ds.map Doc.line) = d.line ∧ tupleAlt ty.name (ds.map (Doc.lines 0)) = d.lines 0 := by
  refine ⟨.group (ty.name ++ ['(']) (Entries.ofList (ds.map fun d => ([], d))) ')',
    list_good h _ ⟨_, '(', rfl, by decide, by unfold Plain; cases ty <;> decide⟩ (name_good ty).1 (name_good ty).2 _ (by decide), trivial, ?_, ?_⟩
  · simp [Doc.line, ofList_line, tupleText, Function.comp_def]
  · rw [group_lines _ _ _ (by intro x hx; obtain ⟨d, hd, rfl⟩ := List.mem_map.mp hx; exact ⟨.inl rfl, h d hd⟩)]
    simp [tupleAlt, List.flatMap_map, h0]

theorem debugItems_both {m : Mem} {f g : Val → R Text} (h : ∀ v, Both (f v) (g v)) : ∀ (n : Nat) (it : Iter),
    (∃ ds : List Doc, (∀ d ∈ ds, d.Good) ∧ it.debugItems m f n = .ok (ds.map Doc.line) ∧
      it.debugItems m g n = .ok (ds.map (Doc.lines 0))) ∨
    it.debugItems m f n = it.debugItems m g n ∧ ∀ s, it.debugItems m f n ≠ .ok s
  | 0, it => .inr ⟨rfl, fun s h => by cases h⟩
  | n + 1, it => by
    unfold Iter.debugItems
    cases hs : it.step m with
    | ok x =>
      obtain ⟨x, it'⟩ := x
      simp only [ok_bind]
      cases x with
      | none => exact .inl ⟨[], by simp, rfl, rfl⟩
      | some x =>
        dsimp only
        rcases h x with ⟨d, hd, e1, e2⟩ | ⟨e1, e2⟩
        · rw [e1, e2]
          simp only [ok_bind]
          rcases debugItems_both h n it' with ⟨ds, g1, g2, g3⟩ | ⟨g1, g2⟩
          · rw [g2, g3]
            exact .inl ⟨d :: ds, by simpa using ⟨hd, g1⟩, rfl, rfl⟩
          · rw [← g1]
            cases hx : it'.debugItems m f n with
            | ok s => exact absurd hx (g2 s)
            | _ => exact .inr ⟨rfl, fun s h => by cases h⟩
        · rw [← e1]
          cases hx : f x with
          | ok s => exact absurd hx (e2 s)
          | _ => exact .inr ⟨rfl, fun s h => by cases h⟩
    | _ => exact .inr ⟨rfl, fun s h => by cases h⟩

theorem debugEntries_both {P : Printer} {m : Mem} {scope : Option SharedKeys} {f g : Val → R Text} (h : ∀ v, Both (f v) (g v)) :
    ∀ (n : Nat) (it : Iter),
    (∃ ds : List (Text × Doc), (∀ x ∈ ds, GoodFront (x.1 ++ [':', ' ']) ∧ x.2.Good) ∧
      it.debugEntries P m scope f n = .ok (ds.map fun x => (x.1, x.2.line)) ∧
      it.debugEntries P m scope g n = .ok (ds.map fun x => (x.1, x.2.lines 0))) ∨
    it.debugEntries P m scope f n = it.debugEntries P m scope g n ∧ ∀ s, it.debugEntries P m scope f n ≠ .ok s
  | 0, it => .inr ⟨rfl, fun s h => by cases h⟩
  | n + 1, it => by
    unfold Iter.debugEntries
    cases hs : it.dictStep m scope with
    | ok x =>
      obtain ⟨x, it'⟩ := x
      simp only [ok_bind]
      cases x with
      | none => exact .inl ⟨[], by simp, rfl, rfl⟩
      | some x =>
        obtain ⟨k, x⟩ := x
        dsimp only
        rcases h x with ⟨d, hd, e1, e2⟩ | ⟨e1, e2⟩
        · rw [e1, e2]
          simp only [ok_bind]
          rcases debugEntries_both (P := P) h n it' with ⟨ds, g1, g2, g3⟩ | ⟨g1, g2⟩
          · rw [g2, g3]
            refine .inl ⟨(P.strText k, d) :: ds, ?_, rfl, rfl⟩
            intro y hy
            rcases List.mem_cons.mp hy with rfl | hy
            · exact ⟨strText_front P k, hd⟩
            · exact g1 y hy
          · rw [← g1]
            cases hx : it'.debugEntries P m scope f n with
            | ok s => exact absurd hx (g2 s)
            | _ => exact .inr ⟨rfl, fun s h => by cases h⟩
        · rw [← e1]
          cases hx : f x with
          | ok s => exact absurd hx (e2 s)
          | _ => exact .inr ⟨rfl, fun s h => by cases h⟩
    | _ => exact .inr ⟨rfl, fun s h => by cases h⟩

theorem debugArray_both {m : Mem} {f g : Val → R Text} (h : ∀ v, Both (f v) (g v)) (v : Val) :
    Both (v.debugArray m f) (v.debugArrayAlt m g) := by
  unfold Val.debugArray Val.debugArrayAlt
  refine Both.same fun it _ => ?_
  rcases debugItems_both (m := m) h (it.len + 1) it with ⟨ds, g1, g2, g3⟩ | ⟨g1, g2⟩
  · rw [g2, g3]
    exact Both.list g1
  · rw [← g1]
    cases hx : it.debugItems m f (it.len + 1) with
    | ok s => exact absurd hx (g2 s)
    | _ => exact .inr ⟨rfl, fun s h => by cases h⟩

theorem debugDict_both {P : Printer} {m : Mem} {scope : Option SharedKeys} {f g : Val → R Text} (h : ∀ v, Both (f v) (g v)) (v : Val) :
    Both (v.debugDict P m scope f) (v.debugDictAlt P m scope g) := by
  unfold Val.debugDict Val.debugDictAlt
  refine Both.same fun it _ => ?_
  rcases debugEntries_both (P := P) (m := m) (scope := scope) h (it.len + 1) it with ⟨ds, g1, g2, g3⟩ | ⟨g1, g2⟩
  · rw [g2, g3]
    exact Both.map g1
  · rw [← g1]
    cases hx : it.debugEntries P m scope f (it.len + 1) with
    | ok s => exact absurd hx (g2 s)
    | _ => exact .inr ⟨rfl, fun s h => by cases h⟩

theorem literal_piece {s : Text} (h : '\n' ∉ s) (hq : unended s = true) : Both (pure (literalText s)) (pure (literalText s)) :=
  Both.piece (quoted_piece h hq)

theorem debugField_both {P : Printer} (hP : P.Flat) {m : Mem} {F : FloatOps} {scope : Option SharedKeys} {f g : Val → R Text}
    (h : ∀ v, Both (f v) (g v)) (v : Val) (ty : ValueType) :
    Both (v.debugField P m F scope f ty) (v.debugFieldAlt P m F scope g ty) := by
  have float : Both (do let d ← v.toDouble m F; pure (P.float d)) (do let d ← v.toDouble m F; pure (P.float d)) :=
    Both.same fun d _ => Both.piece (by unfold Doc.Good; exact ⟨(hP d).1, (hP d).2.1, .inl (hP d).2.2⟩)
  cases ty with
  | null => exact literal_piece (by decide) (by decide)
  | undefined => exact literal_piece (by decide) (by decide)
  | «false» => exact literal_piece (by decide) (by decide)
  | «true» => exact literal_piece (by decide) (by decide)
  | short => exact Both.same fun i _ => Both.piece (intText_piece i)
  | unsignedInt => exact Both.same fun i _ => Both.piece (natText_piece i)
  | int => exact Both.same fun i _ => Both.piece (intText_piece i)
  | float => exact float
  | double32 => exact float
  | double64 => exact float
  | string => exact Both.same fun s _ => Both.piece (strText_piece P s)
  | data =>
    refine Both.same fun d _ => ?_
    have := Both.list (ds := d.map fun b => Doc.piece (natText b.toNat))
      (by intro x hx; obtain ⟨b, _, rfl⟩ := List.mem_map.mp hx; exact natText_piece _)
    simp only [List.map_map, Function.comp_def, Doc.line, Doc.lines] at this
    exact this
  | array => exact debugArray_both h v
  | dict => exact debugDict_both h v
  | pointer =>
    refine Both.same fun n _ => ?_
    split
    · exact Both.same fun w _ => Both.piece (pointerText_piece n w)
    · exact Both.piece (pointerText_piece n 0)

/-- The two texts of a value are one document. -/
theorem debug_both {P : Printer} (hP : P.Flat) {m : Mem} {F : FloatOps} {scope : Option SharedKeys} : ∀ (fuel : Nat) (v : Val),
    (∃ d : Doc, d.Good ∧ d.IsGroup ∧ v.debug P m F scope fuel = .ok d.line ∧ v.debugAlt P m F scope fuel = .ok (d.lines 0)) ∨
      v.debug P m F scope fuel = v.debugAlt P m F scope fuel ∧ ∀ s, v.debug P m F scope fuel ≠ .ok s
  | 0, v => .inr ⟨rfl, fun s h => by cases h⟩
  | fuel + 1, v => by
    unfold Val.debug Val.debugAlt
    have ih : ∀ v, Both (Val.debug P m F scope fuel v) (Val.debugAlt P m F scope fuel v) := by
      intro v
      rcases debug_both hP fuel v with ⟨d, h1, _, h2⟩ | h
      · exact .inl ⟨d, h1, h2⟩
      · exact .inr h
    cases ht : v.type m with
    | ok ty =>
      simp only [ok_bind]
      rcases debugField_both hP (m := m) (F := F) (scope := scope) ih v ty with ⟨d, h1, h2, h3⟩ | ⟨h1, h2⟩
      · rw [h2, h3]
        simp only [ok_bind]
        obtain ⟨d', g1, g2, g3, g4⟩ := Both.tuple ty
          (ds := (if v.len = 0 then [Doc.piece (literalText ['E', 'm', 'p', 't', 'y'])] else []) ++ [d]) (by simp) (by
            intro x hx
            rcases List.mem_append.mp hx with hx | hx
            · split at hx
              · rw [List.mem_singleton] at hx
                subst hx
                exact quoted_piece (by decide) (by decide)
              · cases hx
            · rw [List.mem_singleton] at hx
              exact hx ▸ h1)
        refine .inl ⟨d', g1, g2, ?_, ?_⟩
        · rw [← g3]
          split <;> rfl
        · rw [← g4]
          split <;> rfl
      · rw [← h1]
        cases hx : Val.debugField P m F scope (Val.debug P m F scope fuel) v ty with
        | ok s => exact absurd hx (h2 s)
        | _ => exact .inr ⟨rfl, fun s h => by cases h⟩
    | _ => exact .inr ⟨rfl, fun s h => by cases h⟩

end Fleece
