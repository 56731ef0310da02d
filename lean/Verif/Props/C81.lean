import Verif.Model.KeysDebug
import Verif.Proofs.DebugAlt
import Verif.Proofs.Text
import Verif.Props.C27
import Verif.Props.C29
import Verif.Props.C68

/-!
# C81 A table lists and prints its keys

`iter` hands out every key with its code, in the order of the codes; `{:?}` and `{:#?}` show just that, and tables with the same text
are the same.
-/

namespace Fleece.Props
open Fleece Res Spec

/-- The text of a table with these names: each name in quotes, with its position. -/
inductive TableText (P : Printer) (names : List (List UInt8)) : Text → Prop where
  | intro {items : List Text} {s : Text} (len : items.length = names.length)
      (each : ∀ (i : Nat) (name : List UInt8) (x : Text), names[i]? = some name → items[i]? = some x →
        ∃ q d, Quoted P name q ∧ Numeral i d ∧ x = q ++ ": ".toList ++ d)
      (h : Joined items s) : TableText P names ("SharedKeys {".toList ++ s ++ "}".toList)

theorem listed_all : ∀ (l : List (List UInt8 × Nat)) (n : Nat), l.length < n → (∀ e ∈ l, validUtf8 e.1 = true) →
    SharedKeys.Rest.listed n l = .ok l
  | _, 0, h, _ => by omega
  | [], n + 1, _, _ => rfl
  | (k, c) :: l, n + 1, h, hv => by
    have hk : validUtf8 k = true := hv (k, c) List.mem_cons_self
    unfold SharedKeys.Rest.listed
    simp only [SharedKeys.Rest.next, hk, if_true, ok_bind, pure_eq]
    rw [listed_all l n (by simpa using h) (fun e he => hv e (List.mem_cons_of_mem _ he))]
    rfl

theorem tidy_utf8 {U : CharTable} {sk : SharedKeys} (ht : sk.Tidy U) : ∀ e ∈ sk.entries, validUtf8 e.1 = true := by
  intro e he
  have := (ht e he).2
  unfold SharedKeys.canEncode at this
  unfold validUtf8
  cases h : utf8Decode? e.1 with
  | none => rw [h] at this; cases this
  | some cs => rfl

theorem pairs_eq {U : CharTable} {sk : SharedKeys} (h : InsertedShort U sk) : sk.pairs = .ok sk.entries :=
  listed_all _ _ (Nat.lt_succ_self _) (tidy_utf8 h.inv.2)

/-- **C81, iteration.** Every table made by insertions of keys that do not have 16 bytes hands out as many pairs as it has keys: the
one at place `i` is the key with code `i`, by `decode` and by `encode`. -/
theorem C81_iter (U : CharTable) (sk : SharedKeys) (h : InsertedShort U sk) : ∃ l, sk.pairs = .ok l ∧ l.length = sk.len ∧
    (∀ i k c, l[i]? = some (k, c) ↔ c = i ∧ sk.decode i = some k) ∧ ∀ k c, (k, c) ∈ l → sk.encode k = some c := by
  obtain ⟨hw, ht⟩ := h.inv
  refine ⟨sk.entries, pairs_eq h, hw.len.symm, fun i k c => ⟨fun hi => ?_, ?_⟩, fun k c hm => ?_⟩
  · exact ⟨hw.code i k c hi, by unfold SharedKeys.decode; rw [hi]; rfl⟩
  · rintro ⟨rfl, hd⟩
    unfold SharedKeys.decode at hd
    cases he : sk.entries[c]? with
    | none => rw [he] at hd; cases hd
    | some e =>
      obtain ⟨k', c'⟩ := e
      rw [he] at hd
      cases hd
      rw [hw.code c _ c' he]
  · unfold SharedKeys.encode
    rw [(ht _ hm).1, hw.lookup_iff]
    obtain ⟨i, hi, he⟩ := List.getElem_of_mem hm
    have he' := List.getElem?_eq_getElem hi
    rw [he] at he'
    cases hw.code i k c he'
    unfold SharedKeys.decode
    rw [he']
    rfl

/-- Names by code. -/
theorem names_decode (sk : SharedKeys) (i : Nat) : (sk.entries.map (·.1))[i]? = sk.decode i := by
  unfold SharedKeys.decode
  rw [List.getElem?_map]

/-- **C81, the text.** `{:?}` shows every name, in quotes and escaped, with its code. -/
theorem C81_text (P : Printer) (U : CharTable) (sk : SharedKeys) (h : InsertedShort U sk) :
    ∃ names s, (∀ i, names[i]? = sk.decode i) ∧ sk.debug P = .ok s ∧ TableText P names s := by
  obtain ⟨hw, ht⟩ := h.inv
  refine ⟨sk.entries.map (·.1), _, names_decode sk, by unfold SharedKeys.debug; rw [pairs_eq h]; rfl, ?_⟩
  have hj := separated_joined (sk.entries.map fun e => P.strText e.1 ++ [':', ' '] ++ natText e.2)
  have := TableText.intro (P := P) (names := sk.entries.map (·.1)) (by simp) (by
    intro i name x h1 h2
    rw [List.getElem?_map] at h1 h2
    cases he : sk.entries[i]? with
    | none => rw [he] at h1; cases h1
    | some e =>
      obtain ⟨k, c⟩ := e
      rw [he] at h1 h2
      cases h1
      cases h2
      cases hw.code i k c he
      exact ⟨_, _, strText_quoted P (tidy_utf8 ht _ (List.mem_of_getElem? he)), natText_numeral _, rfl⟩) hj
  have e : SharedKeys.heading ++ mapText (sk.entries.map fun kv => (P.strText kv.1, natText kv.2)) =
      "SharedKeys {".toList ++ separated (sk.entries.map fun e => P.strText e.1 ++ [':', ' '] ++ natText e.2) ++ "}".toList := by
    unfold mapText
    rw [List.map_map]
    rfl
  rw [e]
  exact this

/-- One name with its position. -/
def entryText (P : Printer) (e : List UInt8 × Nat) (s : Text) : Prop :=
  ∃ q d, Quoted P e.1 q ∧ Numeral e.2 d ∧ s = q ++ ": ".toList ++ d

theorem entryText_telling {P : Printer} {e : List UInt8 × Nat} {s : Text} (h : entryText P e s) : Telling (entryText P) Eq e s := by
  obtain ⟨q, d, h1, h2, rfl⟩ := h
  constructor
  · obtain ⟨r, rfl⟩ := h1.head
    exact ⟨'"', _, rfl, by decide, by decide⟩
  · rintro ⟨k', c'⟩ s' x x' r r' ⟨q', d', g1, g2, rfl⟩ hx hx' he
    rw [List.append_assoc, List.append_assoc, List.append_assoc, List.append_assoc] at he
    obtain ⟨rfl, he⟩ := h1.prefix_ g1 he
    have he := List.append_cancel_left he
    obtain ⟨rfl, rfl, rfl⟩ := split_at h2.chars g2.chars hx hx' he
    have := h2.unique g2
    obtain ⟨k, c⟩ := e
    have hc : c = c' := Int.ofNat.inj this
    subst hc
    exact ⟨rfl, rfl⟩

/-- Lists of names with the same text are the same. -/
theorem tableText_unique {P : Printer} {names names' : List (List UInt8)} {s : Text} (h : TableText P names s)
    (h' : TableText P names' s) : names = names' := by
  generalize hs : s = s' at h'
  cases h with
  | @intro items t len each hj =>
    cases h' with
    | @intro items' t' len' each' hj' =>
      rw [List.append_assoc, List.append_assoc] at hs
      have hs := List.append_cancel_left hs
      have item : ∀ {names : List (List UInt8)} {items : List Text} (_ : items.length = names.length)
          (_ : ∀ (i : Nat) (name : List UInt8) (x : Text), names[i]? = some name → items[i]? = some x →
            ∃ q d, Quoted P name q ∧ Numeral i d ∧ x = q ++ ": ".toList ++ d) (i : Nat) (e : List UInt8 × Nat) (x : Text),
          names.zipIdx[i]? = some e → items[i]? = some x → entryText P e x := by
        intro names items _ each i e x he hx
        obtain ⟨k, c⟩ := e
        rw [List.getElem?_zipIdx] at he
        cases hk : names[i]? with
        | none => rw [hk] at he; cases he
        | some k =>
          rw [hk] at he
          cases he
          simpa [entryText] using each i k x hk hx
      obtain ⟨g1, g2, _⟩ := Joined.prefix_ (A := entryText P) (E := Eq) (.inr rfl) hj (xs := names.zipIdx) (xs' := names'.zipIdx) hj'
        (by simp [len]) (by simp [len']) (fun i e x he hx => entryText_telling (item len each i e x he hx))
        (fun i e x he hx => by
          have := item len' each' i e x he hx
          exact ⟨this, (entryText_telling this).1⟩) hs
      apply List.ext_getElem?
      intro i
      simp only [List.length_zipIdx] at g1
      by_cases hi : i < names.length
      · have hi' : i < names'.length := by omega
        have := g2 i (names[i], i) (names'[i], i) (by rw [List.getElem?_zipIdx, List.getElem?_eq_getElem hi]; simp)
          (by rw [List.getElem?_zipIdx, List.getElem?_eq_getElem hi']; simp)
        rw [List.getElem?_eq_getElem hi, List.getElem?_eq_getElem hi', (Prod.mk.inj this).1]
      · rw [List.getElem?_eq_none (by omega), List.getElem?_eq_none (by omega)]

/-- **C81, on many lines.** `{:#?}` writes the same with a line for each key, four spaces in. -/
theorem C81_lines (P : Printer) (sk : SharedKeys) : (∃ d : Doc, d.Good ∧ sk.debug P = .ok d.line ∧ sk.debugAlt P = .ok (d.lines 0) ∧
    joined .inside (d.lines 0) = d.line) ∨ sk.debug P = .panic ∧ sk.debugAlt P = .panic := by
  have hp : ∀ (n : Nat) (l : SharedKeys.Rest), l.length < n → (∃ r, SharedKeys.Rest.listed n l = .ok r) ∨
      SharedKeys.Rest.listed n l = .panic := by
    intro n
    induction n with
    | zero => intro l h; omega
    | succ n ih =>
      intro l h
      cases l with
      | nil => exact .inl ⟨_, rfl⟩
      | cons e l =>
        obtain ⟨k, c⟩ := e
        unfold SharedKeys.Rest.listed
        simp only [SharedKeys.Rest.next]
        split
        · simp only [ok_bind]
          rcases ih l (by simpa using h) with ⟨r, hr⟩ | hr <;> rw [hr]
          · exact .inl ⟨_, rfl⟩
          · exact .inr rfl
        · exact .inr rfl
  rcases hp (sk.entries.length + 1) sk.iter (Nat.lt_succ_self _) with ⟨l, hl⟩ | hl
  · left
    have hg : ∀ x ∈ l.map (fun kv => (P.strText kv.1 ++ [':', ' '], Doc.piece (natText kv.2))), GoodFront x.1 ∧ x.2.Good := by
      intro x hx
      obtain ⟨kv, _, rfl⟩ := List.mem_map.mp hx
      exact ⟨strText_front P _, natText_piece _⟩
    have hgood : (Doc.group (SharedKeys.heading ++ ['{'])
        (Entries.ofList (l.map fun kv => (P.strText kv.1 ++ [':', ' '], Doc.piece (natText kv.2)))) '}').Good := by
      unfold Doc.Good
      exact ⟨⟨_, '{', rfl, by decide, by unfold Plain; decide⟩, by decide, ⟨'S', _, rfl, by decide⟩, ofList_good hg, by decide⟩
    refine ⟨_, hgood, ?_, ?_, ?_⟩
    · unfold SharedKeys.debug SharedKeys.pairs
      rw [hl]
      simp [Doc.line, ofList_line, mapText, Function.comp_def]
    · unfold SharedKeys.debugAlt SharedKeys.pairs
      rw [hl, group_lines _ _ _ hg]
      simp [mapAlt, List.flatMap_map, Doc.lines]
    · have := (Doc.joined_lines _ hgood 0).2 trivial []
      simpa only [List.append_nil, joined] using this
  · right
    unfold SharedKeys.debug SharedKeys.debugAlt SharedKeys.pairs
    rw [hl]
    exact ⟨rfl, rfl⟩

/-- **C81, a text is one table.** Tables with the same text, on one line or on many, are the same. -/
theorem C81_faithful (P : Printer) (U U' : CharTable) (sk sk' : SharedKeys) (h : InsertedShort U sk) (h' : InsertedShort U' sk')
    (he : sk.debug P = sk'.debug P ∨ sk.debugAlt P = sk'.debugAlt P) : sk = sk' := by
  have he : sk.debug P = sk'.debug P := by
    rcases he with he | he
    · exact he
    · rcases C81_lines P sk with ⟨d, _, h1, h2, h3⟩ | ⟨h1, h2⟩ <;> rcases C81_lines P sk' with ⟨d', _, g1, g2, g3⟩ | ⟨g1, g2⟩ <;>
        rw [h2, g2] at he <;> rw [h1, g1]
      · simp only [Res.ok.injEq] at he
        rw [← h3, ← g3, he]
      · cases he
      · cases he
  obtain ⟨names, s, h1, h2, h3⟩ := C81_text P U sk h
  obtain ⟨names', s', g1, g2, g3⟩ := C81_text P U' sk' h'
  rw [h2, g2] at he
  cases he
  have hn := tableText_unique h3 g3
  subst hn
  have hd : ∀ i, sk.decode i = sk'.decode i := fun i => (h1 i).symm.trans (g1 i)
  obtain ⟨sk⟩ := sk
  obtain ⟨sk'⟩ := sk'
  congr 1
  apply List.ext_getElem?
  intro i
  have hd := hd i
  simp only [SharedKeys.decode] at hd
  cases e1 : sk[i]? with
  | none => cases e2 : sk'[i]? with
    | none => rfl
    | some x => rw [e1, e2] at hd; cases hd
  | some x => cases e2 : sk'[i]? with
    | none => rw [e1, e2] at hd; cases hd
    | some y =>
      rw [e1, e2] at hd
      obtain ⟨k, c⟩ := x
      obtain ⟨k', c'⟩ := y
      cases h.inv.1.code i k c e1
      cases h'.inv.1.code i k' c' e2
      simp only [Option.map_some, Option.some.injEq] at hd
      rw [hd]

/-! ## Examples -/

example : stateTable.debug asciiPrinter = .ok "SharedKeys {\"foo\": 0, \"bar_1\": 1}".toList := by decide +kernel

example : stateTable.debugAlt asciiPrinter = .ok "SharedKeys {\n    \"foo\": 0,\n    \"bar_1\": 1,\n}".toList := by decide +kernel

example : SharedKeys.new.debugAlt asciiPrinter = .ok "SharedKeys {}".toList := by decide +kernel

end Fleece.Props
