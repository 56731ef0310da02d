import Verif.Proofs.EncBasic

/-! # The output only grows, by an even number of bytes, whatever is called -/

namespace Fleece
open Res

/-- `e'` comes later than `e`: nothing of the output has changed, and an even length stays even. -/
structure Grows (e e' : Enc) : Prop where
  pre : e.out <+: e'.out
  even : e.out.length % 2 = 0 → e'.out.length % 2 = 0

theorem Grows.refl (e : Enc) : Grows e e := ⟨List.prefix_refl _, id⟩
theorem Grows.trans {a b c : Enc} (h1 : Grows a b) (h2 : Grows b c) : Grows a c :=
  ⟨h1.pre.trans h2.pre, fun h => h2.even (h1.even h)⟩
theorem Grows.of_out {e e' : Enc} (h : e'.out = e.out) : Grows e e' := by
  constructor <;> rw [h]
  exact List.prefix_refl _; exact id

theorem Grows.start {e e1 e' : Enc} (h : Grows e1 e') (ho : e1.out = e.out) : Grows e e' :=
  (Grows.of_out ho).trans h

theorem Enc.write_grows {c : Cfg} {e e' : Enc} {x : Item} {w k : Bool} {o : Nat}
    (h : e.write c x w k = .ok (e', o)) : Grows e e' ∧ e'.out.length % 2 = 0 ∧ e'.stack = e.stack := by
  unfold write at h
  obtain ⟨bs, h1, h⟩ := bind_eq_ok.mp h
  cases bs with
  | none => cases h
  | some bs =>
    dsimp only at h
    generalize (if (w && !k) = true then max x.size 4 else x.size) = req at h
    split at h
    · cases h
      have : padEven (e.out ++ bs) = if (e.out ++ bs).length % 2 ≠ 0 then e.out ++ bs ++ [0] else e.out ++ bs := rfl
      refine ⟨⟨?_, fun _ => ?_⟩, ?_, rfl⟩
      · rw [← this]; exact (List.prefix_append _ _).trans (padEven_prefix _)
      · rw [← this]; exact padEven_even _
      · rw [← this]; exact padEven_even _
    · cases h

theorem Enc.writeSlots_grows {c : Cfg} {w : Bool} {vs : List SizedValue} : ∀ {e e' : Enc},
    Enc.writeSlots c w e vs = .ok e' → Grows e e' ∧ e'.stack = e.stack := by
  induction vs with
  | nil => intro e e' h; cases h; exact ⟨.refl _, rfl⟩
  | cons v vs ih =>
    intro e e' h
    unfold writeSlots at h
    obtain ⟨⟨e1, o⟩, h1, h⟩ := bind_eq_ok.mp h
    obtain ⟨g1, _, s1⟩ := write_grows h1
    obtain ⟨g2, s2⟩ := ih h
    exact ⟨g1.trans g2, by rw [s2, s1]⟩

theorem Enc.writePairs_grows {c : Cfg} {w : Bool} {els : List DictElem} : ∀ {e e' : Enc} {r : Except EncodeError Unit},
    Enc.writePairs c w e els = .ok (e', r) → Grows e e' ∧ e'.stack = e.stack := by
  induction els with
  | nil => intro e e' r h; cases h; exact ⟨.refl _, rfl⟩
  | cons v vs ih =>
    intro e e' r h
    unfold writePairs at h
    obtain ⟨k, h0, h⟩ := bind_eq_ok.mp h
    cases k with
    | none => cases h; exact ⟨.refl _, rfl⟩
    | some k =>
      dsimp only at h
      obtain ⟨⟨e1, o⟩, h1, h⟩ := bind_eq_ok.mp h
      obtain ⟨⟨e2, o2⟩, h2, h⟩ := bind_eq_ok.mp h
      obtain ⟨g1, _, s1⟩ := write_grows h1
      obtain ⟨g2, _, s2⟩ := write_grows h2
      obtain ⟨g3, s3⟩ := ih h
      exact ⟨(g1.trans g2).trans g3, by rw [s3, s2, s1]⟩

theorem Enc.finishedCollection_grows {c : Cfg} {e e' : Enc} {o : Nat} {r : Except EncodeError Unit}
    (h : e.finishedCollection c o = .ok (e', r)) : Grows e e' ∧ e'.stack.length = e.stack.length := by
  unfold finishedCollection at h
  split at h
  · next coll rest hs =>
    split at h
    · cases h; exact ⟨.refl _, rfl⟩
    · split at h <;> cases h <;> exact ⟨.of_out rfl, by simp [hs]⟩
  · next hs =>
    obtain ⟨o, h1, h⟩ := bind_eq_ok.mp h
    split at h
    · split at h
      · cases h
      · obtain ⟨⟨e1, o1⟩, h2, h⟩ := bind_eq_ok.mp h
        obtain ⟨g1, _, s1⟩ := write_grows h2
        cases h
        exact ⟨g1.trans (.of_out rfl), by simp [s1]⟩
    · split at h
      · cases h; exact ⟨.refl _, rfl⟩
      · obtain ⟨⟨e1, o1⟩, h2, h⟩ := bind_eq_ok.mp h
        obtain ⟨g1, _, s1⟩ := write_grows h2
        dsimp only at h
        split at h
        · cases h
        · obtain ⟨⟨e2, o2⟩, h3, h⟩ := bind_eq_ok.mp h
          obtain ⟨g2, _, s2⟩ := write_grows h3
          cases h
          exact ⟨(g1.trans g2).trans (.of_out rfl), by simp [s1, s2]⟩

theorem Enc.endArray_grows {c : Cfg} {e e' : Enc} {r : Except EncodeError Unit} (h : e.endArray c = .ok (e', r)) :
    Grows e e' ∧ (∀ vs rest, e.stack = .arr vs :: rest → e'.stack.length = rest.length) := by
  unfold endArray at h
  split at h
  · next hs => cases h; exact ⟨.refl _, fun _ _ h => by rw [hs] at h; cases h⟩
  · next hs => cases h; exact ⟨.refl _, fun _ _ h => by rw [hs] at h; cases h⟩
  · next hs => cases h; exact ⟨.of_out rfl, fun _ _ h => by rw [hs] at h; cases h⟩
  · next vs rest hs =>
    dsimp only at h
    obtain ⟨w, h1, h⟩ := bind_eq_ok.mp h
    obtain ⟨⟨e1, o1⟩, h2, h⟩ := bind_eq_ok.mp h
    obtain ⟨g1, _, s1⟩ := write_grows h2
    obtain ⟨vs', h3, h⟩ := bind_eq_ok.mp h
    obtain ⟨e2, h4, h⟩ := bind_eq_ok.mp h
    obtain ⟨g2, s2⟩ := writeSlots_grows h4
    obtain ⟨g3, s3⟩ := finishedCollection_grows h
    refine ⟨((g1.trans g2).trans g3).start rfl, fun vs' rest' h' => ?_⟩
    rw [hs] at h'; cases h'
    rw [s3, s2, s1]

theorem Enc.endDict_grows {c : Cfg} {e e' : Enc} {r : Except EncodeError Unit} (h : e.endDict c = .ok (e', r)) :
    Grows e e' ∧ (∀ els rest, e.stack = .dict els none :: rest → e'.stack.length = rest.length) := by
  unfold endDict at h
  split at h
  · next hs => cases h; exact ⟨.refl _, fun _ _ h => by rw [hs] at h; cases h⟩
  · next els rest hs =>
    dsimp only at h
    obtain ⟨w, h1, h⟩ := bind_eq_ok.mp h
    obtain ⟨⟨e1, o1⟩, h2, h⟩ := bind_eq_ok.mp h
    obtain ⟨g1, _, s1⟩ := write_grows h2
    obtain ⟨vs', h3, h⟩ := bind_eq_ok.mp h
    obtain ⟨⟨e2, r2⟩, h4, h⟩ := bind_eq_ok.mp h
    obtain ⟨g2, s2⟩ := writePairs_grows h4
    have g12 : Grows e e2 := (g1.trans g2).start rfl
    cases r2 with
    | error x =>
      cases h
      exact ⟨g12, fun vs' rest' h' => by rw [hs] at h'; cases h'; rw [s2, s1]⟩
    | ok u =>
      obtain ⟨g3, s3⟩ := finishedCollection_grows h
      exact ⟨g12.trans g3, fun vs' rest' h' => by rw [hs] at h'; cases h'; rw [s3, s2, s1]⟩
  · next hs1 hs2 =>
    cases h
    exact ⟨.refl _, fun _ _ h => absurd h (hs2 _ _)⟩

theorem Enc.pushKey_grows {e e' : Enc} {k : DictKey} {r : Except EncodeError Unit} (h : e.pushKey k = .ok (e', r)) :
    Grows e e' := by
  unfold pushKey at h
  split at h
  · split at h <;> cases h <;> exact .of_out rfl
  · cases h; exact .refl _

theorem Enc.push_grows {e e' : Enc} {k : SizedValue} {r : Except EncodeError Unit} (h : e.push k = .ok (e', r)) :
    Grows e e' := by
  unfold push at h
  split at h <;> cases h <;> exact .of_out rfl

theorem Enc.writeKeyPointer_grows {c : Cfg} {e e' : Enc} {k : List UInt8} {r : Except EncodeError Unit}
    (h : e.writeKeyPointer c k = .ok (e', r)) : Grows e e' := by
  unfold writeKeyPointer at h
  obtain ⟨⟨e1, o1⟩, h2, h⟩ := bind_eq_ok.mp h
  exact (write_grows h2).1.trans (pushKey_grows h)

/-- Every call. -/
theorem Enc.step_grows {c : Cfg} {e e' : Enc} {op : Op} {r : Except EncodeError Unit} (h : e.step c op = .ok (e', r)) :
    Grows e e' := by
  cases op with
  | beginArray n =>
    simp only [Enc.step, Enc.beginArray] at h
    split at h
    · cases h; exact .refl _
    · split at h
      · cases h; exact .refl _
      · split at h <;> cases h; exact .of_out rfl
  | beginDict =>
    simp only [Enc.step, Enc.beginDict] at h
    split at h
    · cases h; exact .refl _
    · split at h <;> cases h <;> exact .of_out rfl
  | key k =>
    simp only [Enc.step, Enc.writeKey] at h
    split at h
    · exact pushKey_grows h
    · unfold Enc.writeKeyLong at h
      split at h
      · split at h
        · split at h
          · exact (pushKey_grows h).start rfl
          · exact (writeKeyPointer_grows h).start rfl
        · cases h; exact .refl _
      · exact writeKeyPointer_grows h
  | value x =>
    simp only [Enc.step, Enc.writeValue] at h
    split at h
    · cases h; exact .refl _
    · split at h
      · exact push_grows h
      · obtain ⟨⟨e1, o1⟩, h2, h⟩ := bind_eq_ok.mp h
        have g := (write_grows h2).1
        dsimp only at h
        split at h
        · cases h; exact g
        · exact g.trans (push_grows h)
  | endArray => exact (endArray_grows h).1
  | endDict => exact (endDict_grows h).1

/-- `_end`. -/
theorem Enc.endGo_grows {c : Cfg} : ∀ (n : Nat) {e e' : Enc}, Enc.endGo c n e = .ok e' → Grows e e' ∧ e'.stack = [] := by
  intro n
  induction n with
  | zero =>
    intro e e' h
    unfold endGo at h
    split at h
    · next hs => cases h; exact ⟨.refl _, by simpa using hs⟩
    · cases h
  | succ n ih =>
    intro e e' h
    unfold endGo at h
    split at h
    · next hs => cases h; exact ⟨.refl _, hs⟩
    · obtain ⟨⟨e1, r1⟩, h1, h⟩ := bind_eq_ok.mp h
      obtain ⟨g, hs⟩ := ih h
      exact ⟨(endArray_grows h1).1.trans g, hs⟩
    · obtain ⟨⟨e1, r1⟩, h1, h⟩ := bind_eq_ok.mp h
      obtain ⟨g, hs⟩ := ih h
      exact ⟨((endDict_grows h1).1.trans g).start rfl, hs⟩

end Fleece
