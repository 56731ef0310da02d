import Verif.Spec.KeyOrder
import Verif.Proofs.Res

/-! # The order of dict keys -/

namespace Fleece
open Res

theorem u8_lt_iff {a b : UInt8} : a < b ↔ a.toNat < b.toNat := UInt8.lt_iff_toNat_lt

theorem cmpBytes_compares (a : List UInt8) : ∀ b, Key.Compares (.string a) (.string b) (cmpBytes a b) := by
  induction a with
  | nil =>
    intro b
    cases b with
    | nil => exact rfl
    | cons b bs => exact List.nil_lt_cons b bs
  | cons a as ih =>
    intro b
    cases b with
    | nil => exact List.nil_lt_cons a as
    | cons b bs =>
      unfold cmpBytes
      split
      · next h => exact List.cons_lt_cons_iff.mpr (.inl h)
      · next h =>
        split
        · next h' => exact List.cons_lt_cons_iff.mpr (.inl h')
        · next h' =>
          have hab : a = b := UInt8.toNat_inj.mp (by rw [u8_lt_iff] at h h'; omega)
          subst hab
          have := ih bs
          revert this
          cases cmpBytes as bs with
          | lt => intro h; exact List.cons_lt_cons_iff.mpr (.inr ⟨rfl, h⟩)
          | eq => intro h; cases h; exact rfl
          | gt => intro h; exact List.cons_lt_cons_iff.mpr (.inr ⟨rfl, h⟩)

theorem cmpNat_compares (a b : Nat) : Key.Compares (.shared a) (.shared b) (cmpNat a b) := by
  unfold cmpNat
  split
  · next h => exact h
  · next h =>
    split
    · next h' => exact h'
    · next h' =>
      have : a = b := by omega
      subst this; exact rfl

theorem u8_list_trans {a b c : List UInt8} (h1 : a < b) (h2 : b < c) : a < c := List.lt_trans h1 h2
theorem u8_list_irrefl (a : List UInt8) : ¬ a < a := List.lt_irrefl a

theorem Key.lt_irrefl (a : Key) : ¬ Key.Lt a a := by
  cases a with
  | shared c => exact Nat.lt_irrefl c
  | string s => exact u8_list_irrefl s

theorem Key.lt_trans {a b c : Key} (h1 : Key.Lt a b) (h2 : Key.Lt b c) : Key.Lt a c := by
  cases a <;> cases b <;> cases c <;> simp only [Key.Lt] at *
  · omega
  · exact u8_list_trans h1 h2

/-- A comparison has one outcome only. -/
theorem Key.compares_unique {a b : Key} {o o' : Ordering} (h : Key.Compares a b o) (h' : Key.Compares a b o') : o = o' := by
  cases o <;> cases o' <;> simp only [Key.Compares] at h h' <;> try rfl
  · subst h'; exact absurd h (Key.lt_irrefl _)
  · exact absurd (Key.lt_trans h h') (Key.lt_irrefl _)
  · subst h; exact absurd h' (Key.lt_irrefl _)
  · subst h; exact absurd h' (Key.lt_irrefl _)
  · exact absurd (Key.lt_trans h h') (Key.lt_irrefl _)
  · subst h'; exact absurd h (Key.lt_irrefl _)

/-- The three outcomes cover everything. -/
theorem Key.total (a b : Key) : Key.Lt a b ∨ a = b ∨ Key.Lt b a := by
  cases a with
  | shared a =>
    cases b with
    | shared b =>
      have h := cmpNat_compares a b
      revert h
      cases cmpNat a b with
      | lt => exact fun h => .inl h
      | eq => exact fun h => .inr (.inl h)
      | gt => exact fun h => .inr (.inr h)
    | string b => exact .inl trivial
  | string a =>
    cases b with
    | shared b => exact .inr (.inr trivial)
    | string b =>
      have h := cmpBytes_compares a b
      revert h
      cases cmpBytes a b with
      | lt => exact fun h => .inl h
      | eq => exact fun h => .inr (.inl h)
      | gt => exact fun h => .inr (.inr h)

theorem DictKey.cmp_compares (a b : DictKey) : Key.Compares a.key b.key (DictKey.cmp a b) := by
  cases a <;> cases b <;> simp only [DictKey.cmp, DictKey.key]
  · exact cmpBytes_compares _ _
  · exact trivial
  · exact cmpBytes_compares _ _
  · exact trivial
  · exact cmpNat_compares _ _
  · exact trivial
  · exact cmpBytes_compares _ _
  · exact trivial
  · exact cmpBytes_compares _ _

theorem DictKey.cmp_not_gt {a b : DictKey} : DictKey.cmp a b ≠ .gt ↔ (Key.Lt a.key b.key ∨ a.key = b.key) := by
  have h := DictKey.cmp_compares a b
  revert h
  cases DictKey.cmp a b with
  | lt => exact fun h => ⟨fun _ => .inl h, fun _ => by simp⟩
  | eq => exact fun h => ⟨fun _ => .inr h, fun _ => by simp⟩
  | gt =>
    intro h
    refine ⟨fun h' => absurd rfl h', fun h' => ?_⟩
    rcases h' with h' | h'
    · exact absurd (Key.lt_trans h h') (Key.lt_irrefl _)
    · simp only [Key.Compares, h'] at h
      exact absurd h (Key.lt_irrefl _)

/-- The reader's comparison. -/
theorem dictKeyCmp_compares {m : Mem} {wide : Bool} {v : Val} {k : Key} (hv : KeyValue m wide v k) (probe : Key) :
    ∃ o, dictKeyCmp m probe v wide = .ok o ∧ Key.Compares probe k o := by
  unfold dictKeyCmp
  cases hv with
  | @short c ht hv =>
    rw [ht]
    simp only [ok_bind]
    rw [if_neg (by simp)]
    cases probe with
    | shared a => exact ⟨_, by simp only [hv, ok_bind, pure_eq], cmpNat_compares _ _⟩
    | string a => exact ⟨_, rfl, trivial⟩
  | @inline s ht hs =>
    rw [ht]
    simp only [ok_bind]
    rw [if_neg (by simp)]
    cases probe with
    | shared a => exact ⟨_, rfl, trivial⟩
    | string a => exact ⟨_, by simp only [hs, ok_bind, pure_eq], cmpBytes_compares _ _⟩
  | @pointer s tgt ht hd hs hne =>
    rw [ht]
    simp only [ok_bind]
    rw [if_neg (by simp)]
    cases probe with
    | shared a => exact ⟨_, rfl, trivial⟩
    | string a =>
      refine ⟨_, ?_, cmpBytes_compares a s⟩
      simp only [hd, hs, ok_bind, pure_eq]
      rw [if_neg (by simp [hne])]

/-! ## A sorter exists -/

theorem cmp_total (a b : DictKey) (h : DictKey.cmp a b = .gt) : DictKey.cmp b a ≠ .gt := by
  have h1 := DictKey.cmp_compares a b
  rw [h] at h1
  exact DictKey.cmp_not_gt.mpr (.inl h1)

theorem cmp_trans {a b c : DictKey} (h1 : DictKey.cmp a b ≠ .gt) (h2 : DictKey.cmp b c ≠ .gt) : DictKey.cmp a c ≠ .gt := by
  rw [DictKey.cmp_not_gt] at *
  rcases h1 with h1 | h1
  · rcases h2 with h2 | h2
    · exact .inl (Key.lt_trans h1 h2)
    · rw [← h2]; exact .inl h1
  · rw [h1]; exact h2

/-- Insertion into a sorted list. -/
def insertElem (x : DictElem) : List DictElem → List DictElem
  | [] => [x]
  | y :: ys => if DictKey.cmp x.key y.key = .gt then y :: insertElem x ys else x :: y :: ys

theorem insertElem_perm (x : DictElem) (l : List DictElem) : (insertElem x l).Perm (x :: l) := by
  induction l with
  | nil => exact .refl _
  | cons y ys ih =>
    unfold insertElem
    split
    · exact (ih.cons y).trans (.swap ..)
    · exact .refl _

theorem insertElem_sorted (x : DictElem) (l : List DictElem)
    (h : l.Pairwise fun a b => DictKey.cmp a.key b.key ≠ .gt) :
    (insertElem x l).Pairwise fun a b => DictKey.cmp a.key b.key ≠ .gt := by
  induction l with
  | nil => simp [insertElem]
  | cons y ys ih =>
    rw [List.pairwise_cons] at h
    unfold insertElem
    split
    · next hgt =>
      rw [List.pairwise_cons]
      refine ⟨fun z hz => ?_, ih h.2⟩
      rcases List.mem_cons.mp ((insertElem_perm x ys).mem_iff.mp hz) with rfl | hz
      · exact cmp_total _ _ hgt
      · exact h.1 z hz
    · next hle =>
      rw [List.pairwise_cons, List.pairwise_cons]
      refine ⟨fun z hz => ?_, h⟩
      rcases List.mem_cons.mp hz with rfl | hz
      · exact hle
      · exact cmp_trans hle (h.1 z hz)

/-- Insertion sort: one of the functions `sort_unstable_by` may be. -/
def insertionSorter : Sorter where
  run l := l.foldr insertElem []
  perm l := by
    induction l with
    | nil => exact .refl _
    | cons a l ih => exact (insertElem_perm a _).trans (ih.cons a)
  sorted l := by
    induction l with
    | nil => exact .nil
    | cons a l ih => exact insertElem_sorted a _ ih

end Fleece
