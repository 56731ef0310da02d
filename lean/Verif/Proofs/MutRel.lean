import Verif.Proofs.MutMap
import Verif.Proofs.ScalarWrite

/-! # Mutable collections: simulation -/

namespace Fleece
open Res

section
variable (dbg : Bool) (F : FloatOps) (K : List UInt8 → Prop)

/-- The bytes of a slot read as `t`, wherever they lie. -/
def Reads (b : List UInt8) (t : Tree) : Prop := ∀ base, readTree ⟨b, base, dbg⟩ F none 1 ⟨0, b.length⟩ = .ok t

/-- Shared keys which do not confuse the keys in `K`. -/
def KeysFine (sk : Option SharedKeys) : Prop := ∀ s, sk = some s → s.WF ∧ ∀ k, K k → KeyKept s k

/-- The slot holds the node. -/
inductive Rel : Slot → Node → Prop where
  | inline {b : List UInt8} {t : Tree} (h : Reads dbg F b t) : Rel (.inline b) (.leaf t)
  | boxed {b : List UInt8} {t : Tree} (h : Reads dbg F b t) : Rel (.boxed b) (.leaf t)
  | arr {l : List Slot} {xs : List Node} (len : l.length = xs.length)
      (rel : ∀ (i : Nat) (s : Slot) (n : Node), l[i]? = some s → xs[i]? = some n → Rel s n) : Rel (.arr l) (.arr xs)
  | dict {sk : Option SharedKeys} {map : List (Key × Slot)} {kvs : List (List UInt8 × Node)} (fine : KeysFine K sk)
      (sorted : Sorted map) (nodup : (kvs.map (·.1)).Nodup) (keys : ∀ k n, (k, n) ∈ kvs → K k)
      (to : ∀ k n, (k, n) ∈ kvs → ∃ s, (mutEncodeKey sk k, s) ∈ map)
      (of : ∀ key s, (key, s) ∈ map → ∃ k n, (k, n) ∈ kvs ∧ key = mutEncodeKey sk k)
      (rel : ∀ k s n, (mutEncodeKey sk k, s) ∈ map → (k, n) ∈ kvs → Rel s n) : Rel (.dict sk map) (.dict kvs)

end

variable {dbg : Bool} {F : FloatOps} {K : List UInt8 → Prop}

theorem KeysFine.inj {sk : Option SharedKeys} (h : KeysFine K sk) {k k' : List UInt8} (hk : K k) (hk' : K k')
    (he : mutEncodeKey sk k = mutEncodeKey sk k') : k = k' :=
  mutEncodeKey_inj (fun s hs => (h s hs).1) (fun s hs => (h s hs).2 k hk) (fun s hs => (h s hs).2 k' hk') he

theorem KeysFine.decode {sk : Option SharedKeys} (h : KeysFine K sk) {k : List UInt8} (hk : K k) :
    mutDecodeKey sk (mutEncodeKey sk k) = some k :=
  mutDecodeKey_encode (fun s hs => (h s hs).1) (fun s hs => (h s hs).2 k hk)

theorem Rel.isKind {s : Slot} {n : Node} (h : Rel dbg F K s n) (d : Bool) : s.isKind d = n.isKind d := by
  cases h <;> rfl

/-- The key of a selector is in `K`. -/
def Sel.Ok (K : List UInt8 → Prop) (x : Sel) : Prop := ∀ k, x = .key k → K k

/-- Elements correspond. -/
theorem Rel.child {s : Slot} {n : Node} (h : Rel dbg F K s n) {x : Sel} (hx : x.Ok K) :
    (s.child x = none ∧ n.child x = none) ∨ ∃ s' n', s.child x = some s' ∧ n.child x = some n' ∧ Rel dbg F K s' n' := by
  cases h with
  | inline h => exact .inl ⟨rfl, rfl⟩
  | boxed h => exact .inl ⟨rfl, rfl⟩
  | @arr l xs len rel =>
    cases x with
    | key k => exact .inl ⟨rfl, rfl⟩
    | idx i =>
      simp only [Slot.child, Node.child]
      rcases Nat.lt_or_ge i l.length with hi | hi
      · right
        have hi' : i < xs.length := by omega
        exact ⟨_, _, List.getElem?_eq_getElem hi, List.getElem?_eq_getElem hi',
          rel i _ _ (List.getElem?_eq_getElem hi) (List.getElem?_eq_getElem hi')⟩
      · left
        exact ⟨List.getElem?_eq_none hi, List.getElem?_eq_none (by omega)⟩
  | @dict sk map kvs fine sorted nodup keys to of rel =>
    cases x with
    | idx i => exact .inl ⟨rfl, rfl⟩
    | key k =>
      have hk : K k := hx k rfl
      simp only [Slot.child, Node.child]
      cases hm : mapGet (mutEncodeKey sk k) map with
      | none =>
        left
        refine ⟨rfl, ?_⟩
        cases hl : Node.lookup k kvs with
        | none => rfl
        | some n =>
          obtain ⟨s, hs⟩ := to k n ((lookup_iff nodup).mp hl)
          rw [(mapGet_iff sorted).mpr hs] at hm; cases hm
      | some s =>
        right
        have hm := (mapGet_iff sorted).mp hm
        obtain ⟨k', n, h1, h2⟩ := of _ _ hm
        have : k = k' := fine.inj hk (keys _ _ h1) h2
        subst this
        exact ⟨s, n, rfl, (lookup_iff nodup).mpr h1, rel k s n hm h1⟩

/-- Storing under a key. -/
theorem Rel.insert {sk : Option SharedKeys} {map : List (Key × Slot)} {kvs : List (List UInt8 × Node)}
    (h : Rel dbg F K (.dict sk map) (.dict kvs)) {k : List UInt8} (hk : K k) {s : Slot} {n : Node} (hs : Rel dbg F K s n) :
    Rel dbg F K (.dict sk (mapInsert (mutEncodeKey sk k) s map)) (.dict (Node.assign k n kvs)) := by
  cases h with
  | dict fine sorted nodup keys to of rel =>
    refine .dict fine (mapInsert_sorted sorted _ _) (assign_nodup nodup _ _) ?_ ?_ ?_ ?_
    · intro k' n' hm
      rcases mem_assign.mp hm with ⟨rfl, _⟩ | ⟨_, hm⟩
      · exact hk
      · exact keys _ _ hm
    · intro k' n' hm
      rcases mem_assign.mp hm with ⟨rfl, _⟩ | ⟨hne, hm⟩
      · exact ⟨s, (mem_mapInsert sorted).mpr (.inl ⟨rfl, rfl⟩)⟩
      · obtain ⟨s', hs'⟩ := to _ _ hm
        exact ⟨s', (mem_mapInsert sorted).mpr (.inr ⟨fun e => hne (fine.inj (keys _ _ hm) hk e), hs'⟩)⟩
    · intro key s' hm
      rcases (mem_mapInsert sorted).mp hm with ⟨rfl, _⟩ | ⟨hne, hm⟩
      · exact ⟨k, n, mem_assign.mpr (.inl ⟨rfl, rfl⟩), rfl⟩
      · obtain ⟨k', n', h1, h2⟩ := of _ _ hm
        refine ⟨k', n', mem_assign.mpr (.inr ⟨?_, h1⟩), h2⟩
        rintro rfl; exact hne h2
    · intro k' s' n' hm hn
      rcases mem_assign.mp hn with ⟨rfl, rfl⟩ | ⟨hne, hn⟩
      · rcases (mem_mapInsert sorted).mp hm with ⟨_, rfl⟩ | ⟨hne, _⟩
        · exact hs
        · exact absurd rfl hne
      · rcases (mem_mapInsert sorted).mp hm with ⟨he, _⟩ | ⟨_, hm⟩
        · exact absurd (fine.inj (keys _ _ hn) hk he) hne
        · exact rel _ _ _ hm hn

/-- Deleting a key. -/
theorem Rel.erase {sk : Option SharedKeys} {map : List (Key × Slot)} {kvs : List (List UInt8 × Node)}
    (h : Rel dbg F K (.dict sk map) (.dict kvs)) {k : List UInt8} (hk : K k) :
    Rel dbg F K (.dict sk (mapRemove (mutEncodeKey sk k) map)) (.dict (Node.without k kvs)) := by
  cases h with
  | dict fine sorted nodup keys to of rel =>
    refine .dict fine (mapRemove_sorted sorted _) (without_nodup nodup _) ?_ ?_ ?_ ?_
    · intro k' n' hm
      exact keys _ _ (mem_without.mp hm).2
    · intro k' n' hm
      obtain ⟨hne, hm⟩ := mem_without.mp hm
      obtain ⟨s', hs'⟩ := to _ _ hm
      exact ⟨s', (mem_mapRemove sorted).mpr ⟨fun e => hne (fine.inj (keys _ _ hm) hk e), hs'⟩⟩
    · intro key s' hm
      obtain ⟨hne, hm⟩ := (mem_mapRemove sorted).mp hm
      obtain ⟨k', n', h1, h2⟩ := of _ _ hm
      refine ⟨k', n', mem_without.mpr ⟨?_, h1⟩, h2⟩
      rintro rfl; exact hne h2
    · intro k' s' n' hm hn
      exact rel _ _ _ ((mem_mapRemove sorted).mp hm).2 (mem_without.mp hn).2

/-- Changing an element of an array. -/
theorem Rel.setAt {l : List Slot} {xs : List Node} (h : Rel dbg F K (.arr l) (.arr xs)) (i : Nat) {s : Slot} {n : Node}
    (hs : Rel dbg F K s n) : Rel dbg F K (.arr (l.set i s)) (.arr (xs.set i n)) := by
  cases h with
  | arr len rel =>
    refine .arr (by simpa using len) ?_
    intro j s' n' h1 h2
    rw [List.getElem?_set] at h1 h2
    split at h1
    · split at h1
      · rw [if_pos (by assumption), if_pos (by omega)] at h2
        cases h1; cases h2; exact hs
      · cases h1
    · rw [if_neg (by assumption)] at h2
      exact rel j s' n' h1 h2

/-- Outcomes correspond; `none` is a panic. -/
def RelOut (dbg : Bool) (F : FloatOps) (K : List UInt8 → Prop) (r : Exec Slot) (o : Option Node) : Prop :=
  match o with
  | none => r = .panic
  | some n => ∃ s, r = .ok s ∧ Rel dbg F K s n

theorem Rel.put {s : Slot} {n : Node} (h : Rel dbg F K s n) {x : Slot} {y : Node} (hx : Rel dbg F K x y) {p : Slot.Place}
    (hp : ∀ k, p = .insert k → K k) : RelOut dbg F K (Slot.put p x s) (Node.put p y n) := by
  cases h with
  | inline h => exact ⟨_, rfl, .inline h⟩
  | boxed h => exact ⟨_, rfl, .boxed h⟩
  | @arr l xs len rel =>
    cases p with
    | set i =>
      simp only [Slot.put, Node.put, len]
      split
      · exact ⟨_, rfl, (Rel.arr len rel).setAt i hx⟩
      · rfl
    | push =>
      refine ⟨_, rfl, .arr (by simp [len]) ?_⟩
      intro i s n h1 h2
      rw [List.getElem?_append] at h1 h2
      split at h1
      · rw [if_pos (by omega)] at h2; exact rel i s n h1 h2
      · rw [if_neg (by omega)] at h2
        rw [List.getElem?_singleton] at h1 h2
        split at h1
        · rw [if_pos (by omega)] at h2; cases h1; cases h2; exact hx
        · cases h1
    | insert k => exact ⟨_, rfl, .arr len rel⟩
  | dict fine sorted nodup keys to of rel =>
    cases p with
    | set i => exact ⟨_, rfl, .dict fine sorted nodup keys to of rel⟩
    | push => exact ⟨_, rfl, .dict fine sorted nodup keys to of rel⟩
    | insert k => exact ⟨_, rfl, (Rel.dict fine sorted nodup keys to of rel).insert (hp k rfl) hx⟩

theorem Rel.remove {s : Slot} {n : Node} (h : Rel dbg F K s n) {x : Sel} (hx : x.Ok K) :
    RelOut dbg F K (s.remove x) (n.remove x) := by
  cases h with
  | inline h => exact ⟨_, rfl, .inline h⟩
  | boxed h => exact ⟨_, rfl, .boxed h⟩
  | @arr l xs len rel =>
    cases x with
    | key k => exact ⟨_, rfl, .arr len rel⟩
    | idx i =>
      simp only [Slot.remove, Node.remove]
      split
      · refine ⟨_, rfl, ?_⟩
        rw [List.eraseIdx_of_length_le (by omega)]
        exact .arr len rel
      · refine ⟨_, rfl, .arr ?_ ?_⟩
        · rw [List.length_eraseIdx, List.length_eraseIdx, len]
        · intro j s n h1 h2
          rw [List.getElem?_eraseIdx] at h1 h2
          split at h1
          · rw [if_pos (by assumption)] at h2; exact rel _ _ _ h1 h2
          · rw [if_neg (by assumption)] at h2; exact rel _ _ _ h1 h2
  | dict fine sorted nodup keys to of rel =>
    cases x with
    | idx i => exact ⟨_, rfl, .dict fine sorted nodup keys to of rel⟩
    | key k => exact ⟨_, rfl, (Rel.dict fine sorted nodup keys to of rel).erase (hx k rfl)⟩

/-- A change somewhere below. -/
theorem Rel.update {f : Slot → Exec Slot} {g : Node → Option Node}
    (hfg : ∀ s n, Rel dbg F K s n → RelOut dbg F K (f s) (g n)) (path : List Hop) {s : Slot} {n : Node}
    (hp : Hop.Keys K path) (h : Rel dbg F K s n) : RelOut dbg F K (s.update f path) (n.update g path) := by
  induction path generalizing s n with
  | nil => exact hfg s n h
  | cons hop path ih =>
    have hsel : hop.sel.Ok K := fun k hk => hp hop (List.mem_cons_self ..) k hk
    have hp' : Hop.Keys K path := fun h' hm => hp h' (List.mem_cons_of_mem _ hm)
    simp only [Slot.update, Node.update]
    rcases h.child hsel with ⟨h1, h2⟩ | ⟨c, c', h1, h2, hc⟩
    · rw [h1, h2]; exact ⟨s, rfl, h⟩
    · rw [h1, h2]
      dsimp only
      rw [hc.isKind]
      split
      · have := ih hp' hc
        cases hu : c'.update g path with
        | none =>
          rw [hu] at this
          have this : c.update f path = .panic := this
          rw [this]; rfl
        | some d' =>
          rw [hu] at this
          obtain ⟨d, hd, hr⟩ := this
          rw [hd]
          simp only [ok_bind, Option.map_some]
          cases hsl : hop.sel with
          | idx i =>
            rw [hsl] at h1
            cases h with
            | inline _ => cases h1
            | boxed _ => cases h1
            | arr len rel => exact ⟨_, rfl, (Rel.arr len rel).setAt i hr⟩
            | dict _ _ _ _ _ _ _ => cases h1
          | key k =>
            rw [hsl] at h1
            cases h with
            | inline _ => cases h1
            | boxed _ => cases h1
            | arr _ _ => cases h1
            | dict fine sorted nodup keys to of rel =>
              exact ⟨_, rfl, (Rel.dict fine sorted nodup keys to of rel).insert (hsel k hsl) hr⟩
      · exact ⟨s, rfl, h⟩

/-! ## Clones -/

theorem cloneList_eq (l : List Slot) : Slot.cloneList l = l.map Slot.clone := by
  induction l with
  | nil => rfl
  | cons s r ih => simp [Slot.cloneList, ih]

theorem mem_cloneMap {r new : List (Key × Slot)} (hr : Sorted r) (hn : Sorted new) :
    Sorted (Slot.cloneMap r new) ∧ ∀ k s', (k, s') ∈ Slot.cloneMap r new ↔
      (∃ s, (k, s) ∈ r ∧ s' = s.clone) ∨ ((∀ s, (k, s) ∉ r) ∧ (k, s') ∈ new) := by
  induction r generalizing new with
  | nil => exact ⟨hn, fun k s' => by simp [Slot.cloneMap]⟩
  | cons e r ih =>
    obtain ⟨k0, s0⟩ := e
    obtain ⟨h1, h2⟩ := List.pairwise_cons.mp hr
    obtain ⟨g1, g2⟩ := ih h2 (mapInsert_sorted hn k0 s0.clone)
    refine ⟨by simpa only [Slot.cloneMap] using g1, fun k s' => ?_⟩
    simp only [Slot.cloneMap]
    rw [g2, mem_mapInsert hn]
    have hno : ∀ s, (k0, s) ∉ r := fun s hm => Key.lt_irrefl _ (h1 (k0, s) hm)
    constructor
    · rintro (⟨s, hm, rfl⟩ | ⟨hno', ⟨rfl, rfl⟩ | ⟨hne, hm⟩⟩)
      · exact .inl ⟨s, List.mem_cons_of_mem _ hm, rfl⟩
      · exact .inl ⟨s0, List.mem_cons_self .., rfl⟩
      · refine .inr ⟨fun s hs => ?_, hm⟩
        rcases List.mem_cons.mp hs with he | hs
        · cases he; exact hne rfl
        · exact hno' s hs
    · rintro (⟨s, hm, rfl⟩ | ⟨hno', hm⟩)
      · rcases List.mem_cons.mp hm with he | hm
        · cases he
          exact .inr ⟨hno, .inl ⟨rfl, rfl⟩⟩
        · exact .inl ⟨s, hm, rfl⟩
      · refine .inr ⟨fun s hs => hno' s (List.mem_cons_of_mem _ hs), .inr ⟨?_, hm⟩⟩
        rintro rfl; exact hno' s0 (List.mem_cons_self ..)

theorem Rel.clone {s : Slot} {n : Node} (h : Rel dbg F K s n) : Rel dbg F K s.clone n := by
  induction h with
  | inline h => simp only [Slot.clone]; exact .inline h
  | boxed h => simp only [Slot.clone]; exact .boxed h
  | arr len rel ih =>
    simp only [Slot.clone, cloneList_eq]
    refine .arr (by simpa using len) ?_
    intro i s n h1 h2
    rw [List.getElem?_map, Option.map_eq_some_iff] at h1
    obtain ⟨s', h1, rfl⟩ := h1
    exact ih i s' n h1 h2
  | dict fine sorted nodup keys to of rel ih =>
    simp only [Slot.clone]
    obtain ⟨g1, g2⟩ := mem_cloneMap sorted (new := []) List.Pairwise.nil
    simp only [List.not_mem_nil, and_false, or_false] at g2
    refine .dict fine g1 nodup keys ?_ ?_ ?_
    · intro k n hm
      obtain ⟨s, hs⟩ := to k n hm
      exact ⟨s.clone, (g2 _ _).mpr ⟨s, hs, rfl⟩⟩
    · intro key s hm
      obtain ⟨s', hs', _⟩ := (g2 _ _).mp hm
      exact of key s' hs'
    · intro k s n hm hn
      obtain ⟨s', hs', rfl⟩ := (g2 _ _).mp hm
      exact ih k s' n hs' hn

end Fleece
