import Verif.Spec.Mutable
import Verif.Proofs.KeyOrder

/-! # The map of a mutable dict: membership -/

namespace Fleece

theorem Key.cmp_compares (a b : Key) : Key.Compares a b (a.cmp b) := by
  cases a with
  | shared a =>
    cases b with
    | shared b => exact cmpNat_compares a b
    | string b => exact trivial
  | string a =>
    cases b with
    | shared b => exact trivial
    | string b => exact cmpBytes_compares a b

/-- Keys in increasing order. -/
def Sorted (map : List (Key × Slot)) : Prop := map.Pairwise fun a b => Key.Lt a.1 b.1

theorem Key.ne_of_lt {a b : Key} (h : Key.Lt a b) : a ≠ b := fun e => Key.lt_irrefl b (e ▸ h)

theorem Key.cmp_self (k : Key) : k.cmp k = .eq := by
  have hc := Key.cmp_compares k k
  cases h : k.cmp k with
  | eq => rfl
  | lt => rw [h] at hc; exact absurd hc (Key.lt_irrefl k)
  | gt => rw [h] at hc; exact absurd hc (Key.lt_irrefl k)

theorem mapGet_iff {map : List (Key × Slot)} (hs : Sorted map) {k : Key} {s : Slot} :
    mapGet k map = some s ↔ (k, s) ∈ map := by
  induction map with
  | nil => simp [mapGet]
  | cons e r ih =>
    obtain ⟨k', s'⟩ := e
    obtain ⟨h1, h2⟩ := List.pairwise_cons.mp hs
    simp only [mapGet]
    have hc := Key.cmp_compares k k'
    cases hcmp : k.cmp k' with
    | lt =>
      rw [hcmp] at hc
      simp only [List.mem_cons, Prod.mk.injEq, false_iff, reduceCtorEq]
      rintro (⟨rfl, rfl⟩ | hm)
      · exact Key.lt_irrefl _ hc
      · exact Key.lt_irrefl _ (Key.lt_trans hc (h1 _ hm))
    | eq =>
      rw [hcmp] at hc
      have hc : k = k' := hc
      subst hc
      simp only [List.mem_cons, Prod.mk.injEq, Option.some.injEq, true_and]
      refine ⟨fun h => .inl h.symm, ?_⟩
      rintro (h | hm)
      · exact h.symm
      · exact absurd (h1 _ hm) (Key.lt_irrefl _)
    | gt =>
      rw [hcmp] at hc
      simp only [List.mem_cons, Prod.mk.injEq]
      rw [ih h2]
      refine ⟨.inr, ?_⟩
      rintro (⟨rfl, rfl⟩ | hm)
      · exact absurd hc (Key.lt_irrefl _)
      · exact hm

theorem mem_mapInsert {map : List (Key × Slot)} (hs : Sorted map) {k k' : Key} {s s' : Slot} :
    (k', s') ∈ mapInsert k s map ↔ (k' = k ∧ s' = s) ∨ (k' ≠ k ∧ (k', s') ∈ map) := by
  induction map with
  | nil => simp [mapInsert]
  | cons e r ih =>
    obtain ⟨k0, s0⟩ := e
    obtain ⟨h1, h2⟩ := List.pairwise_cons.mp hs
    simp only [mapInsert]
    have hc := Key.cmp_compares k k0
    have hgt : ∀ x, (x, s') ∈ r → Key.Lt k0 x := fun x hx => h1 _ hx
    cases hcmp : k.cmp k0 with
    | lt =>
      rw [hcmp] at hc
      have hc : Key.Lt k k0 := hc
      simp only [List.mem_cons, Prod.mk.injEq]
      constructor
      · rintro (h | ⟨rfl, rfl⟩ | hm)
        · exact .inl h
        · exact .inr ⟨(Key.ne_of_lt hc).symm, .inl ⟨rfl, rfl⟩⟩
        · exact .inr ⟨(Key.ne_of_lt (Key.lt_trans hc (hgt _ hm))).symm, .inr hm⟩
      · rintro (h | ⟨_, h⟩)
        · exact .inl h
        · exact .inr h
    | eq =>
      rw [hcmp] at hc
      have hc : k = k0 := hc
      subst hc
      simp only [List.mem_cons, Prod.mk.injEq]
      constructor
      · rintro (h | hm)
        · exact .inl h
        · exact .inr ⟨(Key.ne_of_lt (hgt _ hm)).symm, .inr hm⟩
      · rintro (h | ⟨hne, ⟨rfl, _⟩ | hm⟩)
        · exact .inl h
        · exact absurd rfl hne
        · exact .inr hm
    | gt =>
      rw [hcmp] at hc
      have hc : Key.Lt k0 k := hc
      simp only [List.mem_cons, Prod.mk.injEq]
      rw [ih h2]
      constructor
      · rintro (⟨rfl, rfl⟩ | h | ⟨hne, hm⟩)
        · exact .inr ⟨Key.ne_of_lt hc, .inl ⟨rfl, rfl⟩⟩
        · exact .inl h
        · exact .inr ⟨hne, .inr hm⟩
      · rintro (h | ⟨hne, h | hm⟩)
        · exact .inr (.inl h)
        · exact .inl h
        · exact .inr (.inr ⟨hne, hm⟩)

theorem mapInsert_sorted {map : List (Key × Slot)} (hs : Sorted map) (k : Key) (s : Slot) : Sorted (mapInsert k s map) := by
  induction map with
  | nil => simp [mapInsert, Sorted]
  | cons e r ih =>
    obtain ⟨k0, s0⟩ := e
    obtain ⟨h1, h2⟩ := List.pairwise_cons.mp hs
    simp only [mapInsert]
    have hc := Key.cmp_compares k k0
    cases hcmp : k.cmp k0 with
    | lt =>
      rw [hcmp] at hc
      have hc : Key.Lt k k0 := hc
      refine List.pairwise_cons.mpr ⟨?_, hs⟩
      intro a ha
      rcases List.mem_cons.mp ha with rfl | ha
      · exact hc
      · exact Key.lt_trans hc (h1 a ha)
    | eq =>
      rw [hcmp] at hc
      have hc : k = k0 := hc
      subst hc
      exact List.pairwise_cons.mpr ⟨h1, h2⟩
    | gt =>
      rw [hcmp] at hc
      have hc : Key.Lt k0 k := hc
      refine List.pairwise_cons.mpr ⟨?_, ih h2⟩
      rintro ⟨k', s'⟩ ha
      rcases (mem_mapInsert h2).mp ha with ⟨rfl, _⟩ | ⟨_, hm⟩
      · exact hc
      · exact h1 _ hm

theorem mapRemove_sub {map : List (Key × Slot)} {k : Key} : (mapRemove k map).Sublist map := by
  induction map with
  | nil => exact .slnil
  | cons e r ih =>
    simp only [mapRemove]
    cases k.cmp e.1 with
    | lt => exact List.Sublist.refl _
    | eq => exact List.sublist_cons_self _ _
    | gt => exact ih.cons_cons _

theorem mapRemove_sorted {map : List (Key × Slot)} (hs : Sorted map) (k : Key) : Sorted (mapRemove k map) :=
  List.Pairwise.sublist mapRemove_sub hs

theorem mem_mapRemove {map : List (Key × Slot)} (hs : Sorted map) {k k' : Key} {s' : Slot} :
    (k', s') ∈ mapRemove k map ↔ k' ≠ k ∧ (k', s') ∈ map := by
  induction map with
  | nil => simp [mapRemove]
  | cons e r ih =>
    obtain ⟨k0, s0⟩ := e
    obtain ⟨h1, h2⟩ := List.pairwise_cons.mp hs
    simp only [mapRemove]
    have hc := Key.cmp_compares k k0
    have hgt : ∀ x, (x, s') ∈ r → Key.Lt k0 x := fun x hx => h1 _ hx
    cases hcmp : k.cmp k0 with
    | lt =>
      rw [hcmp] at hc
      have hc : Key.Lt k k0 := hc
      refine ⟨fun h => ⟨?_, h⟩, fun h => h.2⟩
      simp only [List.mem_cons, Prod.mk.injEq] at h
      rcases h with ⟨rfl, rfl⟩ | hm
      · exact (Key.ne_of_lt hc).symm
      · exact (Key.ne_of_lt (Key.lt_trans hc (hgt _ hm))).symm
    | eq =>
      rw [hcmp] at hc
      have hc : k = k0 := hc
      subst hc
      simp only [List.mem_cons, Prod.mk.injEq]
      constructor
      · exact fun hm => ⟨(Key.ne_of_lt (hgt _ hm)).symm, .inr hm⟩
      · rintro ⟨hne, ⟨rfl, _⟩ | hm⟩
        · exact absurd rfl hne
        · exact hm
    | gt =>
      rw [hcmp] at hc
      have hc : Key.Lt k0 k := hc
      simp only [List.mem_cons, Prod.mk.injEq]
      rw [ih h2]
      constructor
      · rintro (⟨rfl, rfl⟩ | ⟨hne, hm⟩)
        · exact ⟨Key.ne_of_lt hc, .inl ⟨rfl, rfl⟩⟩
        · exact ⟨hne, .inr hm⟩
      · rintro ⟨hne, h | hm⟩
        · exact .inl h
        · exact .inr ⟨hne, hm⟩

/-- The keys are distinct. -/
theorem Sorted.unique {map : List (Key × Slot)} (hs : Sorted map) {k : Key} {s s' : Slot} (h : (k, s) ∈ map)
    (h' : (k, s') ∈ map) : s = s' := by
  have h := (mapGet_iff hs).mpr h
  rw [(mapGet_iff hs).mpr h'] at h
  exact (Option.some.inj h).symm

/-! ## The same for the specification -/

theorem lookup_iff {kvs : List (List UInt8 × Node)} (hn : (kvs.map (·.1)).Nodup) {k : List UInt8} {n : Node} :
    Node.lookup k kvs = some n ↔ (k, n) ∈ kvs := by
  unfold Node.lookup
  induction kvs with
  | nil => simp
  | cons e r ih =>
    obtain ⟨k0, n0⟩ := e
    simp only [List.map_cons, List.nodup_cons, List.mem_map, not_exists, not_and] at hn
    by_cases hk : k0 = k
    · subst hk
      simp only [List.find?_cons, beq_self_eq_true, Option.map_some, Option.some.injEq, List.mem_cons, Prod.mk.injEq, true_and]
      refine ⟨fun h => .inl h.symm, ?_⟩
      rintro (h | h)
      · exact h.symm
      · exact absurd rfl (hn.1 _ h)
    · rw [List.find?_cons_of_neg (by simpa using hk), ih hn.2]
      simp only [List.mem_cons, Prod.mk.injEq]
      refine ⟨.inr, ?_⟩
      rintro (⟨rfl, _⟩ | h)
      · exact absurd rfl hk
      · exact h

theorem mem_without {kvs : List (List UInt8 × Node)} {k k' : List UInt8} {n : Node} :
    (k', n) ∈ Node.without k kvs ↔ k' ≠ k ∧ (k', n) ∈ kvs := by
  unfold Node.without
  simp [and_comm]

theorem without_nodup {kvs : List (List UInt8 × Node)} (hn : (kvs.map (·.1)).Nodup) (k : List UInt8) :
    ((Node.without k kvs).map (·.1)).Nodup := by
  unfold Node.without
  exact List.Pairwise.sublist (List.Sublist.map _ List.filter_sublist) hn

theorem mem_assign {kvs : List (List UInt8 × Node)} {k k' : List UInt8} {n n' : Node} :
    (k', n') ∈ Node.assign k n kvs ↔ (k' = k ∧ n' = n) ∨ (k' ≠ k ∧ (k', n') ∈ kvs) := by
  unfold Node.assign
  rw [List.mem_cons, mem_without, Prod.mk.injEq]

theorem assign_nodup {kvs : List (List UInt8 × Node)} (hn : (kvs.map (·.1)).Nodup) (k : List UInt8) (n : Node) :
    ((Node.assign k n kvs).map (·.1)).Nodup := by
  unfold Node.assign
  simp only [List.map_cons, List.nodup_cons]
  refine ⟨?_, without_nodup hn k⟩
  intro h
  rw [List.mem_map] at h
  obtain ⟨⟨k', n'⟩, h1, h2⟩ := h
  exact (mem_without.mp h1).1 h2

/-! ## Keys -/

/-- No two keys in `K` share an encoding. -/
theorem mutEncodeKey_inj {sk : Option SharedKeys} (h : ∀ s, sk = some s → s.WF) {k k' : List UInt8}
    (hk : ∀ s, sk = some s → KeyKept s k) (hk' : ∀ s, sk = some s → KeyKept s k')
    (he : mutEncodeKey sk k = mutEncodeKey sk k') : k = k' := by
  cases sk with
  | none => exact Key.string.inj he
  | some s =>
    have hw := h s rfl
    simp only [mutEncodeKey, Option.bind_some] at he
    cases h1 : s.encode k with
    | none =>
      cases h2 : s.encode k' with
      | none => rw [h1, h2] at he; exact Key.string.inj he
      | some c => rw [h1, h2] at he; cases he
    | some c =>
      cases h2 : s.encode k' with
      | none => rw [h1, h2] at he; cases he
      | some c' =>
        rw [h1, h2] at he
        cases he
        rcases hk s rfl with hz | hz
        · rcases hk' s rfl with hz' | hz'
          · have g1 := hw.lookup_iff.mp h1
            have g2 := hw.lookup_iff.mp h2
            rw [hz] at g1; rw [hz'] at g2
            rw [g1] at g2
            exact Option.some.inj g2
          · rw [hz'] at h2; cases h2
        · rw [hz] at h1; cases h1

/-- Such a key decodes to itself. -/
theorem mutDecodeKey_encode {sk : Option SharedKeys} (h : ∀ s, sk = some s → s.WF) {k : List UInt8}
    (hk : ∀ s, sk = some s → KeyKept s k) : mutDecodeKey sk (mutEncodeKey sk k) = some k := by
  cases sk with
  | none => rfl
  | some s =>
    simp only [mutEncodeKey, Option.bind_some]
    cases h1 : s.encode k with
    | none => rfl
    | some c =>
      have g1 := (h s rfl).lookup_iff.mp h1
      rcases hk s rfl with hz | hz
      · rw [hz] at g1
        simp only [mutDecodeKey, Option.bind_some]
        exact g1
      · rw [hz] at h1; cases h1

end Fleece
