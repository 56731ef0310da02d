import Verif.Spec.Scope

/-! # C35 Scope lookup finds exactly the live scope that owns the address -/

namespace Fleece.Props
open Fleece Res

/-- The registry agrees with the book. -/
structure Keeps (r : Registry) (b : List Owner) : Prop where
  sane : r.poisoned = false
  same : ∀ id : Nat, (r.scopes[id]?).map (fun s => (s.buf.base, s.buf.data.length, s.sk, s.alive)) =
    (b[id]?).map (fun o => (o.start, o.len, o.sk, o.live))
  apart : ∀ (i j : Nat) (o p : Owner), b[i]? = some o → b[j]? = some p → i ≠ j → o.live = true → p.live = true →
    o.start + o.len ≤ p.start ∨ p.start + p.len ≤ o.start
  sound : ∀ (a id : Nat), r.map a = some id → ∃ o : Owner, b[id]? = some o ∧ o.covers a ∧ (o.live = true → o.removed = false)
  complete : ∀ (a id : Nat) (o : Owner), b[id]? = some o → o.live = true → o.removed = false → o.covers a → r.map a = some id

theorem Keeps.empty : Keeps {} [] :=
  ⟨rfl, by simp, by simp, by simp, by simp⟩

theorem Keeps.length {r : Registry} {b : List Owner} (h : Keeps r b) : r.scopes.length = b.length := by
  apply Nat.le_antisymm
  · apply Nat.le_of_not_lt; intro hl
    have := h.same b.length
    rw [List.getElem?_eq_getElem hl, List.getElem?_eq_none (Nat.le_refl _)] at this
    cases this
  · apply Nat.le_of_not_lt; intro hl
    have := h.same r.scopes.length
    rw [List.getElem?_eq_getElem hl, List.getElem?_eq_none (Nat.le_refl _)] at this
    cases this

theorem holds_iff {m : Mem} {a : Nat} : m.holds a = true ↔ m.base ≤ a ∧ a < m.base + m.data.length := by
  unfold Mem.holds; simp

theorem modify_get {b : List Owner} {f : Owner → Owner} {id i : Nat} :
    (b.modify id f)[i]? = (b[i]?).map fun o => if id = i then f o else o := by
  rw [List.getElem?_modify]
  by_cases h : id = i <;> simp [h]

theorem Keeps.step {r : Registry} {b : List Owner} (h : Keeps r b) {op : ScopeOp} (hl : op.Legal b) :
    (r.step op).2 = .ok () ∧ Keeps (r.step op).1 (bookStep b op) := by
  cases op with
  | new m sk =>
    obtain ⟨hne, ⟨x, hx⟩, hap⟩ := hl
    have hlen := h.length
    have hpos : m.data.length ≠ 0 := by simpa using hne
    have hstep : r.step (.new m sk) = ({ r with
          scopes := r.scopes ++ [⟨sk, m, x, true⟩]
          map := fun a => if m.holds a then some r.scopes.length else r.map a }, .ok ()) := by
      simp only [Registry.step, Registry.new, h.sane, Bool.false_eq_true, if_false, hx]
      rw [if_neg hpos]
    rw [hstep]
    refine ⟨rfl, h.sane, ?_, ?_, ?_, ?_⟩
    · intro id
      simp only [bookStep, List.getElem?_append, hlen]
      split
      · exact h.same id
      · rw [List.getElem?_singleton, List.getElem?_singleton]
        split <;> rfl
    · intro i j o p hi hj hij ho hp
      simp only [bookStep, List.getElem?_append, List.getElem?_singleton] at hi hj
      split at hi
      · split at hj
        · exact h.apart i j o p hi hj hij ho hp
        · split at hj
          · cases hj
            rcases hap o (List.mem_of_getElem? hi) ho with h' | h'
            · right; exact h'
            · left; exact h'
          · cases hj
      · split at hi
        · cases hi
          split at hj
          · exact hap p (List.mem_of_getElem? hj) hp
          · split at hj
            · cases hj; omega
            · cases hj
        · cases hi
    · intro a id ha
      simp only at ha
      split at ha
      · next hm =>
        cases ha
        refine ⟨⟨m.base, m.data.length, sk, true, false⟩, ?_, holds_iff.mp hm, fun _ => rfl⟩
        simp [bookStep, hlen]
      · obtain ⟨o, h1, h2⟩ := h.sound a id ha
        refine ⟨o, ?_, h2⟩
        simp only [bookStep]
        rw [List.getElem?_append_left (List.getElem?_eq_some_iff.mp h1).1]; exact h1
    · intro a id o hi ho hr hc
      simp only [bookStep, List.getElem?_append, List.getElem?_singleton] at hi
      simp only
      split at hi
      · have := hap o (List.mem_of_getElem? hi) ho
        have hn : m.holds a = false := by
          rw [Bool.eq_false_iff]
          intro hm
          have := holds_iff.mp hm
          unfold Owner.covers at hc
          omega
        rw [hn]
        exact h.complete a id o hi ho hr hc
      · split at hi
        · next hlt hid =>
          cases hi
          rw [if_pos (holds_iff.mpr hc), hlen]
          congr 1; omega
        · cases hi
  | remove id =>
    obtain ⟨o, ho, hlive⟩ := hl
    have hs := h.same id
    rw [ho] at hs
    cases hsc : r.scopes[id]? with
    | none => rw [hsc] at hs; cases hs
    | some s =>
      rw [hsc] at hs
      simp only [Option.map_some, Option.some.injEq, Prod.mk.injEq] at hs
      obtain ⟨hs1, hs2, _⟩ := hs
      have hcov : ∀ a, s.buf.holds a = true ↔ o.covers a := by
        intro a; rw [holds_iff, hs1, hs2]; exact Iff.rfl
      have hstep : r.step (.remove id) = ({ r with map := fun a => if s.buf.holds a then none else r.map a }, .ok ()) := by
        simp only [Registry.step, hsc, Registry.remove, h.sane, Bool.false_eq_true, if_false]
      rw [hstep]
      refine ⟨rfl, h.sane, ?_, ?_, ?_, ?_⟩
      · intro i
        simp only [bookStep, modify_get]
        rw [h.same i, Option.map_map]
        congr 1
        funext q
        simp only [Function.comp]
        split <;> rfl
      · intro i j q p hi hj hij hq hp
        simp only [bookStep, modify_get, Option.map_eq_some_iff] at hi hj
        obtain ⟨q', hi, rfl⟩ := hi
        obtain ⟨p', hj, rfl⟩ := hj
        have := h.apart i j q' p' hi hj hij (by split at hq <;> exact hq) (by split at hp <;> exact hp)
        split <;> split <;> exact this
      · intro a i ha
        simp only at ha
        split at ha
        · cases ha
        · next hn =>
          obtain ⟨q, h1, h2, h3⟩ := h.sound a i ha
          have hne : id ≠ i := by
            rintro rfl
            rw [ho] at h1; cases h1
            exact hn ((hcov a).mpr h2)
          refine ⟨q, ?_, h2, h3⟩
          simp only [bookStep, modify_get, h1, Option.map_some, if_neg hne]
      · intro a i q hi hq hr hc
        simp only [bookStep, modify_get, Option.map_eq_some_iff] at hi
        obtain ⟨q', hi, rfl⟩ := hi
        by_cases hne : id = i
        · rw [if_pos hne] at hr; cases hr
        · rw [if_neg hne] at hq hr hc
          simp only
          have := h.apart id i o q' ho hi hne hlive hq
          have hn : s.buf.holds a = false := by
            rw [Bool.eq_false_iff]
            intro hm
            have := (hcov a).mp hm
            unfold Owner.covers at hc this
            omega
          rw [hn]
          exact h.complete a i q' hi hq hr hc
  | drop id =>
    have hget : ∀ i : Nat, (r.drop id).scopes[i]? = (r.scopes[i]?).map fun s => if i = id then { s with alive := false } else s := by
      intro i; simp [Registry.drop]
    refine ⟨rfl, h.sane, ?_, ?_, ?_, ?_⟩
    · intro i
      simp only [Registry.step, hget, bookStep, modify_get, Option.map_map]
      have := h.same i
      cases h1 : r.scopes[i]? with
      | none =>
        rw [h1] at this
        cases h2 : b[i]? with
        | none => rfl
        | some o => rw [h2] at this; cases this
      | some s =>
        rw [h1] at this
        cases h2 : b[i]? with
        | none => rw [h2] at this; cases this
        | some o =>
          rw [h2] at this
          simp only [Option.map_some, Option.some.injEq, Prod.mk.injEq, Function.comp] at this ⊢
          obtain ⟨g1, g2, g3, g4⟩ := this
          by_cases hid : i = id
          · subst hid; simp [g1, g2, g3]
          · rw [if_neg hid, if_neg (fun h => hid h.symm)]; exact ⟨g1, g2, g3, g4⟩
    · intro i j q p hi hj hij hq hp
      simp only [bookStep, modify_get, Option.map_eq_some_iff] at hi hj
      obtain ⟨q', hi, rfl⟩ := hi
      obtain ⟨p', hj, rfl⟩ := hj
      by_cases h1 : id = i
      · rw [if_pos h1] at hq; cases hq
      · by_cases h2 : id = j
        · rw [if_pos h2] at hp; cases hp
        · rw [if_neg h1] at hq ⊢
          rw [if_neg h2] at hp ⊢
          exact h.apart i j q' p' hi hj hij hq hp
    · intro a i ha
      obtain ⟨q, h1, h2, h3⟩ := h.sound a i ha
      refine ⟨if id = i then { q with live := false } else q, ?_, ?_, ?_⟩
      · simp only [bookStep, modify_get, h1, Option.map_some]
      · split <;> exact h2
      · split
        · intro hx; cases hx
        · exact h3
    · intro a i q hi hq hr hc
      simp only [bookStep, modify_get, Option.map_eq_some_iff] at hi
      obtain ⟨q', hi, rfl⟩ := hi
      by_cases hne : id = i
      · rw [if_pos hne] at hq; cases hq
      · rw [if_neg hne] at hq hr hc
        exact h.complete a i q' hi hq hr hc

theorem Keeps.run {r : Registry} {b : List Owner} (ops : List ScopeOp) (h : Keeps r b) (hl : LegalRun b ops) :
    (∀ x ∈ (r.run ops).2, x = .ok ()) ∧ Keeps (r.run ops).1 (bookRun b ops) := by
  induction ops generalizing r b with
  | nil => exact ⟨by simp [Registry.run], h⟩
  | cons op ops ih =>
    obtain ⟨h1, h2⟩ := h.step hl.1
    obtain ⟨h3, h4⟩ := ih h2 hl.2
    refine ⟨?_, h4⟩
    intro x hx
    simp only [Registry.run, List.mem_cons] at hx
    rcases hx with rfl | hx
    · exact h1
    · exact h3 x hx

/-- The two sides of the lookup. -/
theorem Keeps.containing {r : Registry} {b : List Owner} (h : Keeps r b) (a : Nat) :
    ∃ x, r.containing a = .ok x ∧ ∀ id, x = some id ↔ Owns b id a := by
  unfold Registry.containing
  rw [h.sane]
  simp only [Bool.false_eq_true, if_false]
  have hno : r.map a = none → ∀ id, ¬ Owns b id a := by
    rintro hm id ⟨o, h1, h2, h3, h4⟩
    rw [h.complete a id o h1 h2 h3 h4] at hm; cases hm
  cases hm : r.map a with
  | none => exact ⟨none, rfl, fun id => ⟨by simp, fun ho => absurd ho (hno hm id)⟩⟩
  | some id =>
    obtain ⟨o, h1, h2, h3⟩ := h.sound a id hm
    have hs := h.same id
    rw [h1] at hs
    cases hsc : r.scopes[id]? with
    | none => rw [hsc] at hs; cases hs
    | some s =>
      rw [hsc] at hs
      simp only [Option.map_some, Option.some.injEq, Prod.mk.injEq] at hs
      obtain ⟨_, _, _, hal⟩ := hs
      have huniq : ∀ id', Owns b id' a → id' = id := by
        rintro id' ⟨p, g1, g2, g3, g4⟩
        have := h.complete a id' p g1 g2 g3 g4
        rw [hm] at this; cases this; rfl
      dsimp only
      rw [hsc]
      dsimp only
      rw [hal]
      cases hlv : o.live with
      | false =>
        refine ⟨none, rfl, fun id' => ⟨by simp, ?_⟩⟩
        intro ho
        cases huniq id' ho
        obtain ⟨p, g1, g2, _⟩ := ho
        rw [h1] at g1; cases g1
        rw [hlv] at g2; cases g2
      | true =>
        refine ⟨some id, rfl, fun id' => ⟨?_, fun ho => by rw [huniq id' ho]⟩⟩
        rintro ⟨⟩
        exact ⟨o, h1, hlv, h3 hlv, h2⟩

/-- **C35.** After every legal history (scopes over non-empty buffers that do not overlap any live scope's; memory of
dropped scopes may be reused in any way): every call has returned, and `Scope::containing(a)` returns the live un-removed
scope whose buffer contains `a` if there is one, and `None` if there is none, for every address `a`. -/
theorem C35_containing (ops : List ScopeOp) (hl : LegalRun [] ops) :
    (∀ x ∈ (Registry.run {} ops).2, x = .ok ()) ∧ ∀ a, ∃ x, (Registry.run {} ops).1.containing a = .ok x ∧
      ∀ id, x = some id ↔ Owns (bookRun [] ops) id a := by
  obtain ⟨h1, h2⟩ := Keeps.run ops Keeps.empty hl
  exact ⟨h1, h2.containing⟩

/-- **C35, shared keys.** `find_shared_keys(a)` returns the keys of that scope, and nothing else. -/
theorem C35_shared_keys (ops : List ScopeOp) (hl : LegalRun [] ops) (a : Nat) :
    (∀ id o, Owns (bookRun [] ops) id a → (bookRun [] ops)[id]? = some o → (Registry.run {} ops).1.findSharedKeys a = .ok o.sk) ∧
      ((∀ id, ¬ Owns (bookRun [] ops) id a) → (Registry.run {} ops).1.findSharedKeys a = .ok none) := by
  obtain ⟨_, h⟩ := Keeps.run ops Keeps.empty hl
  obtain ⟨x, h1, h2⟩ := h.containing a
  unfold Registry.findSharedKeys
  rw [h1]
  simp only [ok_bind]
  refine ⟨fun id o ho hb => ?_, fun hn => ?_⟩
  · rw [(h2 id).mpr ho]
    simp only [pure_eq]
    have hs := h.same id
    rw [hb] at hs
    cases hsc : (Registry.run {} ops).1.scopes[id]? with
    | none => rw [hsc] at hs; cases hs
    | some s =>
      rw [hsc] at hs
      simp only [Option.map_some, Option.some.injEq, Prod.mk.injEq] at hs
      simp only [Option.bind_some]
      rw [hs.2.2.1]
  · cases x with
    | none => rfl
    | some id => exact absurd ((h2 id).mp rfl) (hn id)

/-- A scope at 1000, dropped without `remove`; its memory reused in part by a second and a third one; the third removed. -/
def reuse : List ScopeOp :=
  [.new ⟨[0x60, 0x00, 0x80, 0x01], 1000, true⟩ none, .drop 0, .new ⟨[0x60, 0x00, 0x80, 0x01], 1002, true⟩ (some .new),
    .new ⟨[0x60, 0x00, 0x80, 0x01], 998, true⟩ none, .remove 2]

example : LegalRun [] reuse ∧ Owns (bookRun [] reuse) 1 1003 ∧ (Registry.run {} reuse).1.containing 1003 = .ok (some 1) ∧
    (Registry.run {} reuse).1.containing 1001 = .ok none := by
  refine ⟨⟨⟨by simp, ⟨_, rfl⟩, by simp⟩, ⟨_, rfl, rfl⟩, ⟨by simp, ⟨_, rfl⟩, ?_⟩,
    ⟨by simp, ⟨_, rfl⟩, ?_⟩, ⟨_, rfl, rfl⟩, trivial⟩, ⟨_, rfl, rfl, rfl, by unfold Owner.covers; decide⟩,
    by decide +kernel, by decide +kernel⟩
  · simp [bookStep, List.modify]
  · simp [bookStep, List.modify]

/-- Outside the claim: two scopes over one `Arc<[u8]>`. The second hides the first, for good: also after it has been
dropped, the first is not found, though it is alive and owns the address. -/
theorem C35_shared_buffer : ∃ (m : Mem) (ops : List ScopeOp),
    ops = [.new m (some .new), .new m none, .drop 1] ∧ (∀ x ∈ (Registry.run {} ops).2, x = .ok ()) ∧
    Owns (bookRun [] ops) 0 m.base ∧ (Registry.run {} ops).1.containing m.base = .ok none := by
  refine ⟨⟨[0x60, 0x00, 0x80, 0x01], 1000, true⟩, _, rfl, ?_, ⟨_, rfl, rfl, rfl, by unfold Owner.covers; decide⟩,
    by decide +kernel⟩
  have : (Registry.run {} [ScopeOp.new ⟨[0x60, 0x00, 0x80, 0x01], 1000, true⟩ (some .new),
      .new ⟨[0x60, 0x00, 0x80, 0x01], 1000, true⟩ none, .drop 1]).2 = [.ok (), .ok (), .ok ()] := by decide +kernel
  rw [this]; simp

end Fleece.Props
