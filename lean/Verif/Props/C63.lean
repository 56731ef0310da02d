import Verif.Proofs.Threads
import Verif.Props.C08

/-! # C63 Lookups and registrations on several threads take effect one at a time -/

namespace Fleece.Props
open Fleece Fleece.Threads

/-- Thread `t` makes a call at `i`, which begins at `p`, and returns from it at `j`. -/
structure Call {n : Nat} (h : History n) (t i j : Nat) (p : Pc) (r : Ret) : Prop where
  before : ∃ x, (h.state i).pcs[t]? = some (.ret x)
  begins : (h.state (i + 1)).pcs[t]? = some p
  order : i < j
  busy : ∀ k, i < k → k ≤ j → ∀ x, (h.state k).pcs[t]? ≠ some (.ret x)
  ends : (h.state (j + 1)).pcs[t]? = some (.ret r)

/-- The answer is the right one at the instant `k`. -/
def RightAt {n : Nat} (h : History n) (k a : Nat) (x : Option Nat) : Prop := ∀ id, x = some id ↔ Owns (h.book k) id a

/-- What a step does to a thread in a lookup. -/
inductive Moves (w w' : World) : Pc → Pc → Prop where
  | lock {a u} : Moves w w' (.findWait a u) (.findGet a u)
  | fail {a u} : Moves w w' (.findWait a u) (.ret .panic)
  | get {a u} : Moves w w' (.findGet a u) (.findUpgrade a u (w.map a))
  | none {a u} : Moves w w' (.findUpgrade a u none) (.findOut a u none)
  | dead {a u id} (h : w.strong id = 0) : Moves w w' (.findUpgrade a u (some id)) (.findOut a u none)
  | some {a u id} (h : 0 < w.strong id) : Moves w w' (.findUpgrade a u (some id)) (.findOut a u (some id))
  | out {a id} (h : 0 < w'.held id) : Moves w w' (.findOut a true (some id)) (.ret (.found (some id)))
  | outNone {a} : Moves w w' (.findOut a true none) (.ret (.found none))
  | keysNone {a} : Moves w w' (.findOut a false none) (.ret (.keys none))
  | keysSome {a id} : Moves w w' (.findOut a false (some id)) (.keysClone id)
  | keysClone {id s} (h : w.cells[id]? = some s) : Moves w w' (.keysClone id) (.keysDrop id s.sk)
  | keysDrop {id k} : Moves w w' (.keysDrop id k) (.ret (.keys k))

def Looking : Pc → Prop
  | .findWait _ _ | .findGet _ _ | .findUpgrade _ _ _ | .findOut _ _ _ | .keysClone _ | .keysDrop _ _ => True
  | _ => False

theorem set_get {l : List Pc} {t t' : Nat} {p q x : Pc} (h : l[t']? = some p) (hx : l[t]? = some x) :
    (t = t' ∧ x = p ∧ (l.set t' q)[t]? = some q) ∨ (l.set t' q)[t]? = some x := by
  by_cases h1 : t = t'
  · subst h1
    rw [h] at hx; cases hx
    exact .inl ⟨rfl, rfl, List.getElem?_set_self (List.getElem?_eq_some_iff.mp h).1⟩
  · rw [List.getElem?_set_ne (Ne.symm h1)]; exact .inr hx

theorem step_moves {w w' : World} {e : Option ScopeOp} (hs : Step w e w') {t : Nat} {p : Pc} (hp : w.pcs[t]? = some p)
    (hl : Looking p) : w'.pcs[t]? = some p ∨ ∃ p', w'.pcs[t]? = some p' ∧ Moves w w' p p' := by
  have key : ∀ {t' : Nat} {q q' : Pc}, w.pcs[t']? = some q → w'.pcs = w.pcs.set t' q' → (Looking q → Moves w w' q q') →
      w'.pcs[t]? = some p ∨ ∃ p', w'.pcs[t]? = some p' ∧ Moves w w' p p' := by
    intro t' q q' h hset hm
    rcases set_get (q := q') h hp with ⟨_, rfl, h3⟩ | h3
    · exact .inr ⟨q', by rw [hset]; exact h3, hm hl⟩
    · exact .inl (by rw [hset]; exact h3)
  cases hs with
  | rest => exact .inl hp
  | clone h => exact .inl hp
  | drop h => exact .inl hp
  | callNew h _ => exact key h rfl (fun hf => hf.elim)
  | callRemove h _ => exact key h rfl (fun hf => hf.elim)
  | callFind h => exact key h rfl (fun hf => hf.elim)
  | newLock h _ _ => exact key h rfl (fun hf => hf.elim)
  | newFail h _ _ => exact key h rfl (fun hf => hf.elim)
  | newRoot h _ => exact key h rfl (fun hf => hf.elim)
  | newRootPanic h _ => exact key h rfl (fun hf => hf.elim)
  | newMake h _ => exact key h rfl (fun hf => hf.elim)
  | newMakeEmpty h _ => exact key h rfl (fun hf => hf.elim)
  | newInsert h _ => exact key h rfl (fun hf => hf.elim)
  | newOut h => exact key h rfl (fun hf => hf.elim)
  | removeLock h _ _ => exact key h rfl (fun hf => hf.elim)
  | removeFail h _ _ => exact key h rfl (fun hf => hf.elim)
  | removeMap h _ => exact key h rfl (fun hf => hf.elim)
  | removeOut h => exact key h rfl (fun hf => hf.elim)
  | findLock h _ _ => exact key h rfl (fun _ => .lock)
  | findFail h _ _ => exact key h rfl (fun _ => .fail)
  | findGet h => exact key h rfl (fun _ => .get)
  | findNone h => exact key h rfl (fun _ => .none)
  | findDead h hd => exact key h rfl (fun _ => .dead hd)
  | findSome h hd => exact key h rfl (fun _ => .some hd)
  | findOut h => exact key h rfl (fun _ => .out (by simp [World.give]))
  | findOutNone h => exact key h rfl (fun _ => .outNone)
  | keysNone h => exact key h rfl (fun _ => .keysNone)
  | keysSome h => exact key h rfl (fun _ => .keysSome)
  | keysClone h hc => exact key h rfl (fun _ => .keysClone hc)
  | keysDrop h => exact key h rfl (fun _ => .keysDrop)

/-- What `Weak::upgrade` gives is the answer of the registry of Model/Scope.lean. -/
theorem right_now {n : Nat} {h : History n} (ha : h.Apart) {k t a : Nat} {u : Bool} {e x : Option Nat}
    (hp : (h.state k).pcs[t]? = some (.findUpgrade a u e)) (hm : Moves (h.state k) (h.state (k + 1)) (.findUpgrade a u e) (.findOut a u x)) :
    RightAt h k a x := by
  have hb := h.booked ha k
  have hs := hb.seen t a u e hp
  obtain ⟨y, h1, h2⟩ := hb.keeps.containing a
  have hx : y = x := by
    unfold Registry.containing at h1
    have h3 : ((h.state k).abs (h.book k).length).map a = e := hs
    rw [if_neg (by simp [World.abs]), h3] at h1
    cases hm with
    | none => cases h1; rfl
    | @dead _ _ id hd =>
      obtain ⟨o, g1, _⟩ := hb.keeps.sound a id h3
      obtain ⟨_, s, _, g2, _⟩ := hb.owner (List.getElem?_eq_some_iff.mp g1).1
      simp only [abs_get, if_pos (List.getElem?_eq_some_iff.mp g1).1, g2, Option.map_some, Cell.entry] at h1
      unfold World.strong at hd
      rw [g2] at hd
      simp at hd
      simp [hd] at h1
      exact h1.symm
    | @some _ _ id hd =>
      obtain ⟨o, g1, _⟩ := hb.keeps.sound a id h3
      obtain ⟨_, s, _, g2, _⟩ := hb.owner (List.getElem?_eq_some_iff.mp g1).1
      simp only [abs_get, if_pos (List.getElem?_eq_some_iff.mp g1).1, g2, Option.map_some, Cell.entry] at h1
      unfold World.strong at hd
      rw [g2] at hd
      simp at hd
      simp [hd] at h1
      exact h1.symm
  subst hx
  exact h2

theorem book_sk {n : Nat} (h : History n) {k k' id : Nat} {o : Owner} (hk : k ≤ k') (ho : (h.book k)[id]? = some o) :
    ∃ o', (h.book k')[id]? = some o' ∧ o'.sk = o.sk := by
  induction hk with
  | refl => exact ⟨o, ho, rfl⟩
  | @step j _ ih =>
    obtain ⟨o', h1, h2⟩ := ih
    rw [h.book_succ]
    cases h.event j with
    | none => exact ⟨o', h1, h2⟩
    | some op =>
      cases op with
      | new m sk =>
        refine ⟨o', ?_, h2⟩
        simp only [next, bookStep]
        rw [List.getElem?_append_left (List.getElem?_eq_some_iff.mp h1).1]; exact h1
      | remove id' =>
        refine ⟨_, by simp only [next, bookStep, modify_get, h1, Option.map_some]; rfl, ?_⟩
        split <;> exact h2
      | drop id' =>
        refine ⟨_, by simp only [next, bookStep, modify_get, h1, Option.map_some]; rfl, ?_⟩
        split <;> exact h2

/-- What is known of a lookup of `a` since `i`, at `k`. -/
def Look {n : Nat} (h : History n) (a i k : Nat) (u : Bool) : Pc → Prop
  | .findWait a' u' | .findGet a' u' | .findUpgrade a' u' _ => a' = a ∧ u' = u
  | .findOut a' u' x => a' = a ∧ u' = u ∧ ∃ k', i < k' ∧ k' < k ∧ RightAt h k' a x
  | .keysClone id => u = false ∧ ∃ k', i < k' ∧ k' < k ∧ RightAt h k' a (some id)
  | .keysDrop id s => u = false ∧ ∃ k', i < k' ∧ k' < k ∧ RightAt h k' a (some id) ∧ ∃ o, (h.book k')[id]? = some o ∧ o.sk = s
  | .ret .panic => True
  | .ret (.found x) => u = true ∧ (∀ id, x = some id → 0 < (h.state k).held id) ∧ ∃ k', i < k' ∧ k' < k ∧ RightAt h k' a x
  | .ret (.keys s) => u = false ∧ ∃ k', i < k' ∧ k' < k ∧ ∃ x, RightAt h k' a x ∧
      ((x = none ∧ s = none) ∨ ∃ id o, x = some id ∧ (h.book k')[id]? = some o ∧ o.sk = s)
  | _ => False

theorem Look.step {n : Nat} {h : History n} (ha : h.Apart) {t a i k : Nat} {u : Bool} {p : Pc} (hik : i < k)
    (hp : (h.state k).pcs[t]? = some p) (hl : Look h a i k u p) (hn : ∀ r, p ≠ .ret r) :
    ∃ p', (h.state (k + 1)).pcs[t]? = some p' ∧ Look h a i (k + 1) u p' := by
  have hlook : Looking p := by
    cases p with
    | ret r => exact absurd rfl (hn r)
    | findWait | findGet | findUpgrade | findOut | keysClone | keysDrop => trivial
    | _ => exact hl
  rcases step_moves (h.step k) hp hlook with h1 | ⟨p', h1, hm⟩
  · refine ⟨p, h1, ?_⟩
    cases p with
    | ret r => exact absurd rfl (hn r)
    | findWait | findGet | findUpgrade => exact hl
    | findOut => obtain ⟨g1, g2, k', g3, g4, g5⟩ := hl; exact ⟨g1, g2, k', g3, by omega, g5⟩
    | keysClone => obtain ⟨g2, k', g3, g4, g5⟩ := hl; exact ⟨g2, k', g3, by omega, g5⟩
    | keysDrop => obtain ⟨g2, k', g3, g4, g5⟩ := hl; exact ⟨g2, k', g3, by omega, g5⟩
    | _ => exact hl.elim
  · refine ⟨p', h1, ?_⟩
    cases hm with
    | lock => exact hl
    | fail => trivial
    | get => exact hl
    | none =>
      obtain ⟨rfl, g2⟩ := hl
      exact ⟨rfl, g2, k, hik, by omega, right_now ha hp .none⟩
    | dead hd =>
      obtain ⟨rfl, g2⟩ := hl
      exact ⟨rfl, g2, k, hik, by omega, right_now ha hp (.dead hd)⟩
    | some hd =>
      obtain ⟨rfl, g2⟩ := hl
      exact ⟨rfl, g2, k, hik, by omega, right_now ha hp (.some hd)⟩
    | out hh =>
      obtain ⟨rfl, rfl, k', g3, g4, g5⟩ := hl
      exact ⟨rfl, fun id hx => by cases hx; exact hh, k', g3, by omega, g5⟩
    | outNone =>
      obtain ⟨rfl, rfl, k', g3, g4, g5⟩ := hl
      exact ⟨rfl, (by intro id hx; cases hx), k', g3, by omega, g5⟩
    | keysNone =>
      obtain ⟨rfl, rfl, k', g3, g4, g5⟩ := hl
      exact ⟨rfl, k', g3, by omega, none, g5, .inl ⟨rfl, rfl⟩⟩
    | keysSome =>
      obtain ⟨rfl, rfl, k', g3, g4, g5⟩ := hl
      exact ⟨rfl, k', g3, by omega, g5⟩
    | @keysClone id s hc =>
      obtain ⟨g2, k', g3, g4, g5⟩ := hl
      refine ⟨g2, k', g3, by omega, g5, ?_⟩
      obtain ⟨o, ho, _⟩ := (g5 id).mp rfl
      refine ⟨o, ho, ?_⟩
      obtain ⟨o', ho', hsk⟩ := book_sk h (Nat.le_of_lt g4) ho
      obtain ⟨o'', s', e1, e2, _, e3, _⟩ := (h.booked ha k).owner (List.getElem?_eq_some_iff.mp ho').1
      rw [ho'] at e1; cases e1
      rw [hc] at e2; cases e2
      rw [← hsk, e3]
    | @keysDrop id s =>
      obtain ⟨g2, k', g3, g4, g5, o, g6, g7⟩ := hl
      exact ⟨g2, k', g3, by omega, some id, g5, .inr ⟨id, o, rfl, g6, g7⟩⟩

theorem Look.call {n : Nat} {h : History n} (ha : h.Apart) {t i j a : Nat} {u : Bool} {r : Ret}
    (hc : Call h t i j (.findWait a u) r) : Look h a i (j + 1) u (.ret r) := by
  have main : ∀ d, i + 1 + d ≤ j + 1 → ∃ p, (h.state (i + 1 + d)).pcs[t]? = some p ∧ Look h a i (i + 1 + d) u p := by
    intro d
    induction d with
    | zero => exact fun _ => ⟨_, hc.begins, rfl, rfl⟩
    | succ d ih =>
      intro hd
      obtain ⟨p, h1, h2⟩ := ih (by omega)
      refine Look.step (k := i + 1 + d) ha (by omega) h1 h2 ?_
      rintro r rfl
      exact hc.busy (i + 1 + d) (by omega) (by omega) r h1
  have hij := hc.order
  obtain ⟨p, h1, h2⟩ := main (j - i) (by omega)
  have he : i + 1 + (j - i) = j + 1 := by omega
  rw [he] at h1 h2
  rw [hc.ends] at h1; cases h1
  exact h2

/-- **C63.** Any number of threads call `Scope::new`, `Scope::remove`, `Scope::containing` and `Scope::find_shared_keys`, and clone
and drop their `Arc<Scope>`s, in any order; every new scope has a buffer of its own. A call `Scope::containing(a)` that returns gives
the answer that was right at some instant between call and return: the scope that was then live, un-removed and over `a`, or `None` if
there was none. If it returns a scope, its caller has an `Arc` of it. -/
theorem C63_containing {n : Nat} {h : History n} (ha : h.Apart) {t i j a : Nat} {r : Ret}
    (hc : Call h t i j (.findWait a true) r) :
    r = .panic ∨ ∃ x, r = .found x ∧ (∀ id, x = some id → 0 < (h.state (j + 1)).held id) ∧
      ∃ k, i < k ∧ k ≤ j ∧ ∀ id, x = some id ↔ Owns (h.book k) id a := by
  have hl := Look.call ha hc
  cases r with
  | panic => exact .inl rfl
  | found x =>
    obtain ⟨_, h1, k, h2, h3, h4⟩ := hl
    exact .inr ⟨x, rfl, h1, k, h2, by omega, h4⟩
  | keys s => cases hl.1
  | unit => exact hl.elim
  | scope id => exact hl.elim

/-- **C63, shared keys.** `Scope::find_shared_keys(a)` gives the keys of the scope that owned `a` at some instant of the call, and `None`
if there was none. -/
theorem C63_shared_keys {n : Nat} {h : History n} (ha : h.Apart) {t i j a : Nat} {r : Ret}
    (hc : Call h t i j (.findWait a false) r) :
    r = .panic ∨ ∃ s, r = .keys s ∧ ∃ k, i < k ∧ k ≤ j ∧
      (∀ id o, Owns (h.book k) id a → (h.book k)[id]? = some o → s = o.sk) ∧ ((∀ id, ¬ Owns (h.book k) id a) → s = none) := by
  have hl := Look.call ha hc
  cases r with
  | panic => exact .inl rfl
  | found x => cases hl.1
  | keys s =>
    obtain ⟨_, k, h2, h3, x, h4, h5⟩ := hl
    refine .inr ⟨s, rfl, k, h2, by omega, ?_, ?_⟩
    · intro id o ho hb
      have hx := (h4 id).mpr ho
      rcases h5 with ⟨h6, _⟩ | ⟨id', o', h6, h7, h8⟩
      · rw [h6] at hx; cases hx
      · rw [h6] at hx; cases hx
        rw [hb] at h7; cases h7
        exact h8.symm
    · intro hno
      rcases h5 with ⟨_, h6⟩ | ⟨id', o', h6, _⟩
      · exact h6
      · exact absurd ((h4 id').mp h6) (hno id')
  | unit => exact hl.elim
  | scope id => exact hl.elim

/-- What has happened to the set of scopes, in order. -/
def events {n : Nat} (h : History n) : Nat → List ScopeOp
  | 0 => []
  | i + 1 => events h i ++ (h.event i).toList

theorem bookRun_snoc (b : List Owner) (l l' : List ScopeOp) : bookRun b (l ++ l') = bookRun (bookRun b l) l' := by
  induction l generalizing b with
  | nil => rfl
  | cons op l ih => exact ih _

theorem legalRun_snoc {b : List Owner} {l l' : List ScopeOp} (h : LegalRun b l) (h' : LegalRun (bookRun b l) l') :
    LegalRun b (l ++ l') := by
  induction l generalizing b with
  | nil => exact h'
  | cons op l ih => exact ⟨h.1, ih h.2 h'⟩

theorem events_book {n : Nat} (h : History n) (i : Nat) : bookRun [] (events h i) = h.book i := by
  induction i with
  | zero => rfl
  | succ i ih =>
    rw [events, bookRun_snoc, ih, h.book_succ]
    cases h.event i <;> rfl

theorem events_legal {n : Nat} {h : History n} (ha : h.Apart) (i : Nat) : LegalRun [] (events h i) := by
  induction i with
  | zero => trivial
  | succ i ih =>
    refine legalRun_snoc ih ?_
    rw [events_book]
    cases he : h.event i with
    | none => trivial
    | some op => exact ⟨h.legal ha i op he, trivial⟩

/-- **C63, one at a time.** The changes of all threads, in the order they happen, are a legal history in the sense of C35, and a lookup
returns what `Scope::containing` returns in Model/Scope.lean after the changes up to some instant of the call. -/
theorem C63_sequential {n : Nat} {h : History n} (ha : h.Apart) :
    (∀ k, LegalRun [] (events h k)) ∧ ∀ t i j a x, Call h t i j (.findWait a true) (.found x) →
      ∃ k, i < k ∧ k ≤ j ∧ (Registry.run {} (events h k)).1.containing a = .ok x := by
  refine ⟨events_legal ha, fun t i j a x hc => ?_⟩
  rcases C63_containing ha hc with h1 | ⟨y, h1, _, k, h2, h3, h4⟩
  · cases h1
  · cases h1
    refine ⟨k, h2, h3, ?_⟩
    obtain ⟨z, g1, g2⟩ := (C35_containing (events h k) (events_legal ha k)).2 a
    rw [events_book] at g2
    rw [g1]
    congr 1
    cases x with
    | none =>
      cases z with
      | none => rfl
      | some id => exact absurd ((h4 id).mpr ((g2 id).mp rfl)) (by simp)
    | some id => exact (g2 id).mpr ((h4 id).mp rfl)

/-- **C63, no use after free.** Every `Arc<Scope>` a user has is of a scope that lives. -/
theorem C63_arc {n : Nat} {h : History n} (ha : h.Apart) (k id : Nat) (hh : 0 < (h.state k).held id) :
    ∃ o, (h.book k)[id]? = some o ∧ o.live = true := by
  have hi := h.inv k
  refine (h.booked ha k).live (hi.held_live hh) ?_
  intro t ht
  have := (hi.alone ht).1
  omega

/-- **C63, exclusion.** While a thread changes the map, no other thread is in a step that changes or reads it. -/
theorem C63_exclusion {n : Nat} (h : History n) (k t t' : Nat) (p q : Pc) (hp : (h.state k).pcs[t]? = some p)
    (hq : (h.state k).pcs[t']? = some q) (hne : t ≠ t') (hw : p.writes = true) : q.writes = false ∧ q.reads = false :=
  (h.inv k).excl t t' p q hp hq hne hw

/-! ## No deadlock -/

/-- Thread `t` can go on. -/
def CanGo (w : World) (t : Nat) : Prop := ∃ e w' p, Step w e w' ∧ w'.pcs[t]? = some p ∧ w.pcs[t]? ≠ some p

theorem canGo {w w' : World} {e : Option ScopeOp} {t : Nat} {p q : Pc} (h : w.pcs[t]? = some p) (hs : Step w e w')
    (hw : w'.pcs = w.pcs.set t q) (hne : p ≠ q) : CanGo w t :=
  ⟨e, w', q, hs, by rw [hw]; exact List.getElem?_set_self (List.getElem?_eq_some_iff.mp h).1,
    by rw [h]; intro hx; cases hx; exact hne rfl⟩

/-- A thread that waits for nothing. -/
theorem goes {w : World} (hi : Inv w) {t : Nat} {p : Pc} (h : w.pcs[t]? = some p) (hn : ∀ r, p ≠ .ret r)
    (hw : ∀ m sk, p ≠ .newWait m sk) (hr : ∀ id, p ≠ .removeWait id) (hf : ∀ a u, p ≠ .findWait a u) : CanGo w t := by
  have cell : ∀ id, 0 < p.uses id → ∃ s, w.cells[id]? = some s := fun id hu => by
    obtain ⟨s, h1, _⟩ := cell_of_strong (hi.uses_live h hu); exact ⟨s, h1⟩
  cases p with
  | ret r => exact absurd rfl (hn r)
  | newWait m sk => exact absurd rfl (hw m sk)
  | removeWait id => exact absurd rfl (hr id)
  | findWait a u => exact absurd rfl (hf a u)
  | newRoot m sk =>
    rcases hi.fine t _ h with ⟨x, hx⟩ | hx
    · exact canGo h (.newRoot h hx) rfl (by simp)
    · exact canGo h (.newRootPanic h hx) rfl (by simp)
  | newMake m sk root =>
    by_cases hd : m.data = []
    · exact canGo h (.newMakeEmpty h hd) rfl (by simp)
    · exact canGo h (.newMake h hd) rfl (by simp)
  | newInsert id => obtain ⟨s, hs⟩ := cell id (by simp); exact canGo h (.newInsert h hs) rfl (by simp)
  | newOut id => exact canGo h (.newOut h) rfl (by simp)
  | removeMap id => obtain ⟨s, hs⟩ := cell id (by simp); exact canGo h (.removeMap h hs) rfl (by simp)
  | removeOut id => exact canGo h (.removeOut h) rfl (by simp)
  | findGet a u => exact canGo h (.findGet h) rfl (by simp)
  | findUpgrade a u e =>
    cases e with
    | none => exact canGo h (.findNone h) rfl (by simp)
    | some id =>
      rcases Nat.eq_zero_or_pos (w.strong id) with hz | hz
      · exact canGo h (.findDead h hz) rfl (by simp)
      · exact canGo h (.findSome h hz) rfl (by simp)
  | findOut a u x =>
    cases u <;> cases x
    · exact canGo h (.keysNone h) rfl (by simp)
    · exact canGo h (.keysSome h) rfl (by simp)
    · exact canGo h (.findOutNone h) rfl (by simp)
    · exact canGo h (.findOut h) rfl (by simp)
  | keysClone id => obtain ⟨s, hs⟩ := cell id (by simp); exact canGo h (.keysClone h hs) rfl (by simp)
  | keysDrop id k => exact canGo h (.keysDrop h) rfl (by simp)

/-- **C63, no deadlock.** Whenever a thread is in a call, some thread that is in a call can go on. -/
theorem C63_progress {n : Nat} (h : History n) (k t : Nat) (p : Pc) (hp : (h.state k).pcs[t]? = some p) (hn : ∀ r, p ≠ .ret r) :
    ∃ (t' : Nat) (q : Pc), (h.state k).pcs[t']? = some q ∧ (∀ r, q ≠ .ret r) ∧ CanGo (h.state k) t' := by
  have hi := h.inv k
  generalize h.state k = w at *
  by_cases hlock : ∃ (t' : Nat) (q : Pc), w.pcs[t']? = some q ∧ (q.writes = true ∨ q.reads = true)
  · obtain ⟨t', q, h1, h2⟩ := hlock
    have hret : ∀ r, q ≠ .ret r := by rintro r rfl; simp [Pc.writes, Pc.reads] at h2
    exact ⟨t', q, h1, hret, goes hi h1 hret (by rintro m sk rfl; simp [Pc.writes, Pc.reads] at h2)
      (by rintro id rfl; simp [Pc.writes, Pc.reads] at h2) (by rintro a u rfl; simp [Pc.writes, Pc.reads] at h2)⟩
  · have hfree : w.writeFree := by
      intro q hq
      obtain ⟨t', h1⟩ := List.getElem?_of_mem hq
      refine ⟨?_, ?_⟩ <;> rw [Bool.eq_false_iff] <;> intro hx
      · exact hlock ⟨t', q, h1, .inl hx⟩
      · exact hlock ⟨t', q, h1, .inr hx⟩
    refine ⟨t, p, hp, hn, ?_⟩
    cases hpo : w.poisoned with
    | false =>
      cases p with
      | newWait m sk => exact canGo hp (.newLock hp hfree hpo) rfl (by simp)
      | removeWait id => exact canGo hp (.removeLock hp hfree hpo) rfl (by simp)
      | findWait a u => exact canGo hp (.findLock hp (fun q hq => (hfree q hq).1) hpo) rfl (by simp)
      | _ => exact goes hi hp hn (by simp) (by simp) (by simp)
    | true =>
      cases p with
      | newWait m sk => exact canGo hp (.newFail hp hfree hpo) rfl (by simp)
      | removeWait id => exact canGo hp (.removeFail hp hfree hpo) rfl (by simp)
      | findWait a u => exact canGo hp (.findFail hp (fun q hq => (hfree q hq).1) hpo) rfl (by simp)
      | _ => exact goes hi hp hn (by simp) (by simp) (by simp)

/-- How many steps a call has before it, at most. -/
def Left : Pc → Nat
  | .ret _ => 0
  | .newWait _ _ => 5 | .newRoot _ _ => 4 | .newMake _ _ _ => 3 | .newInsert _ => 2 | .newOut _ => 1
  | .removeWait _ => 3 | .removeMap _ => 2 | .removeOut _ => 1
  | .findWait _ _ => 6 | .findGet _ _ => 5 | .findUpgrade _ _ _ => 4 | .findOut _ _ _ => 3
  | .keysClone _ => 2 | .keysDrop _ _ => 1

/-- **C63, calls end.** No call loops or retries: there is a number, six at most, that every step of a thread in a call brings down, and
no step of another thread changes. -/
theorem C63_bounded : ∃ left : Pc → Nat, (∀ p, left p ≤ 6) ∧ ∀ (w w' : World) (e : Option ScopeOp) (t : Nat) (p : Pc),
    Step w e w' → w.pcs[t]? = some p → (∀ r, p ≠ .ret r) → w'.pcs[t]? = some p ∨ ∃ q, w'.pcs[t]? = some q ∧ left q < left p := by
  refine ⟨Left, fun p => by cases p <;> simp [Left], ?_⟩
  intro w w' e t p hs hp hn
  have key : ∀ {t' : Nat} {q q' : Pc}, w.pcs[t']? = some q → w'.pcs = w.pcs.set t' q' → ((∃ r, q = .ret r) ∨ Left q' < Left q) →
      w'.pcs[t]? = some p ∨ ∃ q, w'.pcs[t]? = some q ∧ Left q < Left p := by
    intro t' q q' h hset hm
    rcases set_get (q := q') h hp with ⟨_, rfl, h3⟩ | h3
    · rcases hm with ⟨r, rfl⟩ | hm
      · exact absurd rfl (hn r)
      · exact .inr ⟨q', by rw [hset]; exact h3, hm⟩
    · exact .inl (by rw [hset]; exact h3)
  cases hs with
  | rest => exact .inl hp
  | clone h => exact .inl hp
  | drop h => exact .inl hp
  | callNew h _ => exact key h rfl (.inl ⟨_, rfl⟩)
  | callRemove h _ => exact key h rfl (.inl ⟨_, rfl⟩)
  | callFind h => exact key h rfl (.inl ⟨_, rfl⟩)
  | newLock h _ _ | newFail h _ _ | newRoot h _ | newRootPanic h _ | newMake h _ | newMakeEmpty h _ | newInsert h _ | newOut h
  | removeLock h _ _ | removeFail h _ _ | removeMap h _ | removeOut h | findLock h _ _ | findFail h _ _ | findGet h | findNone h
  | findDead h _ | findSome h _ | findOut h | findOutNone h | keysNone h | keysSome h | keysClone h _ | keysDrop h =>
    exact key h rfl (.inr (by simp [Left]))

/-! ## No panic -/

def Unharmed (w : World) : Prop := w.poisoned = false ∧ ∀ (t : Nat) (p : Pc), w.pcs[t]? = some p → match p with
  | .newRoot m _ => m.data ≠ [] ∧ Registry.rootOrNone m ≠ .panic
  | .newMake m _ _ => m.data ≠ []
  | .ret .panic => False
  | _ => True

/-- **C63, no panic.** If every `Scope::new` gets data, and `from_bytes` does not panic on it, no call ever panics, on any thread. -/
theorem C63_no_panic {n : Nat} (h : History n)
    (hd : ∀ (k t : Nat) (m : Mem) (sk : Option SharedKeys), (h.state k).pcs[t]? = some (.newWait m sk) →
      m.data ≠ [] ∧ Registry.rootOrNone m ≠ .panic) (k t : Nat) : (h.state k).pcs[t]? ≠ some (.ret .panic) := by
  suffices hu : Unharmed (h.state k) by
    intro hx; exact hu.2 t _ hx
  induction k with
  | zero =>
    rw [h.start]
    refine ⟨rfl, fun t p hp => ?_⟩
    cases List.eq_of_mem_replicate (List.mem_of_getElem? hp)
    trivial
  | succ k ih =>
    have hs := h.step k
    have hdk := hd k
    generalize h.event k = e at hs
    generalize h.state (k + 1) = w' at *
    generalize h.state k = w at *
    obtain ⟨h1, h2⟩ := ih
    have key : ∀ {t' : Nat} {q q' : Pc}, w.pcs[t']? = some q → w'.pcs = w.pcs.set t' q' → w'.poisoned = w.poisoned →
        (match q' with
          | .newRoot m _ => m.data ≠ [] ∧ Registry.rootOrNone m ≠ .panic
          | .newMake m _ _ => m.data ≠ []
          | .ret .panic => False
          | _ => True) → Unharmed w' := by
      intro t' q q' hq hset hpo hm
      refine ⟨hpo.trans h1, fun t p hp => ?_⟩
      rw [hset] at hp
      rcases get_set hq hp with ⟨_, rfl⟩ | ⟨_, g⟩
      · exact hm
      · exact h2 t p g
    cases hs with
    | rest => exact ⟨h1, h2⟩
    | clone _ => exact ⟨h1, h2⟩
    | drop _ => exact ⟨h1, h2⟩
    | newLock g _ _ => exact key g rfl rfl (hdk _ _ _ g)
    | newFail g _ bad => rw [h1] at bad; cases bad
    | newRoot g _ => exact key g rfl rfl (h2 _ _ g).1
    | newRootPanic g bad => exact absurd bad (h2 _ _ g).2
    | newMakeEmpty g e => exact absurd e (h2 _ _ g)
    | removeFail g _ bad => rw [h1] at bad; cases bad
    | findFail g _ bad => rw [h1] at bad; cases bad
    | callNew g _ | callRemove g _ | callFind g | newMake g _ | newInsert g _ | newOut g | removeLock g _ _ | removeMap g _ | removeOut g
    | findLock g _ _ | findGet g | findNone g | findDead g _ | findSome g _ | findOut g | findOutNone g | keysNone g | keysSome g
    | keysClone g _ | keysDrop g => exact key g rfl rfl trivial

/-- Before the lock. -/
def Waiting : Pc → Prop
  | .newWait _ _ | .removeWait _ | .findWait _ _ => True
  | _ => False

/-- What a step does to a thread, as far as panics are concerned. -/
def Harm (w w' : World) : Pc → Pc → Prop
  | .ret _, q' => Waiting q'
  | .newWait _ _, q' | .removeWait _, q' | .findWait _ _, q' => w.poisoned = true → q' = .ret .panic
  | q, q' => q' = .ret .panic → q.writes = true → w'.poisoned = true

theorem step_harm {w w' : World} {e : Option ScopeOp} (hs : Step w e w') : (w.poisoned = true → w'.poisoned = true) ∧
    ∀ (t : Nat) (p : Pc), w.pcs[t]? = some p → w'.pcs[t]? = some p ∨ ∃ p', w'.pcs[t]? = some p' ∧ Harm w w' p p' := by
  have key : ∀ {t' : Nat} {q q' : Pc}, w.pcs[t']? = some q → w'.pcs = w.pcs.set t' q' → (w.poisoned = true → w'.poisoned = true) →
      Harm w w' q q' → (w.poisoned = true → w'.poisoned = true) ∧
    ∀ (t : Nat) (p : Pc), w.pcs[t]? = some p → w'.pcs[t]? = some p ∨ ∃ p', w'.pcs[t]? = some p' ∧ Harm w w' p p' := by
    intro t' q q' h hset hpo hm
    refine ⟨hpo, fun t p hp => ?_⟩
    rcases set_get (q := q') h hp with ⟨_, rfl, h3⟩ | h3
    · exact .inr ⟨q', by rw [hset]; exact h3, hm⟩
    · exact .inl (by rw [hset]; exact h3)
  have no : ∀ {P : Prop}, w.poisoned = false → w.poisoned = true → P := fun h1 h2 => by rw [h1] at h2; cases h2
  cases hs with
  | rest => exact ⟨fun h => h, fun t p hp => .inl hp⟩
  | clone h => exact ⟨fun h => h, fun t p hp => .inl hp⟩
  | drop h => exact ⟨fun h => h, fun t p hp => .inl hp⟩
  | callNew h _ => exact key h rfl (fun h => h) trivial
  | callRemove h _ => exact key h rfl (fun h => h) trivial
  | callFind h => exact key h rfl (fun h => h) trivial
  | newLock h _ hs => exact key h rfl (fun h => h) (no hs)
  | newFail h _ _ => exact key h rfl (fun h => h) (fun _ => rfl)
  | newRoot h _ => exact key h rfl (fun h => h) nofun
  | newRootPanic h _ => exact key h rfl (fun _ => rfl) (fun _ _ => rfl)
  | newMake h _ => exact key h rfl (fun h => h) nofun
  | newMakeEmpty h _ => exact key h rfl (fun _ => rfl) (fun _ _ => rfl)
  | newInsert h _ => exact key h rfl (fun h => h) nofun
  | newOut h => exact key h rfl (fun h => h) nofun
  | removeLock h _ hs => exact key h rfl (fun h => h) (no hs)
  | removeFail h _ _ => exact key h rfl (fun h => h) (fun _ => rfl)
  | removeMap h _ => exact key h rfl (fun h => h) nofun
  | removeOut h => exact key h rfl (fun h => h) nofun
  | findLock h _ hs => exact key h rfl (fun h => h) (no hs)
  | findFail h _ _ => exact key h rfl (fun h => h) (fun _ => rfl)
  | findGet h => exact key h rfl (fun h => h) nofun
  | findNone h => exact key h rfl (fun h => h) nofun
  | findDead h _ => exact key h rfl (fun h => h) nofun
  | findSome h _ => exact key h rfl (fun h => h) nofun
  | findOut h => exact key h rfl (fun h => h) nofun
  | findOutNone h => exact key h rfl (fun h => h) nofun
  | keysNone h => exact key h rfl (fun h => h) nofun
  | keysSome h => exact key h rfl (fun h => h) nofun
  | keysClone h _ => exact key h rfl (fun h => h) nofun
  | keysDrop h => exact key h rfl (fun h => h) nofun

/-- **C63, one panic ends all.** When a call panics while it has the lock for writing, every call that any thread makes from then
on panics, whatever happens. -/
theorem C63_forever {n : Nat} {h : History n} {k t : Nat} {q : Pc} (hq : (h.state k).pcs[t]? = some q) (hw : q.writes = true)
    (hp : (h.state (k + 1)).pcs[t]? = some (.ret .panic)) {t' i j : Nat} {p : Pc} {r : Ret} (hc : Call h t' i j p r)
    (hki : k < i) : r = .panic := by
  have h0 : (h.state (k + 1)).poisoned = true := by
    rcases (step_harm (h.step k)).2 t q hq with h1 | ⟨q', h1, h2⟩
    · rw [hp] at h1; cases h1; cases hw
    · rw [hp] at h1; cases h1
      cases q <;> first | exact h2 rfl hw | cases hw
  have hall : ∀ d, (h.state (k + 1 + d)).poisoned = true := by
    intro d
    induction d with
    | zero => exact h0
    | succ d ih => exact (step_harm (h.step _)).1 ih
  have hpo : ∀ l, k < l → (h.state l).poisoned = true := fun l hl => by
    have := hall (l - (k + 1))
    rwa [show k + 1 + (l - (k + 1)) = l by omega] at this
  have stay : ∀ d, i + 1 + d ≤ j → ∃ p, (h.state (i + 1 + d)).pcs[t']? = some p ∧ Waiting p := by
    intro d
    induction d with
    | zero =>
      intro _
      obtain ⟨x, hx⟩ := hc.before
      rcases (step_harm (h.step i)).2 t' _ hx with h1 | ⟨q', h1, h2⟩
      · exact absurd h1 (hc.busy (i + 1) (by omega) hc.order x)
      · exact ⟨q', h1, h2⟩
    | succ d ih =>
      intro hd
      obtain ⟨p, h1, h2⟩ := ih (by omega)
      rcases (step_harm (h.step (i + 1 + d))).2 t' _ h1 with h3 | ⟨q', h3, h4⟩
      · exact ⟨p, h3, h2⟩
      · refine absurd ?_ (hc.busy (i + 1 + (d + 1)) (by omega) hd .panic)
        cases p <;> first | exact h2.elim | (rw [h4 (hpo _ (by omega))] at h3; exact h3)
  have hj := hc.order
  obtain ⟨p, h1, h2⟩ := stay (j - (i + 1)) (by omega)
  rw [show i + 1 + (j - (i + 1)) = j by omega] at h1
  have he := hc.ends
  rcases (step_harm (h.step j)).2 t' _ h1 with h3 | ⟨q', h3, h4⟩
  · rw [he] at h3; cases h3; exact h2.elim
  · rw [he] at h3; cases h3
    cases p <;> first | exact h2.elim | (have := h4 (hpo j (by omega)); cases this; rfl)

/-! ## A run

Thread 0 makes a scope and removes it; thread 1 looks it up twice. The first lookup comes between the call of `remove` and its effect. -/

/-- The states a run goes through, then rest. -/
def pathState : World → List (Option ScopeOp × World) → Nat → World
  | w, _, 0 => w
  | w, [], _ + 1 => w
  | _, (_, w) :: l, i + 1 => pathState w l i

def pathEvent : List (Option ScopeOp × World) → Nat → Option ScopeOp
  | [], _ => none
  | (e, _) :: _, 0 => e
  | _ :: l, i + 1 => pathEvent l i

def Path : World → List (Option ScopeOp × World) → Prop
  | _, [] => True
  | w, (e, w') :: l => Step w e w' ∧ Path w' l

theorem path_nil (w : World) (i : Nat) : pathState w [] i = w := by cases i <;> rfl

theorem path_step {w : World} {l : List (Option ScopeOp × World)} (h : Path w l) (i : Nat) :
    Step (pathState w l i) (pathEvent l i) (pathState w l (i + 1)) := by
  induction l generalizing w i with
  | nil => rw [path_nil, path_nil]; exact .rest
  | cons x l ih =>
    cases i with
    | zero =>
      have : pathState w (x :: l) 1 = x.2 := by cases l <;> rfl
      rw [this]; exact h.1
    | succ i => exact ih h.2 i

def demoBuf : Mem := ⟨[0x60, 0x00, 0x80, 0x01], 1000, true⟩

def d0 : World := .init 2
def d1 : World := (d0.goto 0 (.newWait demoBuf (some .new)))
def d2 : World := (d1.goto 0 (.newRoot demoBuf (some .new)))
def d3 : World := (d2.goto 0 (.newMake demoBuf (some .new) (some ⟨0, 2⟩)))
def d4 : World := { d3.goto 0 (.newInsert 0) with cells := [⟨some .new, demoBuf, some ⟨0, 2⟩, 1⟩] }
def d5 : World := { d4.goto 0 (.newOut 0) with map := fun a => if demoBuf.holds a then some 0 else d4.map a }
def d6 : World := ((d5.goto 0 (.ret (.scope 0))).give 0)
def d7 : World := (d6.goto 1 (.findWait 1001 true))
def d8 : World := ((d7.goto 0 (.removeWait 0)).take 0)
def d9 : World := (d8.goto 1 (.findGet 1001 true))
def d10 : World := (d9.goto 1 (.findUpgrade 1001 true (some 0)))
def d11 : World := ((d10.incr 0).goto 1 (.findOut 1001 true (some 0)))
def d12 : World := ((d11.goto 1 (.ret (.found (some 0)))).give 0)
def d13 : World := (d12.goto 0 (.removeMap 0))
def d14 : World := { d13.goto 0 (.removeOut 0) with map := fun a => if demoBuf.holds a then none else d13.map a }
def d15 : World := ((d14.goto 0 (.ret .unit)).give 0)
def d16 : World := (d15.goto 1 (.findWait 1001 false))
def d17 : World := (d16.goto 1 (.findGet 1001 false))
def d18 : World := (d17.goto 1 (.findUpgrade 1001 false none))
def d19 : World := (d18.goto 1 (.findOut 1001 false none))
def d20 : World := (d19.goto 1 (.ret (.keys none)))

def demoPath : List (Option ScopeOp × World) := [
  (none, d1), (none, d2), (none, d3), (none, d4), (some (.new demoBuf (some .new)), d5), (none, d6), (none, d7), (none, d8), (none, d9), (none, d10), (none, d11), (none, d12), (none, d13), (some (.remove 0), d14), (none, d15), (none, d16), (none, d17), (none, d18), (none, d19), (none, d20)]

theorem demo_path : Path d0 demoPath :=
  ⟨.callNew rfl (.inl ⟨_, rfl⟩),
    .newLock rfl (by unfold World.writeFree; decide +kernel) rfl,
    .newRoot rfl rfl,
    .newMake rfl (by decide),
    .newInsert (s := ⟨some .new, demoBuf, some ⟨0, 2⟩, 1⟩) rfl rfl,
    .newOut rfl,
    .callFind rfl,
    .callRemove rfl (by decide),
    .findLock rfl (by unfold World.readFree; decide +kernel) rfl,
    .findGet rfl,
    .findSome rfl (by decide),
    .findOut rfl,
    .removeLock rfl (by unfold World.writeFree; decide +kernel) rfl,
    .removeMap (s := ⟨some .new, demoBuf, some ⟨0, 2⟩, 2⟩) rfl rfl,
    .removeOut rfl,
    .callFind rfl,
    .findLock rfl (by unfold World.readFree; decide +kernel) rfl,
    .findGet rfl,
    .findNone rfl,
    .keysNone rfl, trivial⟩

def demo : History 2 := ⟨pathState d0 demoPath, pathEvent demoPath, rfl, path_step demo_path⟩

theorem demo_quiet (i : Nat) (h : 20 ≤ i) : demo.event i = none := by
  obtain ⟨j, rfl⟩ := Nat.exists_eq_add_of_le h
  rw [Nat.add_comm]
  rfl

theorem demo_apart : demo.Apart := by
  intro i m sk he o ho
  by_cases hi : i < 20
  · have : i = 4 := by
      match i with
      | 4 => rfl
      | 0 | 1 | 2 | 3 | 5 | 6 | 7 | 8 | 9 | 10 | 11 | 12 | 13 | 14 | 15 | 16 | 17 | 18 | 19 => cases he
      | i + 20 => omega
    subst this
    cases ho
  · rw [demo_quiet i (by omega)] at he; cases he

/-- The two lookups, of which one finds the scope and the other does not. -/
example : demo.Apart ∧ Call demo 1 6 11 (.findWait 1001 true) (.found (some 0)) ∧
    Call demo 1 15 19 (.findWait 1001 false) (.keys none) := by
  refine ⟨demo_apart, ⟨⟨_, rfl⟩, rfl, by omega, ?_, rfl⟩, ⟨⟨_, rfl⟩, rfl, by omega, ?_, rfl⟩⟩
  · intro k h1 h2 x hx
    match k with
    | 7 | 8 | 9 | 10 | 11 => cases hx
    | 0 | 1 | 2 | 3 | 4 | 5 | 6 => omega
    | k + 12 => omega
  · intro k h1 h2 x hx
    match k with
    | 16 | 17 | 18 | 19 => cases hx
    | 0 | 1 | 2 | 3 | 4 | 5 | 6 | 7 | 8 | 9 | 10 | 11 | 12 | 13 | 14 | 15 => omega
    | k + 20 => omega

/-- In it, a thread is in a call while another has the lock, and nothing panics. -/
example : (demo.state 9).pcs[0]? = some (.removeWait 0) ∧ (demo.state 13).pcs[0]?.map Pc.writes = some true ∧
    0 < (demo.state 12).held 0 := ⟨rfl, rfl, by decide⟩

/-- With an empty buffer instead, one call on one thread makes the calls of all others panic. -/
theorem C63_poison : ∃ h : History 2, (∃ m sk, m.data = [] ∧ (h.state 1).pcs[0]? = some (.newWait m sk)) ∧
    Call h 1 4 5 (.findWait 1001 true) .panic := by
  let m : Mem := ⟨[], 1000, true⟩
  let e0 : World := .init 2
  let e1 := e0.goto 0 (.newWait m none)
  let e2 := e1.goto 0 (.newRoot m none)
  let e3 := e2.goto 0 (.newMake m none none)
  let e4 : World := { e3.goto 0 (.ret .panic) with poisoned := true }
  let e5 := e4.goto 1 (.findWait 1001 true)
  let e6 := e5.goto 1 (.ret .panic)
  let l : List (Option ScopeOp × World) := [(none, e1), (none, e2), (none, e3), (none, e4), (none, e5), (none, e6)]
  have hl : Path e0 l := ⟨.callNew rfl (.inl ⟨_, rfl⟩), .newLock rfl (by unfold World.writeFree; decide +kernel) rfl,
    .newRoot rfl rfl, .newMakeEmpty rfl rfl, .callFind rfl, .findFail rfl (by unfold World.readFree; decide +kernel) rfl, trivial⟩
  refine ⟨⟨pathState e0 l, pathEvent l, rfl, path_step hl⟩, ⟨m, none, rfl, rfl⟩, ⟨_, rfl⟩, rfl, by omega, ?_, rfl⟩
  intro k h1 h2 x hx
  have : k = 5 := by omega
  subst this
  cases hx

/-- A history for `C63_forever`: four bytes of untrusted data on which `from_bytes` panics, the lock being held. -/
example : ∃ h : History 2, (∃ q, (h.state 2).pcs[0]? = some q ∧ q.writes = true) ∧
    (h.state 3).pcs[0]? = some (.ret .panic) ∧ Call h 1 3 4 (.findWait 1001 true) .panic := by
  let m : Mem := { data := [0x45, 0, 0x80, 0x01] }
  have hm : Registry.rootOrNone m = .panic := by simp only [Registry.rootOrNone, m, C08_panics.1]
  let e0 : World := .init 2
  let e1 := e0.goto 0 (.newWait m none)
  let e2 := e1.goto 0 (.newRoot m none)
  let e3 : World := { e2.goto 0 (.ret .panic) with poisoned := true }
  let e4 := e3.goto 1 (.findWait 1001 true)
  let e5 := e4.goto 1 (.ret .panic)
  let l : List (Option ScopeOp × World) := [(none, e1), (none, e2), (none, e3), (none, e4), (none, e5)]
  have hl : Path e0 l := ⟨.callNew rfl (.inr hm), .newLock rfl (by unfold World.writeFree; decide +kernel) rfl,
    .newRootPanic rfl hm, .callFind rfl, .findFail rfl (by unfold World.readFree; decide +kernel) rfl, trivial⟩
  refine ⟨⟨pathState e0 l, pathEvent l, rfl, path_step hl⟩, ⟨_, rfl, rfl⟩, rfl, ⟨_, rfl⟩, rfl, by omega, ?_, rfl⟩
  intro k h1 h2 x hx
  have : k = 4 := by omega
  subst this
  cases hx

end Fleece.Props
