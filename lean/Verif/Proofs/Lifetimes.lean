import Verif.Spec.Lifetimes

/-!
# The counts are right (C66)
-/

namespace Fleece.Life
open Fleece Res

/-! ## Sums -/

theorem tot_append {α : Type} (f : α → Nat) (a b : List α) : tot f (a ++ b) = tot f a + tot f b := by
  induction a with
  | nil => simp [tot]
  | cons x a ih => simp only [List.cons_append, tot, ih]; omega

theorem tot_set {α : Type} (f : α → Nat) : ∀ (l : List α) (i : Nat) (a b : α), l[i]? = some a →
    tot f (l.set i b) + f a = tot f l + f b := by
  intro l
  induction l with
  | nil => intro i a b h; simp at h
  | cons x l ih =>
    intro i a b h
    cases i with
    | zero => simp at h; subst h; simp only [List.set_cons_zero, tot]; omega
    | succ i =>
      simp only [List.getElem?_cons_succ] at h
      have := ih i a b h
      simp only [List.set_cons_succ, tot]; omega

theorem tot_le {α : Type} (f : α → Nat) : ∀ (l : List α) (i : Nat) (a : α), l[i]? = some a → f a ≤ tot f l := by
  intro l
  induction l with
  | nil => intro i a h; simp at h
  | cons x l ih =>
    intro i a h
    cases i with
    | zero => simp at h; subst h; simp only [tot]; omega
    | succ i =>
      simp only [List.getElem?_cons_succ] at h
      have := ih i a h
      simp only [tot]; omega

theorem tot_pos {α : Type} (f : α → Nat) : ∀ (l : List α), 0 < tot f l → ∃ (i : Nat) (a : α), l[i]? = some a ∧ 0 < f a := by
  intro l
  induction l with
  | nil => intro h; simp [tot] at h
  | cons x l ih =>
    intro h
    by_cases hx : 0 < f x
    · exact ⟨0, x, rfl, hx⟩
    · simp only [tot] at h
      obtain ⟨i, a, hi, ha⟩ := ih (by omega)
      exact ⟨i + 1, a, by simpa using hi, ha⟩

theorem modify_eq_set {α : Type} (g : α → α) : ∀ (l : List α) (i : Nat) (a : α), l[i]? = some a →
    l.modify i g = l.set i (g a) := by
  intro l i a h
  apply List.ext_getElem?
  intro j
  have hi := (List.getElem?_eq_some_iff.mp h).1
  rw [List.getElem?_modify, List.getElem?_set]
  by_cases hj : i = j
  · subst hj; rw [h]; simp [hi]
  · simp [hj]

/-! ## Counts -/

theorem one_le (o : Option Loc) (l : Loc) : one o l ≤ 1 := by unfold one; split <;> omega
theorem one_none (l : Loc) : one none l = 0 := rfl
theorem one_self (l : Loc) : one (some l) l = 1 := by simp [one]

theorem strongOf_pos {α : Type} {l : List (Cell α)} {i : Nat} (h : 0 < strongOf l i) : ∃ c, l[i]? = some c ∧ c.strong = strongOf l i := by
  unfold strongOf at h ⊢
  cases hc : l[i]? with
  | none => simp [hc] at h
  | some c => exact ⟨c, rfl, rfl⟩

theorem strongOf_bump {α : Type} (f : Nat → Nat) {l : List (Cell α)} {i : Nat} (h : 0 < strongOf l i) (j : Nat) :
    strongOf (bump f l i) j = if i = j then f (strongOf l i) else strongOf l j := by
  obtain ⟨c, hc, hs⟩ := strongOf_pos h
  unfold bump
  rw [modify_eq_set _ _ _ _ hc, ← hs]
  have hi := (List.getElem?_eq_some_iff.mp hc).1
  unfold strongOf
  rw [List.getElem?_set]
  by_cases hj : i = j
  · subst hj; simp [hi]
  · simp [hj]

theorem strongOf_append {α : Type} (l : List (Cell α)) (a : α) (j : Nat) :
    strongOf (l ++ [⟨a, 1⟩]) j = strongOf l j + if j = l.length then 1 else 0 := by
  unfold strongOf
  by_cases hj : j < l.length
  · rw [List.getElem?_append_left hj]
    have : j ≠ l.length := by omega
    simp [this]
  · rw [List.getElem?_append_right (by omega)]
    by_cases he : j = l.length
    · subst he; simp
    · have h1 : j - l.length ≠ 0 := by omega
      obtain ⟨k, hk⟩ := Nat.exists_eq_succ_of_ne_zero h1
      have : l[j]? = none := List.getElem?_eq_none (by omega)
      simp [hk, he, this]

namespace World

theorem strong_count (w : World) (f : Nat → Nat) {k : Loc} (h : 0 < w.strong k) (l : Loc) :
    (w.count f k).strong l = if k = l then f (w.strong k) else w.strong l := by
  cases k <;> cases l <;> simp only [count, strong] at h ⊢ <;> first
    | (rw [strongOf_bump f h]; simp only [Loc.table.injEq, Loc.buf.injEq, Loc.scope.injEq])
    | simp

/-- Counting a table or a buffer up or down changes no owner. -/
theorem owners_count (w : World) (f : Nat → Nat) {k : Loc} (hk : ∀ s, k ≠ .scope s) (l : Loc) :
    (w.count f k).owners l = w.owners l := by
  cases k with
  | scope s => exact absurd rfl (hk s)
  | _ => rfl

theorem vars_count (w : World) (f : Nat → Nat) (k : Loc) : (w.count f k).vars = w.vars := by cases k <;> rfl

/-- A change to the count of a scope, as a change of the sum over the scopes. -/
theorem owners_scope (w : World) (f : Nat → Nat) {s : Nat} {c : Cell ScopeData} (hc : w.scopes[s]? = some c) (l : Loc) :
    (w.count f (.scope s)).owners l + scopeArcs c l = w.owners l + scopeArcs { c with strong := f c.strong } l := by
  have := tot_set (fun c => scopeArcs c l) w.scopes s c { c with strong := f c.strong } hc
  simp only [count, owners, bump]
  rw [modify_eq_set _ _ _ _ hc]
  omega

theorem strong_acquire (w : World) {o : Option Loc} (h : ∀ k, o = some k → 0 < w.strong k) (l : Loc) :
    (w.acquire o).strong l = w.strong l + one o l := by
  cases o with
  | none => rfl
  | some k =>
    simp only [acquire]
    rw [strong_count _ _ (h k rfl)]
    unfold one
    by_cases hk : k = l
    · subst hk; simp
    · simp [hk]

theorem owners_acquire (w : World) {o : Option Loc} (h : ∀ k, o = some k → 0 < w.strong k) (l : Loc) :
    (w.acquire o).owners l = w.owners l := by
  cases o with
  | none => rfl
  | some k =>
    cases k with
    | scope s =>
      obtain ⟨c, hc, hs⟩ := strongOf_pos (h _ rfl)
      have := owners_scope w (· + 1) hc l
      have hpos := h _ rfl
      simp only [strong] at hpos
      have : scopeArcs { c with strong := c.strong + 1 } l = scopeArcs c l := by
        unfold scopeArcs
        have h0 : c.strong ≠ 0 := by omega
        simp [h0]
      simp only [acquire]
      omega
    | table t => exact owners_count w _ (by intro s; simp) l
    | buf b => exact owners_count w _ (by intro s; simp) l

theorem strong_give (w : World) {o : Option Loc} (h : ∀ k, o = some k → 0 < w.strong k) (l : Loc) :
    (w.give o).strong l + one o l = w.strong l := by
  cases o with
  | none => rfl
  | some k =>
    simp only [give]
    rw [strong_count _ _ (h k rfl)]
    unfold one
    by_cases hk : k = l
    · subst hk; have := h k rfl; simp; omega
    · simp [hk]

theorem owners_give (w : World) {o : Option Loc} (h : ∀ s, o ≠ some (.scope s)) (l : Loc) : (w.give o).owners l = w.owners l := by
  cases o with
  | none => rfl
  | some k => exact owners_count w _ (fun s e => h s (by rw [e])) l

theorem vars_give (w : World) (o : Option Loc) : (w.give o).vars = w.vars := by
  cases o with
  | none => rfl
  | some k => exact vars_count w _ k

theorem strong_push (w : World) (x : Thing) (l : Loc) : (w.push x).strong l = w.strong l := by cases l <;> rfl

theorem owners_push (w : World) (x : Thing) (l : Loc) : (w.push x).owners l = w.owners l + one x.arc l := by
  simp only [push, owners, tot_append, tot]
  simp only [Option.bind_some]
  omega

theorem strong_put (w : World) (h : Nat) (x : Option Thing) (l : Loc) : (w.put h x).strong l = w.strong l := by cases l <;> rfl

theorem owners_put (w : World) {h : Nat} {old : Option Thing} (ho : w.vars[h]? = some old) (x : Option Thing) (l : Loc) :
    (w.put h x).owners l + one (old.bind Thing.arc) l = w.owners l + one (x.bind Thing.arc) l := by
  have := tot_set (fun x => one (x.bind Thing.arc) l) w.vars h old x ho
  simp only [put, owners]
  omega

theorem get_vars {w : World} {h : Nat} {x : Thing} (hx : w.get h = some x) : w.vars[h]? = some (some x) := by
  unfold get at hx
  cases hv : w.vars[h]? with
  | none => simp [hv] at hx
  | some o => simp [hv] at hx; rw [hx]

end World

/-- The counts are the numbers of `Arc`s. -/
def Counted (w : World) : Prop := ∀ l, w.strong l = w.owners l

open World

theorem Counted.held {w : World} (hw : Counted w) {h : Nat} {x : Thing} (hx : w.get h = some x) {l : Loc} (hl : x.arc = some l) :
    0 < w.strong l := by
  have h1 := tot_le (fun x => one (x.bind Thing.arc) l) w.vars h (some x) (get_vars hx)
  have h2 : one ((some x).bind Thing.arc) l = 1 := by simp [one, hl]
  rw [h2] at h1
  rw [hw l]
  unfold owners
  omega

theorem Counted.inScope {w : World} (hw : Counted w) {s : Nat} {c : Cell ScopeData} (hc : w.scopes[s]? = some c) (hs : c.strong ≠ 0)
    (l : Loc) (hl : c.val.sk.map .table = some l ∨ Loc.buf c.val.buf = l) : 0 < w.strong l := by
  have h1 := tot_le (fun c => scopeArcs c l) w.scopes s c hc
  have h2 : 1 ≤ scopeArcs c l := by
    unfold scopeArcs one
    simp only [hs, if_false]
    rcases hl with hl | hl
    · simp [hl]
    · simp [hl]
  rw [hw l]
  unfold owners
  omega

/-- A scope in a variable is alive. -/
theorem Counted.scope {w : World} (hw : Counted w) {h s : Nat} (hx : w.get h = some (.scope s)) :
    ∃ c, w.scopes[s]? = some c ∧ c.strong ≠ 0 := by
  have := hw.held hx (l := .scope s) rfl
  simp only [strong] at this
  obtain ⟨c, hc, hs⟩ := strongOf_pos this
  exact ⟨c, hc, by omega⟩

/-- Dropping an `Arc` that a variable had. -/
theorem release_counted {w : World} {o : Option Loc} (h : ∀ l, w.strong l = w.owners l + one o l) : Counted (w.release o) := by
  have hpos : ∀ k, o = some k → 0 < w.strong k := by
    intro k hk
    have := h k
    rw [hk, one_self] at this
    omega
  have plain : (∀ s, o ≠ some (.scope s)) → Counted (w.give o) := by
    intro hs l
    have h1 := strong_give w hpos l
    rw [owners_give w hs l]
    have := h l
    omega
  cases o with
  | none => exact plain (by intro s; simp)
  | some k =>
    cases k with
    | table t => exact plain (by intro s; simp)
    | buf b => exact plain (by intro s; simp)
    | scope s =>
      obtain ⟨c, hc, hs⟩ := strongOf_pos (hpos _ rfl)
      have hspos := hpos _ rfl
      simp only [strong] at hspos
      have hst := strong_give w hpos
      have hs0 : c.strong ≠ 0 := by omega
      have hown : ∀ l, (w.give (some (.scope s))).owners l + scopeArcs c l =
          w.owners l + scopeArcs { c with strong := c.strong - 1 } l := fun l => owners_scope w (· - 1) hc l
      simp only [release, hc]
      by_cases h1 : c.strong = 1
      · rw [if_pos h1]
        -- the fields go too
        have harc : ∀ l, scopeArcs c l = one (c.val.sk.map .table) l + one (some (.buf c.val.buf)) l := by
          intro l; unfold scopeArcs; simp [hs0]
        have harc0 : ∀ l, scopeArcs { c with strong := c.strong - 1 } l = 0 := by
          intro l; unfold scopeArcs; simp [h1]
        have hsum : ∀ l, scopeArcs c l ≤ w.owners l := by
          intro l
          have := tot_le (fun c => scopeArcs c l) w.scopes s c hc
          unfold owners
          omega
        have hp1 : ∀ k, c.val.sk.map Loc.table = some k → 0 < (w.give (some (.scope s))).strong k := by
          intro k hk
          have h2 := hst k
          have h3 := h k
          have h4 := hsum k
          rw [harc k, hk, one_self] at h4
          omega
        have hst1 := strong_give _ hp1
        have hp2 : ∀ k, some (Loc.buf c.val.buf) = some k → 0 < ((w.give (some (.scope s))).give (c.val.sk.map .table)).strong k := by
          intro k hk
          have h2 := hst k
          have h3 := h k
          have h4 := hsum k
          have h5 := hst1 k
          rw [harc k, hk, one_self] at h4
          omega
        have hst2 := strong_give _ hp2
        intro l
        rw [owners_give _ (by intro s; simp), owners_give _ (by intro s; cases c.val.sk <;> simp)]
        have e1 := hst l
        have e2 := hst1 l
        have e3 := hst2 l
        have e4 := hown l
        rw [harc l, harc0 l] at e4
        have e5 := h l
        omega
      · rw [if_neg h1]
        intro l
        have harc : scopeArcs { c with strong := c.strong - 1 } l = scopeArcs c l := by
          unfold scopeArcs
          have : c.strong - 1 ≠ 0 := by omega
          simp [hs0, this]
        have e1 := hst l
        have e4 := hown l
        rw [harc] at e4
        have e5 := h l
        omega

/-- A clone of an `Arc`, in a new variable. -/
theorem acquire_counted {w : World} (hw : Counted w) {o : Option Loc} (h : ∀ k, o = some k → 0 < w.strong k) {x : Thing} (hx : x.arc = o) :
    Counted ((w.acquire o).push x) := by
  intro l
  rw [strong_push, owners_push, strong_acquire w h, owners_acquire w h, hw l, hx]

theorem push_counted {w : World} (hw : Counted w) {x : Thing} (hx : x.arc = none) : Counted (w.push x) :=
  acquire_counted hw (o := none) (by simp) hx

/-- A variable whose `Arc` stays the same. -/
theorem put_counted {w : World} (hw : Counted w) {h : Nat} {x y : Thing} (hx : w.get h = some x) (hy : y.arc = x.arc) :
    Counted (w.put h (some y)) := by
  intro l
  have := owners_put w (get_vars hx) (some y) l
  simp only [Option.bind_some, hy] at this
  rw [strong_put, hw l]
  omega

theorem getD_join_set {l : List (Option Thing)} {i j : Nat} (hne : i ≠ j) (x : Option Thing) : (l.set i x)[j]? = l[j]? := by
  rw [List.getElem?_set]; simp [hne]

theorem find_held {w : World} (hw : Counted w) {a t : Nat} (h : w.findSharedKeys a = some t) : 0 < w.strong (.table t) := by
  unfold findSharedKeys at h
  obtain ⟨s, hs, h⟩ := Option.bind_eq_some_iff.mp h
  obtain ⟨c, hc, h⟩ := Option.bind_eq_some_iff.mp h
  unfold containing at hs
  obtain ⟨s', _, hs'⟩ := Option.bind_eq_some_iff.mp hs
  split at hs'
  · rename_i hh
    cases hs'
    simp only [holds, strong, strongOf, hc, Option.map_some, Option.getD_some, decide_eq_true_eq] at hh
    exact hw.inScope hc (by omega) _ (.inl (by rw [h]; rfl))
  · cases hs'

theorem find_held' {w : World} (hw : Counted w) (a : Nat) : ∀ k, (w.findSharedKeys a).map Loc.table = some k → 0 < w.strong k := by
  intro k hk
  obtain ⟨t, ht, rfl⟩ := Option.map_eq_some_iff.mp hk
  exact find_held hw ht

/-- Moving a table out of its variable. -/
theorem move_counted {w w1 : World} {o : Option Loc} (hw : ∀ l, w.strong l = w.owners l + one o l) {t sk : Option Nat}
    (h : w.moveTable t = some (sk, w1)) : ∀ l, w1.strong l = w1.owners l + one o l + one (sk.map .table) l := by
  cases t with
  | none => cases h; intro l; simpa [one_none] using hw l
  | some i =>
    simp only [moveTable] at h
    split at h
    · rename_i t ht
      cases h
      intro l
      have := owners_put w (get_vars ht) none l
      simp only [Option.bind_some, Option.bind_none, one_none, Thing.arc] at this
      rw [strong_put, hw l]
      simp only [Option.map_some]
      omega
    · cases h

theorem move_same {w w1 : World} {t sk : Option Nat} (h : w.moveTable t = some (sk, w1)) :
    w1.tables = w.tables ∧ w1.bufs = w.bufs ∧ w1.scopes = w.scopes ∧ w1.map = w.map := by
  cases t with
  | none => cases h; exact ⟨rfl, rfl, rfl, rfl⟩
  | some i =>
    simp only [moveTable] at h
    split at h
    · cases h; exact ⟨rfl, rfl, rfl, rfl⟩
    · cases h

theorem init_counted : Counted {} := by intro l; cases l <;> rfl

theorem effect_counted {w w' : World} {op : Op} (hw : Counted w) (h : w.effect op = some (.ok w')) : Counted w' := by
  cases op with
  | newTable sk =>
    cases h
    intro l
    have h0 := hw l
    cases l with
    | table t =>
      have : strong { w.push (.table w.tables.length) with tables := w.tables ++ [⟨sk, 1⟩] } (.table t) = _ := strongOf_append w.tables sk t
      rw [this]
      have e := owners_push w (.table w.tables.length) (.table t)
      simp only [strong] at h0
      rw [h0]
      refine Eq.trans ?_ e.symm
      simp only [Thing.arc, one, Option.some.injEq, Loc.table.injEq, eq_comm]
    | buf b => exact h0.trans ((owners_push w (.table w.tables.length) (.buf b)).trans (by simp [Thing.arc, one])).symm
    | scope b => exact h0.trans ((owners_push w (.table w.tables.length) (.scope b)).trans (by simp [Thing.arc, one])).symm
  | newData m =>
    cases h
    intro l
    have h0 := hw l
    cases l with
    | buf t =>
      have : strong { w.push (.data w.bufs.length) with bufs := w.bufs ++ [⟨m, 1⟩] } (.buf t) = _ := strongOf_append w.bufs m t
      rw [this]
      have e := owners_push w (.data w.bufs.length) (.buf t)
      simp only [strong] at h0
      rw [h0]
      refine Eq.trans ?_ e.symm
      simp only [Thing.arc, one, Option.some.injEq, Loc.buf.injEq, eq_comm]
    | table b => exact h0.trans ((owners_push w (.data w.bufs.length) (.table b)).trans (by simp [Thing.arc, one])).symm
    | scope b => exact h0.trans ((owners_push w (.data w.bufs.length) (.scope b)).trans (by simp [Thing.arc, one])).symm
  | newOwned m v =>
    cases h
    intro l
    have h0 := hw l
    cases l with
    | buf t =>
      have : strong { w.push (.owned w.bufs.length v) with bufs := w.bufs ++ [⟨m, 1⟩] } (.buf t) = _ := strongOf_append w.bufs m t
      rw [this]
      have e := owners_push w (.owned w.bufs.length v) (.buf t)
      simp only [strong] at h0
      rw [h0]
      refine Eq.trans ?_ e.symm
      simp only [Thing.arc, one, Option.some.injEq, Loc.buf.injEq, eq_comm]
    | table b => exact h0.trans ((owners_push w (.owned w.bufs.length v) (.table b)).trans (by simp [Thing.arc, one])).symm
    | scope b => exact h0.trans ((owners_push w (.owned w.bufs.length v) (.scope b)).trans (by simp [Thing.arc, one])).symm
  | clone h' =>
    simp only [effect] at h
    split at h
    · rename_i hx; cases h; exact acquire_counted hw (fun k hk => hw.held hx hk) rfl
    · rename_i hx; cases h; exact acquire_counted hw (fun k hk => hw.held hx hk) rfl
    · rename_i hx; cases h; exact acquire_counted hw (fun k hk => hw.held hx hk) rfl
    · rename_i hx; cases h; exact acquire_counted hw (fun k hk => hw.held hx hk) rfl
    · rename_i hx; cases h; exact acquire_counted hw (fun k hk => hw.held hx hk) rfl
    · cases h
  | drop h' =>
    simp only [effect] at h
    split at h
    · rename_i x hx
      cases h
      refine release_counted fun l => ?_
      have := owners_put w (get_vars hx) none l
      simp only [Option.bind_some, Option.bind_none, one_none] at this
      rw [strong_put, hw l]
      omega
    · cases h
  | scopeNew d t =>
    simp only [effect] at h
    split at h
    · rename_i b hb
      split at h
      · rename_i sk w1 hm
        split at h
        · rename_i m hbuf
          have h1 := Option.some.inj h
          obtain ⟨root, _, h2⟩ := bind_eq_ok.mp h1
          split at h2
          · cases h2
          · cases h2
            have hput : ∀ l, (w.put d none).strong l = (w.put d none).owners l + one (some (.buf b)) l := by
              intro l
              have := owners_put w (get_vars hb) none l
              simp only [Option.bind_some, Option.bind_none, one_none, Thing.arc] at this
              rw [strong_put, hw l]
              omega
            have hmv := move_counted hput hm
            intro l
            have h3 := hmv l
            have e1 := owners_push w1 (.scope w1.scopes.length) l
            have e2 : owners { w1.push (.scope w1.scopes.length) with
                scopes := w1.scopes ++ [⟨⟨sk, b, root⟩, 1⟩]
                map := fun a => if m.holds a then some w1.scopes.length else w1.map a } l =
                (w1.push (.scope w1.scopes.length)).owners l + (one (sk.map .table) l + one (some (.buf b)) l) := by
              simp only [owners, push, tot_append, tot, scopeArcs]
              simp
              omega
            rw [e2, e1]
            cases l with
            | scope s =>
              have : strong { w1.push (.scope w1.scopes.length) with
                scopes := w1.scopes ++ [⟨⟨sk, b, root⟩, 1⟩]
                map := fun a => if m.holds a then some w1.scopes.length else w1.map a } (.scope s) = _ :=
                  strongOf_append w1.scopes ⟨sk, b, root⟩ s
              rw [this]
              simp only [strong] at h3
              rw [h3]
              have e3 : one (Thing.arc (.scope w1.scopes.length)) (.scope s) = if s = w1.scopes.length then 1 else 0 := by
                simp only [Thing.arc, one, Option.some.injEq, Loc.scope.injEq, eq_comm]
              rw [e3]
              omega
            | table s =>
              have e3 : one (Thing.arc (.scope w1.scopes.length)) (.table s) = 0 := by simp [Thing.arc, one]
              rw [e3]
              refine Eq.trans (b := w1.strong (.table s)) rfl ?_
              omega
            | buf s =>
              have e3 : one (Thing.arc (.scope w1.scopes.length)) (.buf s) = 0 := by simp [Thing.arc, one]
              rw [e3]
              refine Eq.trans (b := w1.strong (.buf s)) rfl ?_
              omega
        · cases h
      · cases h
    · cases h
  | scopeRemove h' =>
    simp only [effect] at h
    split at h
    · split at h
      · cases h
        intro l
        have := hw l
        cases l <;> exact this
      · cases h
    · cases h
  | containing a =>
    simp only [effect] at h
    split at h
    · rename_i s hs
      cases h
      refine acquire_counted hw ?_ rfl
      intro k hk
      cases hk
      unfold containing at hs
      obtain ⟨s', _, hs'⟩ := Option.bind_eq_some_iff.mp hs
      split at hs'
      · rename_i hh; cases hs'; simpa [holds] using hh
      · cases hs'
    · cases h; exact hw
  | scopeData h' =>
    simp only [effect] at h
    split at h
    · rename_i s hs
      split at h
      · rename_i c hc
        cases h
        refine acquire_counted hw ?_ rfl
        intro k hk
        cases hk
        obtain ⟨c', hc', h0⟩ := hw.scope hs
        rw [hc] at hc'
        cases hc'
        exact hw.inScope hc h0 _ (.inr rfl)
      · cases h
    · cases h
  | scopeRoot h' =>
    simp only [effect] at h
    split at h
    · rename_i s hs
      split at h
      · rename_i c hc
        split at h
        · cases h
          refine acquire_counted hw ?_ rfl
          intro k hk
          cases hk
          obtain ⟨c', hc', h0⟩ := hw.scope hs
          rw [hc] at hc'
          cases hc'
          exact hw.inScope hc h0 _ (.inr rfl)
        · cases h; exact hw
      · cases h
    · cases h
  | findSharedKeys a =>
    simp only [effect] at h
    split at h
    · rename_i t ht
      cases h
      refine acquire_counted hw ?_ rfl
      intro k hk
      cases hk
      exact find_held hw ht
    · cases h; exact hw
  | iter h' v =>
    simp only [effect] at h
    split at h
    · split at h
      · have h1 := Option.some.inj h
        obtain ⟨it, _, h2⟩ := bind_eq_ok.mp h1
        cases h2
        exact acquire_counted hw (find_held' hw _) rfl
      · cases h
    · cases h
  | next h' =>
    simp only [effect] at h
    split at h
    · rename_i hx
      split at h
      · split at h
        · have h1 := Option.some.inj h
          obtain ⟨⟨k, it⟩, _, h2⟩ := bind_eq_ok.mp h1
          dsimp only at h2
          split at h2
          · cases h2; refine push_counted (put_counted hw hx ?_) ?_ <;> rfl
          · cases h2; exact put_counted hw hx rfl
        · cases h
      · cases h
    · cases h
  | newDict t =>
    simp only [effect] at h
    split at h
    · rename_i sk w1 hm
      cases h
      have := move_counted (o := none) (by intro l; rw [one_none]; exact hw l) hm
      intro l
      have h1 := this l
      rw [one_none] at h1
      rw [strong_push, owners_push]
      simp only [Thing.arc]
      omega
    · cases h
  | copyDict h' v map =>
    simp only [effect] at h
    split at h
    · split at h
      · cases h; exact acquire_counted hw (find_held' hw _) rfl
      · cases h
    · cases h
  | change h' map =>
    simp only [effect] at h
    split at h
    · rename_i hx; cases h; exact put_counted hw hx rfl
    · cases h
  | mutIter h' =>
    simp only [effect] at h
    split at h
    · rename_i hx
      cases h
      exact acquire_counted hw (fun k hk => hw.held hx hk) rfl
    · cases h
  | mutNext h' =>
    simp only [effect] at h
    split at h
    · rename_i hx
      split at h
      · split at h
        · cases h; exact hw
        · split at h
          · cases h; refine push_counted (put_counted hw hx ?_) ?_ <;> rfl
          · cases h; exact put_counted hw hx rfl
      · cases h
    · cases h
  | use h' =>
    simp only [effect] at h
    split at h
    · split at h
      · cases h; exact hw
      · cases h
    · cases h

theorem step_counted {w w' : World} {op : Op} (hw : Counted w) (h : w.step op = some (.ok w')) : Counted w' := by
  unfold step at h
  split at h
  · cases h
  · rename_i r hr
    split at h
    · rw [h] at hr; exact effect_counted hw hr
    · cases h

theorem run_induction {P : World → Prop} (hstep : ∀ w op w', P w → w.step op = some (.ok w') → P w') :
    ∀ (ops : List Op) {w w' : World}, P w → w.run ops = some (.ok w') → P w' := by
  intro ops
  induction ops with
  | nil => intro w w' h hr; cases hr; exact h
  | cons op ops ih =>
    intro w w' h hr
    unfold run at hr
    split at hr
    · rename_i w1 h1; exact ih (hstep _ _ _ h h1) hr
    · rename_i hne; exact absurd hr (hne w')

/-! ## What references point to -/

/-- What can be borrowed from a variable. -/
inductive Kind where
  | owned (b : Nat)
  | dict (sk : Option Nat)
  | other

/-- The kind of a variable. -/
def Thing.kind : Thing → Kind
  | .owned b _ => .owned b
  | .dict sk _ _ => .dict sk
  | _ => .other

/-- A string borrowed from a variable is in what the variable holds, or is a name in a table. -/
def Str.from : Str → Kind → Prop
  | .buf b _, .owned b' => b = b'
  | .table _ _, .owned _ => True
  | .table t _, .dict sk => sk = some t
  | .own _, .dict _ => True
  | _, _ => False

/-- What a reference points to, while what it was borrowed from is there. -/
def World.loan (w : World) : Thing → Prop
  | .mutIter src _ sk _ => src < w.vars.length ∧ ∀ y, w.get src = some y → y.kind = .dict sk
  | .key src _ str => src < w.vars.length ∧ ∀ y, w.get src = some y → str.from y.kind
  | _ => True

/-- All references. -/
def Loans (w : World) : Prop := ∀ h x, w.get h = some x → w.loan x

/-- Variables are added, dropped, or changed in place. -/
def Later (w w' : World) : Prop := w.vars.length ≤ w'.vars.length ∧
  ∀ i, i < w.vars.length → ∀ y, w'.get i = some y → ∃ x, w.get i = some x ∧ x.kind = y.kind

theorem Later.loan {w w' : World} (h : Later w w') {x : Thing} (hx : w.loan x) : w'.loan x := by
  cases x with
  | mutIter src e sk rest =>
    refine ⟨Nat.lt_of_lt_of_le hx.1 h.1, fun y hy => ?_⟩
    obtain ⟨z, hz, hk⟩ := h.2 _ hx.1 y hy
    rw [← hk]; exact hx.2 z hz
  | key src e str =>
    refine ⟨Nat.lt_of_lt_of_le hx.1 h.1, fun y hy => ?_⟩
    obtain ⟨z, hz, hk⟩ := h.2 _ hx.1 y hy
    rw [← hk]; exact hx.2 z hz
  | _ => trivial

theorem get_lt {w : World} {h : Nat} {x : Thing} (hx : w.get h = some x) : h < w.vars.length :=
  (List.getElem?_eq_some_iff.mp (get_vars hx)).1

theorem later_push (w : World) (x : Thing) : Later w (w.push x) := by
  refine ⟨by simp [push], fun i hi y hy => ⟨y, ?_, rfl⟩⟩
  unfold World.get push at hy
  dsimp only at hy
  rw [List.getElem?_append_left hi] at hy
  exact hy

theorem get_push {w : World} {x y : Thing} {h : Nat} (hy : (w.push x).get h = some y) : w.get h = some y ∨ y = x := by
  unfold World.get push at hy
  dsimp only at hy
  by_cases hi : h < w.vars.length
  · rw [List.getElem?_append_left hi] at hy; exact .inl hy
  · rw [List.getElem?_append_right (by omega)] at hy
    cases hk : h - w.vars.length with
    | zero => rw [hk] at hy; simp at hy; exact .inr hy.symm
    | succ k => rw [hk] at hy; simp at hy

theorem get_put {w : World} {x : Option Thing} {y : Thing} {i h : Nat} (hy : (w.put i x).get h = some y) :
    (h ≠ i ∧ w.get h = some y) ∨ (h = i ∧ x = some y) := by
  unfold World.get put at hy
  dsimp only at hy
  rw [List.getElem?_set] at hy
  by_cases hi : i = h
  · subst hi
    by_cases hl : i < w.vars.length
    · simp [hl] at hy; exact .inr ⟨rfl, hy⟩
    · simp [hl] at hy
  · rw [if_neg hi] at hy; exact .inl ⟨fun h => hi h.symm, hy⟩

theorem loans_push {w : World} (hw : Loans w) {x : Thing} (hx : w.loan x) : Loans (w.push x) := by
  intro h y hy
  refine (later_push w x).loan ?_
  rcases get_push hy with hy | rfl
  · exact hw h y hy
  · exact hx

theorem loans_drop {w : World} (hw : Loans w) (i : Nat) : Loans (w.put i none) := by
  have hl : Later w (w.put i none) := by
    refine ⟨by simp [put], fun j _ y hy => ?_⟩
    rcases get_put hy with ⟨_, hy⟩ | ⟨_, hy⟩
    · exact ⟨y, hy, rfl⟩
    · cases hy
  intro h y hy
  rcases get_put hy with ⟨_, hy⟩ | ⟨_, hy⟩
  · exact hl.loan (hw h y hy)
  · cases hy

theorem loans_put {w : World} (hw : Loans w) {i : Nat} {x y : Thing} (hx : w.get i = some x) (hk : x.kind = y.kind) (hy : w.loan y) :
    Later w (w.put i (some y)) ∧ Loans (w.put i (some y)) := by
  have hl : Later w (w.put i (some y)) := by
    refine ⟨by simp [put], fun j _ z hz => ?_⟩
    rcases get_put hz with ⟨_, hz⟩ | ⟨rfl, hz2⟩
    · exact ⟨z, hz, rfl⟩
    · exact ⟨x, hx, by rw [hk, Option.some.inj hz2]⟩
  refine ⟨hl, fun h z hz => hl.loan ?_⟩
  rcases get_put hz with ⟨_, hz⟩ | ⟨_, hz⟩
  · exact hw h z hz
  · cases hz; exact hy

/-- Only the variables matter. -/
theorem loans_vars {w w' : World} (hw : Loans w) (h : w'.vars = w.vars) : Loans w' := by
  have hg : ∀ i, w'.get i = w.get i := fun i => by unfold World.get; rw [h]
  have hl : Later w w' := ⟨by rw [h]; exact Nat.le_refl _, fun i _ y hy => ⟨y, by rw [← hg]; exact hy, rfl⟩⟩
  intro i x hx
  rw [hg] at hx
  exact hl.loan (hw i x hx)

theorem vars_acquire (w : World) (o : Option Loc) : (w.acquire o).vars = w.vars := by
  cases o with
  | none => rfl
  | some k => exact vars_count w _ k

theorem vars_release (w : World) (o : Option Loc) : (w.release o).vars = w.vars := by
  unfold release
  split
  · dsimp only
    split
    · split
      · simp only [vars_give]
      · simp only [vars_give]
    · simp only [vars_give]
  · exact vars_give w _

theorem loans_acquire {w : World} (hw : Loans w) (o : Option Loc) {x : Thing} (hx : ∀ w' : World, w'.vars = w.vars → w'.loan x) :
    Loans ((w.acquire o).push x) := loans_push (loans_vars hw (vars_acquire w o)) (hx _ (vars_acquire w o))

theorem loans_move {w w1 : World} (hw : Loans w) {t sk : Option Nat} (h : w.moveTable t = some (sk, w1)) : Loans w1 := by
  cases t with
  | none => cases h; exact hw
  | some i =>
    simp only [moveTable] at h
    split at h
    · cases h; exact loans_drop hw i
    · cases h

/-- Where the key of an iterator is. -/
theorem nextKey_from {m : Mem} {b : Nat} {sk : Option (Nat × SharedKeys)} {it it' : Iter} {s : Str}
    (h : nextKey m b sk it = .ok (some s, it')) : s.from (.owned b) := by
  unfold nextKey at h
  obtain ⟨⟨k, it1⟩, _, h⟩ := bind_eq_ok.mp h
  dsimp only at h
  cases k with
  | none => cases h
  | some k =>
    dsimp only at h
    obtain ⟨key, hkey, h⟩ := bind_eq_ok.mp h
    have : ∀ s, key = some s → s.from (.owned b) := by
      intro s hs
      subst hs
      unfold keyStr at hkey
      obtain ⟨t, _, hkey⟩ := bind_eq_ok.mp hkey
      split at hkey
      · split at hkey
        · obtain ⟨n, _, hkey⟩ := bind_eq_ok.mp hkey
          cases hd : SharedKeys.decode _ n with
          | none => rw [hd] at hkey; cases hkey
          | some name => rw [hd] at hkey; cases hkey; trivial
        · cases hkey
      · obtain ⟨x, _, hkey⟩ := bind_eq_ok.mp hkey
        cases hkey; rfl
    cases key with
    | none => cases h
    | some key =>
      dsimp only at h
      obtain ⟨⟨x, it2⟩, _, h⟩ := bind_eq_ok.mp h
      dsimp only at h
      cases x with
      | none => cases h
      | some x => cases h; exact this _ rfl

theorem mutKey_from {w : World} {sk : Option Nat} {k : Key} {s : Str} (h : mutKey (w.keysOf sk) k = some s) : s.from (.dict sk) := by
  cases k with
  | shared c =>
    simp only [mutKey] at h
    obtain ⟨⟨id, x⟩, h1, h2⟩ := Option.bind_eq_some_iff.mp h
    unfold keysOf at h1
    obtain ⟨t, h3, h4⟩ := Option.bind_eq_some_iff.mp h1
    obtain ⟨y, _, h5⟩ := Option.map_eq_some_iff.mp h4
    cases h5
    obtain ⟨z, _, h6⟩ := Option.map_eq_some_iff.mp h2
    cases h6
    exact h3
  | string x => cases h; trivial

theorem effect_loans {w w' : World} {op : Op} (hw : Loans w) (h : w.effect op = some (.ok w')) : Loans w' := by
  cases op with
  | newTable sk => cases h; exact loans_vars (loans_push hw (x := .table w.tables.length) trivial) rfl
  | newData m => cases h; exact loans_vars (loans_push hw (x := .data w.bufs.length) trivial) rfl
  | newOwned m v => cases h; exact loans_vars (loans_push hw (x := .owned w.bufs.length v) trivial) rfl
  | clone h' =>
    simp only [effect] at h
    split at h
    · cases h; exact loans_acquire hw _ (fun _ _ => trivial)
    · cases h; exact loans_acquire hw _ (fun _ _ => trivial)
    · cases h; exact loans_acquire hw _ (fun _ _ => trivial)
    · cases h; exact loans_acquire hw _ (fun _ _ => trivial)
    · cases h; exact loans_acquire hw _ (fun _ _ => trivial)
    · cases h
  | drop h' =>
    simp only [effect] at h
    split at h
    · cases h; exact loans_vars (loans_drop hw h') (vars_release _ _)
    · cases h
  | scopeNew d t =>
    simp only [effect] at h
    split at h
    · split at h
      · rename_i sk w1 hm
        split at h
        · have h1 := Option.some.inj h
          obtain ⟨root, _, h2⟩ := bind_eq_ok.mp h1
          split at h2
          · cases h2
          · cases h2
            exact loans_vars (loans_push (loans_move (loans_drop hw d) hm) (x := .scope w1.scopes.length) trivial) rfl
        · cases h
      · cases h
    · cases h
  | scopeRemove h' =>
    simp only [effect] at h
    split at h
    · split at h
      · cases h; exact loans_vars hw rfl
      · cases h
    · cases h
  | containing a =>
    simp only [effect] at h
    split at h
    · cases h; exact loans_acquire hw _ (fun _ _ => trivial)
    · cases h; exact hw
  | scopeData h' =>
    simp only [effect] at h
    split at h
    · split at h
      · cases h; exact loans_acquire hw _ (fun _ _ => trivial)
      · cases h
    · cases h
  | scopeRoot h' =>
    simp only [effect] at h
    split at h
    · split at h
      · split at h
        · cases h; exact loans_acquire hw _ (fun _ _ => trivial)
        · cases h; exact hw
      · cases h
    · cases h
  | findSharedKeys a =>
    simp only [effect] at h
    split at h
    · cases h; exact loans_acquire hw _ (fun _ _ => trivial)
    · cases h; exact hw
  | iter h' v =>
    simp only [effect] at h
    split at h
    · split at h
      · have h1 := Option.some.inj h
        obtain ⟨it, _, h2⟩ := bind_eq_ok.mp h1
        cases h2
        exact loans_acquire hw _ (fun _ _ => trivial)
      · cases h
    · cases h
  | next h' =>
    simp only [effect] at h
    split at h
    · rename_i src sk it0 hx
      split at h
      · rename_i b v0 hb
        split at h
        · have h1 := Option.some.inj h
          obtain ⟨⟨k, it⟩, hk, h2⟩ := bind_eq_ok.mp h1
          dsimp only at h2
          have hp := loans_put hw (y := .iter src sk it) hx rfl trivial
          split at h2
          · cases h2
            refine loans_push hp.2 (hp.1.loan ?_)
            refine ⟨get_lt hb, fun y hy => ?_⟩
            rw [hb] at hy
            cases hy
            exact nextKey_from hk
          · cases h2; exact hp.2
        · cases h
      · cases h
    · cases h
  | newDict t =>
    simp only [effect] at h
    split at h
    · rename_i sk w1 hm
      cases h
      exact loans_push (loans_move hw hm) trivial
    · cases h
  | copyDict h' v map =>
    simp only [effect] at h
    split at h
    · split at h
      · cases h; exact loans_acquire hw _ (fun _ _ => trivial)
      · cases h
    · cases h
  | change h' map =>
    simp only [effect] at h
    split at h
    · rename_i hx; cases h; refine (loans_put hw hx ?_ ?_).2 <;> trivial
    · cases h
  | mutIter h' =>
    simp only [effect] at h
    split at h
    · rename_i sk map e hx
      cases h
      refine loans_acquire hw _ (fun w' hv => ?_)
      have hg : w'.get h' = w.get h' := by unfold World.get; rw [hv]
      refine ⟨by rw [hv]; exact get_lt hx, fun y hy => ?_⟩
      rw [hg, hx] at hy
      cases hy
      rfl
    · cases h
  | mutNext h' =>
    simp only [effect] at h
    split at h
    · rename_i src e sk rest0 hx
      split at h
      · split at h
        · cases h; exact hw
        · rename_i x rest
          have hl := hw h' _ hx
          have hp := loans_put hw (y := .mutIter src e sk rest) hx rfl hl
          split at h
          · rename_i s hs
            cases h
            refine loans_push hp.2 (hp.1.loan ⟨hl.1, fun y hy => ?_⟩)
            rw [hl.2 y hy]
            exact mutKey_from hs
          · cases h; exact hp.2
      · cases h
    · cases h
  | use h' =>
    simp only [effect] at h
    split at h
    · split at h
      · cases h; exact hw
      · cases h
    · cases h

theorem step_loans {w w' : World} {op : Op} (hw : Loans w) (h : w.step op = some (.ok w')) : Loans w' := by
  unfold step at h
  split at h
  · cases h
  · rename_i r hr
    split at h
    · rw [h] at hr; exact effect_loans hw hr
    · cases h

theorem arises_loans {w : World} (h : Arises w) : Loans w := by
  obtain ⟨ops, h⟩ := h
  refine run_induction (fun _ _ _ h1 h2 => step_loans h1 h2) ops ?_ h
  intro i x hx
  simp [World.get] at hx

theorem arises_counted {w : World} (h : Arises w) : Counted w := by
  obtain ⟨ops, h⟩ := h
  exact run_induction (fun _ _ _ h1 h2 => step_counted h1 h2) ops init_counted h

end Fleece.Life
