import Verif.Spec.Tree
import Verif.Proofs.Reader

/-! # Running an iterator with two different functions -/

namespace Fleece
open Res

variable {m : Mem}

/-- The values met by an iteration. -/
theorem collect_values {α : Type} {f : Val → R α} {n : Nat} : ∀ {it : Iter} {ts : List α}, collect m f n it = .ok ts →
    ∃ xs, collect m .ok n it = .ok xs ∧ xs.length = ts.length ∧
      ∀ (i : Nat) x t, xs[i]? = some x → ts[i]? = some t → f x = .ok t := by
  induction n with
  | zero => intro it ts h; cases h
  | succ n ih =>
    intro it ts h
    unfold collect at h ⊢
    obtain ⟨⟨x, it'⟩, hs, h⟩ := bind_eq_ok.mp h
    rw [hs]
    cases x with
    | none => cases h; exact ⟨[], rfl, rfl, by simp⟩
    | some x =>
      obtain ⟨t, ht, h⟩ := bind_eq_ok.mp h
      obtain ⟨rest, hr, h⟩ := bind_eq_ok.mp h
      cases h
      obtain ⟨xs, h1, h2, h3⟩ := ih hr
      refine ⟨x :: xs, by simp only [ok_bind, h1, pure_eq], by simp [h2], ?_⟩
      intro i y t' a b
      cases i with
      | zero => simp at a b; subst a; subst b; exact ht
      | succ i => exact h3 i y t' (by simpa using a) (by simpa using b)

/-- Iterating with another function. -/
theorem collect_of_values {α : Type} {g : Val → R α} {n : Nat} : ∀ {it : Iter} {xs : List Val} {ss : List α},
    collect m .ok n it = .ok xs → ss.length = xs.length →
    (∀ (i : Nat) x s, xs[i]? = some x → ss[i]? = some s → g x = .ok s) → collect m g n it = .ok ss := by
  induction n with
  | zero => intro it xs ss h; cases h
  | succ n ih =>
    intro it xs ss h hl he
    unfold collect at h ⊢
    obtain ⟨⟨x, it'⟩, hs, h⟩ := bind_eq_ok.mp h
    rw [hs]
    cases x with
    | none =>
      cases h
      cases ss with
      | nil => rfl
      | cons _ _ => cases hl
    | some x =>
      obtain ⟨t, ht, h⟩ := bind_eq_ok.mp h
      obtain ⟨rest, hr, h⟩ := bind_eq_ok.mp h
      cases ht; cases h
      cases ss with
      | nil => cases hl
      | cons s ss =>
        have e0 := he 0 x s rfl rfl
        have e1 := ih (ss := ss) hr (by simpa using hl) (fun i y s' a b => he (i + 1) y s' (by simpa using a) (by simpa using b))
        simp only [ok_bind, e0, e1, pure_eq]

/-- The entries met by an iteration. -/
theorem collectDict_values {α : Type} {f : Val → R α} {scope : Option SharedKeys} {n : Nat} :
    ∀ {it : Iter} {ts : List (List UInt8 × α)}, collectDict m scope f n it = .ok ts →
    ∃ xs, collectDict m scope .ok n it = .ok xs ∧ xs.length = ts.length ∧
      ∀ (i : Nat) x t, xs[i]? = some x → ts[i]? = some t → x.1 = t.1 ∧ f x.2 = .ok t.2 := by
  induction n with
  | zero => intro it ts h; cases h
  | succ n ih =>
    intro it ts h
    unfold collectDict at h ⊢
    obtain ⟨⟨x, it'⟩, hs, h⟩ := bind_eq_ok.mp h
    rw [hs]
    cases x with
    | none => cases h; exact ⟨[], rfl, rfl, by simp⟩
    | some x =>
      obtain ⟨k, x⟩ := x
      obtain ⟨t, ht, h⟩ := bind_eq_ok.mp h
      obtain ⟨rest, hr, h⟩ := bind_eq_ok.mp h
      cases h
      obtain ⟨xs, h1, h2, h3⟩ := ih hr
      refine ⟨(k, x) :: xs, by simp only [ok_bind, h1, pure_eq], by simp [h2], ?_⟩
      intro i y t' a b
      cases i with
      | zero => simp at a b; subst a; subst b; exact ⟨rfl, ht⟩
      | succ i => exact h3 i y t' (by simpa using a) (by simpa using b)

/-- Iterating with another function. -/
theorem collectDict_of_values {α : Type} {g : Val → R α} {scope : Option SharedKeys} {n : Nat} :
    ∀ {it : Iter} {xs : List (List UInt8 × Val)} {ss : List (List UInt8 × α)},
    collectDict m scope .ok n it = .ok xs → ss.length = xs.length →
    (∀ (i : Nat) x s, xs[i]? = some x → ss[i]? = some s → x.1 = s.1 ∧ g x.2 = .ok s.2) → collectDict m scope g n it = .ok ss := by
  induction n with
  | zero => intro it xs ss h; cases h
  | succ n ih =>
    intro it xs ss h hl he
    unfold collectDict at h ⊢
    obtain ⟨⟨x, it'⟩, hs, h⟩ := bind_eq_ok.mp h
    rw [hs]
    cases x with
    | none =>
      cases h
      cases ss with
      | nil => rfl
      | cons _ _ => cases hl
    | some x =>
      obtain ⟨k, x⟩ := x
      obtain ⟨t, ht, h⟩ := bind_eq_ok.mp h
      obtain ⟨rest, hr, h⟩ := bind_eq_ok.mp h
      cases ht; cases h
      cases ss with
      | nil => cases hl
      | cons s ss =>
        obtain ⟨e2, e0⟩ := he 0 _ s rfl rfl
        have e1 := ih (ss := ss) hr (by simpa using hl) (fun i y s' a b => he (i + 1) y s' (by simpa using a) (by simpa using b))
        simp only [ok_bind, e0, e1, pure_eq]
        dsimp only at e2
        rw [e2]

/-- Choose a result for each. -/
theorem list_pick {α β γ : Type} {P : β → γ → Prop} {g : α → R γ} {xs : List α} : ∀ {ts : List β}, xs.length = ts.length →
    (∀ (i : Nat) x t, xs[i]? = some x → ts[i]? = some t → ∃ s, g x = .ok s ∧ P t s) →
    ∃ ss : List γ, ss.length = ts.length ∧
      ∀ (i : Nat) x t s, xs[i]? = some x → ts[i]? = some t → ss[i]? = some s → g x = .ok s ∧ P t s := by
  induction xs with
  | nil =>
    intro ts hl _
    cases ts with
    | nil => exact ⟨[], rfl, by simp⟩
    | cons _ _ => cases hl
  | cons x xs ih =>
    intro ts hl h
    cases ts with
    | nil => cases hl
    | cons t ts =>
      obtain ⟨s, h1⟩ := h 0 x t rfl rfl
      obtain ⟨ss, h2, h3⟩ := ih (ts := ts) (by simpa using hl) (fun i y t' a b => h (i + 1) y t' (by simpa using a) (by simpa using b))
      refine ⟨s :: ss, by simp [h2], ?_⟩
      intro i y t' s' a b c
      cases i with
      | zero => simp at a b c; subst a; subst b; subst c; exact h1
      | succ i => exact h3 i y t' s' (by simpa using a) (by simpa using b) (by simpa using c)

end Fleece
