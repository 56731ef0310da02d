import Verif.Proofs.Access
import Verif.Spec.Lookup
import Verif.Model.Debug

/-! # Formatting values -/

namespace Fleece
open Res

theorem debugItems_eq (m : Mem) (f : Val → R Text) : ∀ (n : Nat) (it : Iter), it.debugItems m f n = collect m f n it
  | 0, _ => rfl
  | n + 1, it => by
    unfold Iter.debugItems collect
    cases it.step m with
    | ok p =>
      obtain ⟨x, it'⟩ := p
      cases x with
      | none => rfl
      | some x => simp only [ok_bind]; rw [debugItems_eq m f n it']
    | _ => rfl

theorem debugEntries_eq (P : Printer) (m : Mem) (scope : Option SharedKeys) (f : Val → R Text) : ∀ (n : Nat) (it : Iter),
    it.debugEntries P m scope f n =
      (do let kvs ← collectDict m scope f n it; pure (kvs.map fun kv => (P.strText kv.1, kv.2)))
  | 0, _ => rfl
  | n + 1, it => by
    unfold Iter.debugEntries collectDict
    cases it.dictStep m scope with
    | ok p =>
      obtain ⟨x, it'⟩ := p
      cases x with
      | none => rfl
      | some x =>
        obtain ⟨k, x⟩ := x
        simp only [ok_bind]
        rw [debugEntries_eq P m scope f n it']
        cases f x with
        | ok y => simp only [ok_bind]; cases collectDict m scope f n it' <;> rfl
        | _ => rfl
    | _ => rfl

theorem toShort_of_toInt {m : Mem} {F : FloatOps} {v : Val} {i : Int} (ty : v.type m = .ok .short)
    (h : v.toInt m F = .ok i) : v.toShort m F = .ok i := by
  unfold Val.toInt at h
  unfold Val.toShort
  simpa only [ty, ok_bind] using h

theorem debugItems_ok {m : Mem} {f : Val → R Text} : ∀ {n : Nat} {it : Iter} {us : List Val},
    collect m (fun x => .ok x) n it = .ok us → (∀ u ∈ us, ∃ s, f u = .ok s) → ∃ ss, it.debugItems m f n = .ok ss
  | 0, _, _ => fun h _ => by cases h
  | n + 1, it, us => fun h hf => by
    unfold collect at h
    obtain ⟨⟨x, it'⟩, h1, h⟩ := bind_eq_ok.mp h
    unfold Iter.debugItems
    simp only [h1, ok_bind]
    cases x with
    | none => exact ⟨[], rfl⟩
    | some x =>
      simp only [ok_bind] at h
      obtain ⟨rest, h2, h⟩ := bind_eq_ok.mp h
      cases h
      obtain ⟨s, hs⟩ := hf x (by simp)
      obtain ⟨ss, hss⟩ := debugItems_ok h2 fun u hu => hf u (by simp [hu])
      exact ⟨s :: ss, by simp only [hs, ok_bind, hss, pure_eq]⟩

theorem debugEntries_ok {P : Printer} {m : Mem} {scope : Option SharedKeys} {f : Val → R Text} : ∀ {n : Nat} {it : Iter}
    {us : List (List UInt8 × Val)}, collectDict m scope (fun x => .ok x) n it = .ok us → (∀ u ∈ us, ∃ s, f u.2 = .ok s) →
    ∃ ss, it.debugEntries P m scope f n = .ok ss
  | 0, _, _ => fun h _ => by cases h
  | n + 1, it, us => fun h hf => by
    unfold collectDict at h
    obtain ⟨⟨x, it'⟩, h1, h⟩ := bind_eq_ok.mp h
    unfold Iter.debugEntries
    simp only [h1, ok_bind]
    cases x with
    | none => exact ⟨[], rfl⟩
    | some x =>
      obtain ⟨k, x⟩ := x
      simp only [ok_bind] at h
      obtain ⟨rest, h2, h⟩ := bind_eq_ok.mp h
      cases h
      obtain ⟨s, hs⟩ := hf (k, x) (by simp)
      obtain ⟨ss, hss⟩ := debugEntries_ok (P := P) h2 fun u hu => hf u (by simp [hu])
      exact ⟨(P.strText k, s) :: ss, by simp only [hs, ok_bind, hss, pure_eq]⟩

/-- A number of steps that suffices for the iterator suffices if it is larger. -/
theorem debugEntries_mono {P : Printer} {m : Mem} {scope : Option SharedKeys} {f : Val → R Text} : ∀ {n : Nat} {it : Iter}
    {ss : List (Text × Text)}, it.debugEntries P m scope f n = .ok ss → ∀ {k : Nat}, n ≤ k →
    it.debugEntries P m scope f k = .ok ss
  | 0, _, _ => fun h => by cases h
  | n + 1, it, ss => fun h k hk => by
    obtain ⟨k, rfl⟩ : ∃ k', k = k' + 1 := ⟨k - 1, by omega⟩
    unfold Iter.debugEntries at h ⊢
    obtain ⟨⟨x, it'⟩, h1, h⟩ := bind_eq_ok.mp h
    simp only [h1, ok_bind]
    cases x with
    | none => exact h
    | some x =>
      obtain ⟨_, h2, h⟩ := bind_eq_ok.mp h
      obtain ⟨_, h3, h⟩ := bind_eq_ok.mp h
      simp only [h2, ok_bind, debugEntries_mono h3 (show n ≤ k by omega)]
      exact h

end Fleece
