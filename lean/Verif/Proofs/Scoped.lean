import Verif.Model.Scoped
import Verif.Proofs.Reader

/-! # Reading through the registry, where it has one answer for the whole buffer -/

namespace Fleece
open Res

theorem type_within {m : Mem} {v : Val} {t : ValueType} (h : v.type m = .ok t) : v.pos < m.data.length := by
  unfold Val.type at h
  obtain ⟨b, h1, _⟩ := bind_eq_ok.mp h
  unfold Val.byte at h1
  split at h1
  · cases hd : m.data[v.pos + 0]? with
    | none => rw [hd] at h1; cases h1
    | some x => exact (List.getElem?_eq_some_iff.mp hd).1
  · cases h1

theorem arrayLen_within {m : Mem} {v : Val} {n : Nat} (h : v.arrayLen m = .ok n) : v.pos < m.data.length := by
  unfold Val.arrayLen at h
  obtain ⟨s, h1, _⟩ := bind_eq_ok.mp h
  unfold Val.getShort at h1
  obtain ⟨bs, h2, _⟩ := bind_eq_ok.mp h1
  unfold Val.slice at h2
  split at h2
  · have := (rawRead_ok h2).1
    omega
  · cases h2

/-- Every address of the buffer has these shared keys. -/
def Registry.Uniform (r : Registry) (m : Mem) (sk : Option SharedKeys) : Prop :=
  ∀ a, m.base ≤ a → a < m.base + m.data.length → r.findSharedKeys a = .ok sk

variable {r : Registry} {m : Mem} {sk : Option SharedKeys}

theorem Registry.Uniform.keysAt (h : r.Uniform m sk) {v : Val} (hv : v.pos < m.data.length) : r.keysAt m v = .ok sk := by
  unfold Registry.keysAt
  rw [h _ (by omega) (by omega)]
  rfl

theorem Registry.Uniform.entries (h : r.Uniform m sk) {α : Type} (f : Val → R α) {v : Val} (hv : v.pos < m.data.length) :
    r.entries m f v = (do let it ← v.dictIter m; collectDict m sk f (it.len + 1) it) := by
  unfold Registry.entries
  rw [h.keysAt hv]
  rfl

theorem Registry.Uniform.encodeKey (h : r.Uniform m sk) (v : Val) (key : List UInt8) :
    r.encodeKey m v key = v.encodeKey m key none sk := by
  unfold Registry.encodeKey Val.encodeKey
  dsimp only
  cases hu : v.usesSharedKeys m with
  | ok b =>
    have hv : v.pos < m.data.length := by
      unfold Val.usesSharedKeys at hu
      obtain ⟨n, h1, _⟩ := bind_eq_ok.mp hu
      exact arrayLen_within h1
    simp only [ok_bind, h.keysAt hv]
    rfl
  | err x => rfl
  | panic => rfl
  | ub => rfl
  | diverge => rfl

theorem Registry.Uniform.dictGet (h : r.Uniform m sk) (v : Val) (key : List UInt8) :
    r.dictGet m v key = v.dictGet m sk key := by
  unfold Registry.dictGet Val.dictGet
  rw [h.encodeKey]

theorem Registry.Uniform.readTree (h : r.Uniform m sk) (F : FloatOps) (fuel : Nat) : ∀ v,
    r.readTree m F fuel v = Fleece.readTree m F sk fuel v := by
  induction fuel with
  | zero => intro v; rfl
  | succ fuel ih =>
    intro v
    have hf : r.readTree m F fuel = Fleece.readTree m F sk fuel := funext ih
    unfold Registry.readTree Fleece.readTree
    cases ht : v.type m with
    | ok t =>
      simp only [ok_bind]
      cases t <;> simp only [hf]
      simp only [h.entries _ (type_within ht), Res.bind_assoc]
    | err x => rfl
    | panic => rfl
    | ub => rfl
    | diverge => rfl

theorem newFromFleece_leaf {F : FloatOps} {v : Val} {w : Bool} {t : ValueType} (ht : v.type m = .ok t) (h1 : t ≠ .array)
    (h2 : t ≠ .dict) (h3 : t ≠ .pointer) (fuel : Nat) :
    Slot.newFromFleece m F none 1 v w = Slot.newFromFleece m F sk (fuel + 1) v w := by
  unfold Slot.newFromFleece
  rw [ht]
  simp only [ok_bind]
  cases t <;> first | rfl | exact absurd rfl h1 | exact absurd rfl h2 | exact absurd rfl h3

theorem Registry.Uniform.copyDict (h : r.Uniform m sk) (f : Val → Bool → R Slot) {v : Val} (hv : v.pos < m.data.length)
    (sk' : Option SharedKeys) :
    r.copyDict m f v sk' = (do
      let w ← v.isWide m
      let it ← v.dictIter m
      let kvs ← collectDict m sk (fun x => f x w) (it.len + 1) it
      pure (.dict sk' (kvs.foldl (fun map kv => mapInsert (mutEncodeKey sk' kv.1) kv.2 map) []))) := by
  unfold Registry.copyDict
  simp only [h.entries _ hv, Res.bind_assoc]

theorem Registry.Uniform.newFromFleece (h : r.Uniform m sk) (F : FloatOps) (fuel : Nat) : ∀ v w,
    r.newFromFleece m F fuel v w = Slot.newFromFleece m F sk fuel v w := by
  induction fuel with
  | zero => intro v w; rfl
  | succ fuel ih =>
    intro v w
    have hf : r.newFromFleece m F fuel = Slot.newFromFleece m F sk fuel := funext fun v => funext fun w => ih v w
    cases ht : v.type m with
    | ok t =>
      by_cases hs : t ≠ .array ∧ t ≠ .dict ∧ t ≠ .pointer
      · rw [← newFromFleece_leaf ht hs.1 hs.2.1 hs.2.2]
        unfold Registry.newFromFleece
        rw [ht]
        simp only [ok_bind]
        cases t <;> first | rfl | exact absurd rfl hs.1 | exact absurd rfl hs.2.1 | exact absurd rfl hs.2.2
      · unfold Registry.newFromFleece Slot.newFromFleece
        rw [ht]
        simp only [ok_bind]
        cases t <;> simp only [hf, ne_eq, reduceCtorEq, not_false_eq_true, and_self, not_true_eq_false] at hs ⊢
        rw [h.keysAt (type_within ht)]
        simp only [ok_bind]
        rw [h.copyDict _ (type_within ht)]
    | err x => unfold Registry.newFromFleece Slot.newFromFleece; rw [ht]; rfl
    | panic => unfold Registry.newFromFleece Slot.newFromFleece; rw [ht]; rfl
    | ub => unfold Registry.newFromFleece Slot.newFromFleece; rw [ht]; rfl
    | diverge => unfold Registry.newFromFleece Slot.newFromFleece; rw [ht]; rfl

end Fleece
