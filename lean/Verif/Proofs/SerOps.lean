import Verif.Proofs.Ser
import Verif.Proofs.LookupDoc
import Verif.Proofs.De

/-!
# The calls that serializing makes
-/

namespace Fleece
open Res

/-- The values written are in `S`, the keys in `K`. -/
def Op.In (S : Scalar → Prop) (K : RStr → Prop) : Op → Prop
  | .value x => S x
  | .key k => K k
  | _ => True

def SStep.In (S : Scalar → Prop) (K : RStr → Prop) (s : SStep) : Prop := s.toOp.In S K

mutual
theorem script_in {S : Scalar → Prop} {K : RStr → Prop} (hn : S .null) (hu : S .undefined) :
    ∀ x : SVal, x.Every S K → ∀ s ∈ x.script, SStep.In S K s
  | .prim p, h => by simpa [SVal.script, SVal.Every, SStep.In, SStep.toOp, Op.In] using h
  | .char s, h => by simpa [SVal.script, SVal.Every, SStep.In, SStep.toOp, Op.In] using h
  | .none, h => by simpa [SVal.script, SStep.In, SStep.toOp, Op.In] using hn
  | .some v, h => by
    simp only [SVal.script]
    exact script_in hn hu v (by simpa [SVal.Every] using h)
  | .unit, h => by simpa [SVal.script, SStep.In, SStep.toOp, Op.In] using hu
  | .unitStruct, h => by simpa [SVal.script, SStep.In, SStep.toOp, Op.In] using hn
  | .unitVariant name, h => by simpa [SVal.script, SVal.Every, SStep.In, SStep.toOp, Op.In] using h
  | .newtypeStruct v, h => by
    simp only [SVal.script]
    exact script_in hn hu v (by simpa [SVal.Every] using h)
  | .newtypeVariant name v, h => by
    simp only [SVal.Every] at h
    have := script_in hn hu v h.2
    intro s hs
    simp [SVal.script] at hs
    rcases hs with rfl | rfl | hs | rfl
    · trivial
    · exact h.1
    · exact this s hs
    · trivial
  | .seq hint vs, h => by
    simp only [SVal.Every] at h
    have := scripts_in hn hu vs h.2
    intro s hs
    simp only [SVal.script, List.mem_cons, List.mem_append, List.not_mem_nil, or_false] at hs
    rcases hs with rfl | hs | rfl
    · trivial
    · exact this s hs
    · trivial
  | .tuple vs, h => by
    simp only [SVal.Every] at h
    have := scripts_in hn hu vs h
    intro s hs
    simp only [SVal.script, List.mem_cons, List.mem_append, List.not_mem_nil, or_false] at hs
    rcases hs with rfl | hs | rfl
    · trivial
    · exact this s hs
    · trivial
  | .tupleVariant name vs, h => by
    simp only [SVal.Every] at h
    have := scripts_in hn hu vs h.2
    intro s hs
    simp only [SVal.script, List.flatten_cons, List.flatten_nil, List.append_nil, List.mem_cons, List.mem_append,
      List.not_mem_nil, or_false] at hs
    rcases hs with rfl | (rfl | rfl | hs | rfl) | rfl
    · trivial
    · exact h.1
    · trivial
    · exact this s hs
    · trivial
    · trivial
  | .map kvs, h => by
    simp only [SVal.Every] at h
    have := entryScripts_in hn hu kvs h
    intro s hs
    simp only [SVal.script, List.mem_cons, List.mem_append, List.not_mem_nil, or_false] at hs
    rcases hs with rfl | hs | rfl
    · trivial
    · exact this s hs
    · trivial
  | .struct fs, h => by
    simp only [SVal.Every] at h
    have := fieldScripts_in hn hu fs h
    intro s hs
    simp only [SVal.script, List.mem_cons, List.mem_append, List.not_mem_nil, or_false] at hs
    rcases hs with rfl | hs | rfl
    · trivial
    · exact this s hs
    · trivial
  | .structVariant name fs, h => by
    simp only [SVal.Every] at h
    have := fieldScripts_in hn hu fs h.2
    intro s hs
    simp only [SVal.script, List.flatten_cons, List.flatten_nil, List.append_nil, List.mem_cons, List.mem_append,
      List.not_mem_nil, or_false] at hs
    rcases hs with rfl | (rfl | rfl | hs | rfl) | rfl
    · trivial
    · exact h.1
    · trivial
    · exact this s hs
    · trivial
    · trivial

theorem scripts_in {S : Scalar → Prop} {K : RStr → Prop} (hn : S .null) (hu : S .undefined) :
    ∀ vs : List SVal, SVal.EveryOf S K vs → ∀ s ∈ (SVal.scripts vs).flatten, SStep.In S K s
  | [], _ => by simp [SVal.scripts]
  | v :: vs, h => by
    simp only [SVal.EveryOf] at h
    have h1 := script_in hn hu v h.1
    have h2 := scripts_in hn hu vs h.2
    intro s hs
    simp only [SVal.scripts, List.flatten_cons, List.mem_append] at hs
    exact hs.elim (h1 s) (h2 s)

theorem entryScripts_in {S : Scalar → Prop} {K : RStr → Prop} (hn : S .null) (hu : S .undefined) :
    ∀ kvs : List (SVal × SVal), SVal.EveryEntry S K kvs → ∀ s ∈ (SVal.entryScripts kvs).flatten, SStep.In S K s
  | [], _ => by simp [SVal.entryScripts]
  | kv :: kvs, h => by
    simp only [SVal.EveryEntry] at h
    have h1 := script_in hn hu kv.2 h.2.1
    have h2 := entryScripts_in hn hu kvs h.2.2
    intro s hs
    simp only [SVal.entryScripts, List.flatten_cons, List.mem_append, List.mem_cons] at hs
    rcases hs with (rfl | hs) | hs
    · unfold SStep.In; rw [keyStep_toOp]; exact h.1
    · exact h1 s hs
    · exact h2 s hs

theorem fieldScripts_in {S : Scalar → Prop} {K : RStr → Prop} (hn : S .null) (hu : S .undefined) :
    ∀ fs : List (RStr × SVal), SVal.EveryField S K fs → ∀ s ∈ (SVal.fieldScripts fs).flatten, SStep.In S K s
  | [], _ => by simp [SVal.fieldScripts]
  | f :: fs, h => by
    simp only [SVal.EveryField] at h
    have h1 := script_in hn hu f.2 h.2.1
    have h2 := fieldScripts_in hn hu fs h.2.2
    intro s hs
    simp only [SVal.fieldScripts, List.flatten_cons, List.mem_append, List.mem_cons] at hs
    rcases hs with (rfl | hs) | hs
    · exact h.1
    · exact h1 s hs
    · exact h2 s hs
end

mutual
theorem every_mono {S S' : Scalar → Prop} {K K' : RStr → Prop} (hs : ∀ s, S s → S' s) (hk : ∀ k, K k → K' k) :
    ∀ x : SVal, x.Every S K → x.Every S' K'
  | .prim p, h => by simp only [SVal.Every] at h ⊢; exact hs _ h
  | .char s, h => by simp only [SVal.Every] at h ⊢; exact hs _ h
  | .none, h => by simp [SVal.Every]
  | .some v, h => by simp only [SVal.Every] at h ⊢; exact every_mono hs hk v h
  | .unit, h => by simp [SVal.Every]
  | .unitStruct, h => by simp [SVal.Every]
  | .unitVariant name, h => by simp only [SVal.Every] at h ⊢; exact hs _ h
  | .newtypeStruct v, h => by simp only [SVal.Every] at h ⊢; exact every_mono hs hk v h
  | .newtypeVariant name v, h => by simp only [SVal.Every] at h ⊢; exact ⟨hs _ h.1, every_mono hs hk v h.2⟩
  | .seq hint vs, h => by simp only [SVal.Every] at h ⊢; exact ⟨h.1, everyOf_mono hs hk vs h.2⟩
  | .tuple vs, h => by simp only [SVal.Every] at h ⊢; exact everyOf_mono hs hk vs h
  | .tupleVariant name vs, h => by simp only [SVal.Every] at h ⊢; exact ⟨hs _ h.1, everyOf_mono hs hk vs h.2⟩
  | .map kvs, h => by simp only [SVal.Every] at h ⊢; exact everyEntry_mono hs hk kvs h
  | .struct fs, h => by simp only [SVal.Every] at h ⊢; exact everyField_mono hs hk fs h
  | .structVariant name fs, h => by simp only [SVal.Every] at h ⊢; exact ⟨hs _ h.1, everyField_mono hs hk fs h.2⟩

theorem everyOf_mono {S S' : Scalar → Prop} {K K' : RStr → Prop} (hs : ∀ s, S s → S' s) (hk : ∀ k, K k → K' k) :
    ∀ vs : List SVal, SVal.EveryOf S K vs → SVal.EveryOf S' K' vs
  | [], _ => by simp [SVal.EveryOf]
  | v :: vs, h => by
    simp only [SVal.EveryOf] at h ⊢
    exact ⟨every_mono hs hk v h.1, everyOf_mono hs hk vs h.2⟩

theorem everyEntry_mono {S S' : Scalar → Prop} {K K' : RStr → Prop} (hs : ∀ s, S s → S' s) (hk : ∀ k, K k → K' k) :
    ∀ kvs : List (SVal × SVal), SVal.EveryEntry S K kvs → SVal.EveryEntry S' K' kvs
  | [], _ => by simp [SVal.EveryEntry]
  | kv :: kvs, h => by
    simp only [SVal.EveryEntry] at h ⊢
    exact ⟨hk _ h.1, every_mono hs hk kv.2 h.2.1, everyEntry_mono hs hk kvs h.2.2⟩

theorem everyField_mono {S S' : Scalar → Prop} {K K' : RStr → Prop} (hs : ∀ s, S s → S' s) (hk : ∀ k, K k → K' k) :
    ∀ fs : List (RStr × SVal), SVal.EveryField S K fs → SVal.EveryField S' K' fs
  | [], _ => by simp [SVal.EveryField]
  | f :: fs, h => by
    simp only [SVal.EveryField] at h ⊢
    exact ⟨hk _ h.1, every_mono hs hk f.2 h.2.1, everyField_mono hs hk fs h.2.2⟩
end

/-! ## Typed values have no bad keys -/

theorem badKeys_none {vs : List SVal} (h : ∀ v ∈ vs, v.badKey = none) : SVal.badKeys vs = none := by
  induction vs with
  | nil => simp [SVal.badKeys]
  | cons v vs ih => simp [SVal.badKeys, h v (by simp), ih fun v hv => h v (by simp [hv])]

theorem badFields_none {vs : List (RStr × SVal)} (h : ∀ v ∈ vs, v.2.badKey = none) : SVal.badFields vs = none := by
  induction vs with
  | nil => simp [SVal.badFields]
  | cons v vs ih => simp [SVal.badFields, h v (by simp), ih fun v hv => h v (by simp [hv])]

theorem badEntries_none {vs : List (RStr × SVal)} (h : ∀ v ∈ vs, v.2.badKey = none) :
    SVal.badEntries (vs.map fun e => (.prim (.str e.1), e.2)) = none := by
  induction vs with
  | nil => simp [SVal.badEntries]
  | cons v vs ih => simp [SVal.badEntries, SVal.text, SVal.bare, h v (by simp), ih fun v hv => h v (by simp [hv])]

theorem hasTy_noBadKey {types : List Ty} {ty : Ty} {x : SVal} (h : HasTy types ty x) : x.badKey = none := by
  have part : ∀ {α β : Type} {P : β → Prop} {ts : List α} {xs : List β}, ts.length = xs.length →
      (∀ (i : Nat) t x, ts[i]? = some t → xs[i]? = some x → P x) → ∀ x ∈ xs, P x := by
    intro α β P ts xs hl h x hx
    obtain ⟨i, hi, rfl⟩ := List.mem_iff_getElem.mp hx
    exact h i (ts[i]'(by omega)) xs[i] (by simp [show i < ts.length by omega]) (by simp)
  induction h with
  | seq _ ih => rw [SVal.badKey, badKeys_none ih]
  | tuple len _ ih => rw [SVal.badKey, badKeys_none (part (P := fun x : SVal => x.badKey = none) len ih)]
  | map _ _ ih => rw [SVal.badKey, badEntries_none ih]
  | @struct fs xs names _ _ ih =>
    rw [SVal.badKey, badFields_none (part (P := fun x : RStr × SVal => x.2.badKey = none) (by simpa using (congrArg List.length names).symm) ih)]
  | newtypeVariant _ _ _ ih => rw [SVal.badKey, ih]
  | tupleVariant _ _ len _ ih => rw [SVal.badKey, badKeys_none (part (P := fun x : SVal => x.badKey = none) len ih)]
  | structVariant _ _ names _ _ ih =>
    rw [SVal.badKey, badFields_none (part (P := fun x : RStr × SVal => x.2.badKey = none) (by simpa using (congrArg List.length names).symm) ih)]
  | named _ _ ih => exact ih
  | some _ ih => rw [SVal.badKey, ih]
  | newtypeStruct _ ih => rw [SVal.badKey, ih]
  | _ => simp [SVal.badKey]

end Fleece
