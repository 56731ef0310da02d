import Verif.Props.C41

/-! # C42 Deserializing ends -/

namespace Fleece.Props
open Fleece Res

/-- **C42**, as far as it holds: reading any input as any type ends (overflow-checked build), provided that every array that is
met where an enum is expected has the elements an enum has. (`diverge` is reaching the depth limit; from some depth on it is
not reached.) The proviso is necessary: `C42_refuted`. -/
theorem C42_terminates_partial (x : DeCtx) (hdbg : x.m.dbg = true) (hdecl : ∀ t ∈ x.types, t.Declared) (ty : Ty)
    (hroom : ∀ root, fromBytes x.m = .ok root → ∀ vs a, Meets x ty root (.enum vs) a → EnumRoom x.m vs a) :
    ∃ depth, ∀ fuel, depth ≤ fuel → Ty.fromBytes x fuel ty ≠ .diverge := by
  cases hok : fromBytes x.m with
  | ok root =>
    have hd : DeepOK x.m root := fromBytesGo_deep hdbg _ _ hok
    obtain ⟨N, hN⟩ := hd.de_fine hdecl ty (hroom root hok)
    refine ⟨N, fun fuel hf => ?_⟩
    unfold Ty.fromBytes
    simp only [hok, dread_ok, ok_bind, hd.new]
    exact (hN fuel false).2 hf
  | diverge =>
    have := fromBytesGo_safe x.m hdbg _ (Nat.le_refl _)
    unfold fromBytes at hok
    rw [hok] at this
    exact absurd this id
  | _ =>
    refine ⟨0, fun fuel _ => ?_⟩
    unfold Ty.fromBytes
    rw [hok]
    nofun

/-- **C42** for types without enums: no proviso. -/
theorem C42_no_enums (x : DeCtx) (hdbg : x.m.dbg = true) (hdecl : ∀ t ∈ x.types, t.Declared ∧ t.enumFree = true) (ty : Ty)
    (hty : ty.enumFree = true) : ∃ depth, ∀ fuel, depth ≤ fuel → Ty.fromBytes x fuel ty ≠ .diverge :=
  C42_terminates_partial x hdbg (fun t ht => (hdecl t ht).1) ty
    (fun _ _ => roomy_of_enumFree (fun t ht => (hdecl t ht).2) hty)

/-! ## Refutation -/

/-- `N` -/ def sN : RStr := ⟨[0x4E], by decide⟩

/-- `enum E { N(Box<E>) }`. -/
def loopTypes : List Ty := [.enum [(sN, .newtype (.named 0))]]

/-- `["N"]`: an array whose only element is the name, then the root pointer. -/
def loopDoc : List UInt8 := [0x60, 0x01, 0x41, 0x4E, 0x80, 0x02]

private abbrev lm : Mem := { data := loopDoc }

set_option maxRecDepth 20000 in
private theorem loop_format (F : FloatOps) (N : NumOps) (scope : Option SharedKeys) (fuel : Nat) :
    De.format ⟨lm, F, N, scope, loopTypes⟩ (fuel + 1) ⟨0, 4⟩ = .ok () := by
  have h1 : (⟨0, 4⟩ : Val).iter lm = .ok ⟨some ⟨2, 2⟩, 2, 0, 1⟩ := by decide +kernel
  have h2 : Iter.step lm ⟨some ⟨2, 2⟩, 2, 0, 1⟩ = .ok (some ⟨2, 2⟩, ⟨none, 2, 1, 1⟩) := by decide +kernel
  have h3 : Iter.step lm ⟨none, 2, 1, 1⟩ = .ok (none, ⟨none, 2, 1, 1⟩) := by decide +kernel
  have h4 : (⟨2, 2⟩ : Val).type lm = .ok .string := by decide +kernel
  have h5 : (⟨2, 2⟩ : Val).toStr lm = .ok [0x4E] := by decide +kernel
  simp [De.format, Val.debugArray, h1, ok_bind, Iter.debugItems, h2, h3, Val.debug, Val.debugField, h4, h5, dread_ok]

private theorem loop_de (F : FloatOps) (N : NumOps) (scope : Option SharedKeys) : ∀ (fuel : Nat),
    Ty.de ⟨lm, F, N, scope, loopTypes⟩ fuel (.named 0) ⟨⟨0, 4⟩, false⟩ = .diverge
  | 0 => rfl
  | 1 => rfl
  | 2 => by
    have h3 : (⟨0, 4⟩ : Val).asArray lm = .ok (some ⟨0, 4⟩) := by decide +kernel
    have h4 : (⟨0, 4⟩ : Val).get lm 0 = .ok (some ⟨2, 2⟩) := by decide +kernel
    have h1 : (⟨0, 4⟩ : Val).iter lm = .ok ⟨some ⟨2, 2⟩, 2, 0, 1⟩ := by decide +kernel
    have h2 : Iter.step lm ⟨some ⟨2, 2⟩, 2, 0, 1⟩ = .ok (some ⟨2, 2⟩, ⟨none, 2, 1, 1⟩) := by decide +kernel
    unfold Ty.de
    simp only [loopTypes, List.getElem?_cons_zero]
    unfold Ty.de
    simp only [De.enum, h3, dread_ok, ok_bind, De.part, De.elem, h4]
    simp only [De.format, Val.debugArray, h1, ok_bind, Iter.debugItems, h2, Val.debug]
    rfl
  | fuel + 3 => by
    have h3 : (⟨0, 4⟩ : Val).asArray lm = .ok (some ⟨0, 4⟩) := by decide +kernel
    have h4 : (⟨0, 4⟩ : Val).get lm 0 = .ok (some ⟨2, 2⟩) := by decide +kernel
    have h5 : (⟨0, 4⟩ : Val).get lm 1 = .ok (some ⟨0, 4⟩) := by decide +kernel
    have h6 : (⟨0, 4⟩ : Val).isWide lm = .ok false := by decide +kernel
    have h7 : (⟨2, 2⟩ : Val).type lm = .ok .string := by decide +kernel
    have h8 : (⟨0, 4⟩ : Val).type lm = .ok .array := by decide +kernel
    have h9 : (⟨2, 2⟩ : Val).toStr lm = .ok [0x4E] := by decide +kernel
    have n0 : De.new ⟨lm, F, N, scope, loopTypes⟩ ⟨2, 2⟩ false false = .ok ⟨⟨2, 2⟩, false⟩ := new_ok h7 (by simp) _ _
    have n1 : De.new ⟨lm, F, N, scope, loopTypes⟩ ⟨0, 4⟩ false false = .ok ⟨⟨0, 4⟩, false⟩ := new_ok h8 (by simp) _ _
    have hf := loop_format F N scope fuel
    have ih := loop_de F N scope (fuel + 1)
    unfold Ty.de
    have ht : loopTypes[0]? = some (.enum [(sN, .newtype (.named 0))]) := rfl
    simp only [ht]
    unfold Ty.de
    have hi : De.ident ⟨lm, F, N, scope, loopTypes⟩ [sN] ⟨⟨2, 2⟩, false⟩ = .ok (some 0) := by
      simp only [De.ident, De.any, h7, dread_ok, ok_bind, h9, pure_eq]
      rfl
    simp only [De.enum, h3, dread_ok, ok_bind, De.part, De.elem, h4, h5, h6, hf, n0, n1,
      pure_eq, List.map_cons, List.map_nil, hi, List.getElem?_cons_zero, ih]
    rfl

/-- **C42 is false of the code**: these 6 bytes are accepted; reading them as a value of
`enum E { N(Box<E>) }` recurses without end (the element after the last one is the root pointer). -/
theorem C42_refuted (F : FloatOps) (N : NumOps) (scope : Option SharedKeys) (fuel : Nat) :
    fromBytes { data := loopDoc } = .ok ⟨0, 4⟩ ∧
    Ty.fromBytes ⟨{ data := loopDoc }, F, N, scope, loopTypes⟩ fuel (.named 0) = .diverge := by
  have h1 : fromBytes lm = .ok ⟨0, 4⟩ := by decide +kernel
  have h2 : (⟨0, 4⟩ : Val).type lm = .ok .array := by decide +kernel
  refine ⟨h1, ?_⟩
  have n1 : De.new ⟨lm, F, N, scope, loopTypes⟩ ⟨0, 4⟩ false false = .ok ⟨⟨0, 4⟩, false⟩ := new_ok h2 (by simp) _ _
  have h := loop_de F N scope fuel
  simp only [Ty.fromBytes, h1, dread_ok, ok_bind, n1, h]

/-- A type without enums, for which the claims hold whatever the input: `Vec<Option<(u8, String)>>`. -/
example (m : Mem) (hdbg : m.dbg = true) (F : FloatOps) (N : NumOps) (scope : Option SharedKeys) :
    ∃ depth, ∀ fuel, depth ≤ fuel →
      Ty.fromBytes ⟨m, F, N, scope, []⟩ fuel (.seq (.option (.tuple [.int .u8, .string]))) ≠ .diverge :=
  C42_no_enums _ hdbg (by simp) _ (by simp [Ty.enumFree, Ty.enumFrees])

end Fleece.Props
