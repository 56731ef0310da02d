import Verif.Proofs.DeSafe

/-! # C41 Deserializing does not read outside the input -/

namespace Fleece.Props
open Fleece Res

private theorem deep (m : Mem) (hdbg : m.dbg = true) (root : Val) (hok : fromBytes m = .ok root)
    (m' : Mem) (hm : m' = m ∨ m' = { m with dbg := false }) : DeepOK m' root := by
  have hd : DeepOK m root := fromBytesGo_deep hdbg _ _ hok
  rcases hm with rfl | rfl
  · exact hd
  · exact hd.rel hdbg

/-- **C41**, as far as it holds: reading any input as any type (`from_bytes::<T>`, overflow-checked build) never reads outside
the buffer, provided that every array that is met where an enum is expected has the elements an enum has. The proviso is
necessary: `C41_refuted`. -/
theorem C41_in_bounds_partial (x : DeCtx) (hdbg : x.m.dbg = true) (hdecl : ∀ t ∈ x.types, t.Declared) (ty : Ty)
    (hroom : ∀ root, fromBytes x.m = .ok root → ∀ vs a, Meets x ty root (.enum vs) a → EnumRoom x.m vs a) (fuel : Nat) :
    Ty.fromBytes x fuel ty ≠ .ub := by
  suffices (Ty.fromBytes x fuel ty).Fine False from this.1
  unfold Ty.fromBytes
  refine (fromBytesGo_safe x.m hdbg _ (Nat.le_refl _)).fread.bind fun root hok => ?_
  have hok' : fromBytes x.m = .ok root := dread_eq_ok.mp hok
  have hd := deep x.m hdbg root hok' x.m (Or.inl rfl)
  rw [hd.new]
  obtain ⟨N, hN⟩ := hd.de_fine hdecl ty (hroom root hok')
  exact (hN fuel false).mono False.elim

/-- **C41** for types without enums: no proviso. -/
theorem C41_no_enums (x : DeCtx) (hdbg : x.m.dbg = true) (hdecl : ∀ t ∈ x.types, t.Declared ∧ t.enumFree = true) (ty : Ty)
    (hty : ty.enumFree = true) (fuel : Nat) : Ty.fromBytes x fuel ty ≠ .ub :=
  C41_in_bounds_partial x hdbg (fun t ht => (hdecl t ht).1) ty
    (fun _ _ => roomy_of_enumFree (fun t ht => (hdecl t ht).2) hty) fuel

/-- **C41** in the other build profile, for inputs the overflow-checked build accepts. -/
theorem C41_release_partial (m : Mem) (hdbg : m.dbg = true) (root : Val) (hok : fromBytes m = .ok root) (x : DeCtx)
    (hm : x.m = { m with dbg := false }) (hdecl : ∀ t ∈ x.types, t.Declared) (ty : Ty)
    (hroom : ∀ vs a, Meets x ty root (.enum vs) a → EnumRoom x.m vs a) (fuel : Nat) (k : Bool) :
    Ty.de x fuel ty ⟨root, k⟩ ≠ .ub := by
  obtain ⟨N, hN⟩ := (deep m hdbg root hok x.m (Or.inr hm)).de_fine hdecl ty hroom
  exact (hN fuel k).1

/-- **C41 is false of the code**: an empty array, two bytes, is accepted; reading it as any enum reads two bytes beyond the
end of the buffer. -/
theorem C41_refuted (F : FloatOps) (N : NumOps) (scope : Option SharedKeys) (types : List Ty) (vs : List (RStr × Variant))
    (fuel : Nat) : Ty.fromBytes ⟨{ data := [0x60, 0x00] }, F, N, scope, types⟩ (fuel + 1) (.enum vs) = .ub := by
  have h1 : fromBytes { data := [0x60, 0x00] } = .ok ⟨0, 2⟩ := by decide +kernel
  have h2 : (⟨0, 2⟩ : Val).type { data := [0x60, 0x00] } = .ok .array := by decide +kernel
  have h3 : (⟨0, 2⟩ : Val).asArray { data := [0x60, 0x00] } = .ok (some ⟨0, 2⟩) := by decide +kernel
  have h4 : (⟨0, 2⟩ : Val).get { data := [0x60, 0x00] } 0 = .ub := by decide +kernel
  simp only [Ty.fromBytes, h1, dread_ok, ok_bind, De.new, h2, Ty.de, De.enum, De.part, De.elem]
  simp [h3, h4, D.read]

/-! ## The hypotheses can be met -/

/-- `Abc` -/ def sAbc : RStr := ⟨[0x41, 0x62, 0x63], by decide⟩
/-- `Xyz` -/ def sXyz : RStr := ⟨[0x58, 0x79, 0x7A], by decide⟩

/-- `enum E { Abc, Xyz(Box<E>) }`. -/
def demoTypes : List Ty := [.enum [(sAbc, .unit), (sXyz, .newtype (.named 0))]]

/-- `["Abc"]`, as the serializer writes it. -/
def demoDoc : List UInt8 := [0x43, 0x41, 0x62, 0x63, 0x60, 0x01, 0x80, 0x03, 0x80, 0x02]

private abbrev dm : Mem := { data := demoDoc }

example (F : FloatOps) (N : NumOps) (fuel : Nat) :
    Ty.fromBytes ⟨{ data := demoDoc }, F, N, none, demoTypes⟩ fuel (.named 0) ≠ .ub := by
  have hroot : fromBytes dm = .ok ⟨4, 4⟩ := by decide +kernel
  have hlen : (⟨4, 4⟩ : Val).arrayLen dm = .ok 1 := by decide +kernel
  have hget : (⟨4, 4⟩ : Val).getUnchecked dm 0 = .ok ⟨0, 6⟩ := by decide +kernel
  refine C41_in_bounds_partial _ rfl (by simp [demoTypes, Ty.Declared]) _ ?_ fuel
  intro root hok
  have : root = ⟨4, 4⟩ := by
    have h : fromBytes dm = .ok root := hok
    rw [hroot] at h; cases h; rfl
  subst this
  intro vs a hm
  -- only the root is read as an enum
  have hreach : ∀ ty v, Meets ⟨dm, F, N, none, demoTypes⟩ (.named 0) ⟨4, 4⟩ ty v →
      v = ⟨4, 4⟩ ∧ (ty = .named 0 ∨ ty = .enum [(sAbc, .unit), (sXyz, .newtype (.named 0))]) := by
    intro ty v hm
    induction hm with
    | refl => exact ⟨rfl, Or.inl rfl⟩
    | step _ ha ih =>
      obtain ⟨rfl, rfl | rfl⟩ := ih
      · cases ha with
        | named decl => cases decl; exact ⟨rfl, Or.inr rfl⟩
      · cases ha with
        | newtypeVariant mem el =>
          obtain ⟨n, h1, h2, _⟩ := el
          rw [hlen] at h1; cases h1; omega
        | tupleVariant mem => simp at mem
        | structVariant mem => simp at mem
  obtain ⟨rfl, h | h⟩ := hreach _ _ hm
  · cases h
  · cases h
    intro _
    refine ⟨1, hlen, Nat.le_refl _, Or.inr fun e he => ?_⟩
    obtain ⟨_, _, _, hg⟩ := he
    have : e = ⟨0, 6⟩ := by
      have h : (⟨4, 4⟩ : Val).getUnchecked dm 0 = .ok e := hg
      rw [hget] at h; cases h; rfl
    subst this
    have ht : (⟨0, 6⟩ : Val).type dm = .ok .string := by decide +kernel
    have hs : (⟨0, 6⟩ : Val).toStr dm = .ok [0x41, 0x62, 0x63] := by decide +kernel
    have hd : (⟨0, 6⟩ : Val).toData dm = .ok [0x41, 0x62, 0x63] := by decide +kernel
    refine ⟨by show (⟨0, 6⟩ : Val).type dm ≠ _; rw [ht]; nofun, fun k d hmem hu => ?_⟩
    show (⟨0, 6⟩ : Val).toStr dm ≠ _ ∧ (⟨0, 6⟩ : Val).toData dm ≠ _
    rw [hs, hd]
    simp only [List.mem_cons, Prod.mk.injEq, List.not_mem_nil, or_false] at hmem
    rcases hmem with ⟨_, rfl⟩ | ⟨rfl, _⟩
    · exact absurd rfl hu
    · simp [sXyz]

end Fleece.Props
