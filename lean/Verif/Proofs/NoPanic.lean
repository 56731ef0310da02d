import Verif.Proofs.Access
import Verif.Spec.Bytes

/-! # Absence of panics on tame input -/

namespace Fleece
open Res

/-- Not a panic. -/
def NP {ε α : Type} (x : Res ε α) : Prop := x ≠ .panic

theorem NP.bind {ε α β : Type} {x : Res ε α} {f : α → Res ε β} (hx : NP x) (hf : ∀ a, x = .ok a → NP (f a)) :
    NP (x >>= f) := by
  cases x with
  | ok a => exact hf a rfl
  | err e => intro h; cases h
  | panic => exact absurd rfl hx
  | ub => intro h; cases h
  | diverge => intro h; cases h

theorem NP.of_ok {ε α : Type} {x : Res ε α} (h : ∃ a, x = .ok a) : NP x := by
  obtain ⟨a, rfl⟩ := h; intro h; cases h

theorem NP.ok {ε α : Type} {a : α} : NP (Res.ok a : Res ε α) := by intro h; cases h
theorem NP.err {ε α : Type} {e : ε} : NP (Res.err e : Res ε α) := by intro h; cases h
theorem NP.ub {ε α : Type} : NP (Res.ub : Res ε α) := by intro h; cases h
theorem NP.diverge {ε α : Type} : NP (Res.diverge : Res ε α) := by intro h; cases h

theorem fromByte_str (b : UInt8) : (ValueType.fromByte b = .string ∨ ValueType.fromByte b = .data) ↔
    (0x40 ≤ b.toNat ∧ b.toNat < 0x60) := by
  revert b; exact forall_byte (by decide +kernel)

theorem fromByte_coll (b : UInt8) : (ValueType.fromByte b = .array ∨ ValueType.fromByte b = .dict) ↔
    (0x60 ≤ b.toNat ∧ b.toNat < 0x80) := by
  revert b; exact forall_byte (by decide +kernel)

theorem fromByte_ptr (b : UInt8) : ValueType.fromByte b = .pointer ↔ 0x80 ≤ b.toNat := by
  revert b; exact forall_byte (by decide +kernel)

theorem extern_bit (b : UInt8) (h : 0x80 ≤ b.toNat) : b &&& 0x40 ≠ 0 → 0xC0 ≤ b.toNat := by
  revert b; exact forall_byte (by decide +kernel)

theorem count_field (b0 b1 : UInt8) : ((b0 &&& 0x0F).toNat * 256 + b1.toNat) &&& 0x07FF
    = b0.toNat % 8 * 256 + b1.toNat := by
  have h : (0x07FF : Nat) = 2 ^ 11 - 1 := rfl
  rw [byte_and0f, h, Nat.and_two_pow_sub_one_eq_mod]
  have := b1.toNat_lt; have := b0.toNat_lt
  omega

section
variable {m : Mem} {v : Val}

theorem getShort_bytes (hv : v.In m) (hl : 2 ≤ v.len) :
    ∃ b0 b1, m.data[v.pos]? = some b0 ∧ m.data[v.pos + 1]? = some b1 ∧ v.byte m 0 = .ok b0 ∧
      v.getShort m = .ok ((b0 &&& 0x0F).toNat * 256 + b1.toNat) := by
  obtain ⟨b0, h0, hb0⟩ := byte_eq hv (show 0 < v.len by omega)
  obtain ⟨b1, h1, _⟩ := byte_eq hv (show 1 < v.len by omega)
  refine ⟨b0, b1, h0, h1, hb0, ?_⟩
  unfold Val.In at hv
  unfold Val.getShort Val.slice
  rw [if_pos (by omega), rawRead_eq (by omega)]
  simp only [ok_bind]
  have : (m.data.drop (v.pos + 0)).take (2 - 0) = [b0, b1] := by
    apply List.ext_getElem?
    intro i
    rw [List.getElem?_take]
    match i with
    | 0 => simpa using h0
    | 1 => simpa using h1
    | i + 2 => simp; omega
  rw [this]
  rfl

variable (hT : Spec.Tame m.data) (hv : v.In m) (he : v.pos % 2 = 0) (hl : 2 ≤ v.len)
include hT hv he hl

theorem tame_getData {t : ValueType} (ht : v.type m = .ok t) (hs : t = .string ∨ t = .data) :
    ∃ d, v.getData m = .ok d := by
  obtain ⟨b, h0, hb⟩ := byte_eq hv (show 0 < v.len by omega)
  rw [Nat.add_zero] at h0
  have hty := type_ok_iff.mp ht
  obtain ⟨b', hb', rfl⟩ := hty
  rw [hb] at hb'; cases hb'
  have hr := (fromByte_str b).mp hs
  have ht := (hT v.pos b he h0).1
  have hk : (b &&& 0x0F).toNat ≤ 1 := by rw [byte_and0f]; omega
  unfold Val.getData
  rw [if_neg (by omega)]
  simp only [hb, ok_bind]
  rw [if_neg (by omega)]
  unfold Val.slice
  rw [if_pos (by omega)]
  unfold Val.In at hv
  rw [rawRead_eq (by omega)]
  exact ⟨_, rfl⟩

theorem tame_requiredSize : ∃ r, v.requiredSize m = .ok r := by
  obtain ⟨t, ht⟩ := type_eq hv (show 0 < v.len by omega)
  obtain ⟨b, _, hb⟩ := byte_eq hv (show 0 < v.len by omega)
  unfold Val.requiredSize
  rw [ht]
  simp only [ok_bind]
  cases t <;> first
    | exact ⟨_, rfl⟩
    | (simp only [hb, ok_bind]; exact ⟨_, rfl⟩)
    | skip
  · obtain ⟨d, hd⟩ := tame_getData hT hv he hl ht (Or.inl rfl)
    simp only [hd, ok_bind]
    split
    · exact ⟨_, rfl⟩
    · split <;> exact ⟨_, rfl⟩
  · obtain ⟨d, hd⟩ := tame_getData hT hv he hl ht (Or.inr rfl)
    simp only [hd, ok_bind]
    split
    · exact ⟨_, rfl⟩
    · split <;> exact ⟨_, rfl⟩

theorem tame_count {t : ValueType} (ht : v.type m = .ok t) (hc : t = .array ∨ t = .dict) :
    v.firstPos m = .ok 2 ∧ ∃ n, v.arrayLen m = .ok n ∧ n ≤ 4094 := by
  obtain ⟨b0, b1, h0, h1, hb, hs⟩ := getShort_bytes hv hl
  obtain ⟨b', hb', rfl⟩ := type_ok_iff.mp ht
  rw [hb] at hb'; cases hb'
  have hr := (fromByte_coll b0).mp hc
  have htm := (hT v.pos b0 he h0).2.2
  have l0 := b0.toNat_lt; have l1 := b1.toNat_lt
  have hne : b0.toNat % 8 * 256 + b1.toNat ≠ 0x07FF := by
    intro hh
    apply htm
    refine ⟨hr.1, hr.2, by omega, ?_⟩
    rw [h1]
    congr 1
    apply byte_ext
    show b1.toNat = 255
    omega
  constructor
  · unfold Val.firstPos
    rw [if_neg (by omega)]
    simp only [hs, ok_bind, count_field]
    rw [if_neg hne]; rfl
  · unfold Val.arrayLen
    simp only [hs, ok_bind, count_field]
    rw [if_neg hne]
    simp only [ht, ok_bind]
    split
    · refine ⟨(b0.toNat % 8 * 256 + b1.toNat) * 2, ?_, by omega⟩
      unfold usizeMul; rw [if_pos (by omega)]
    · exact ⟨_, rfl, by omega⟩

end

theorem tame_derefCheckedGo {m : Mem} (hT : Spec.Tame m.data) (fuel : Nat) (w : Bool) (v : Val) (hv : v.In m)
    (he : v.pos % 2 = 0) (hp : v.type m = .ok .pointer) : NP (derefCheckedGo m fuel w v) := by
  induction fuel generalizing w v with
  | zero => exact NP.diverge
  | succ f ih =>
    unfold derefCheckedGo
    split
    · exact NP.err
    · rename_i hlen
      have hlen' : (if w then 4 else 2) ≤ v.len := by
        cases w <;> simp at hlen ⊢ <;> omega
      apply NP.bind
      · have hsz : v.pos + (if w then 4 else 2) ≤ m.data.length := by unfold Val.In at hv; omega
        unfold Val.getOffset
        cases w
        · simp only [Bool.false_eq_true, if_false] at hsz ⊢
          rw [rawRead_eq hsz]; exact NP.ok
        · simp only [if_true] at hsz ⊢
          rw [rawRead_eq hsz]; exact NP.ok
      · intro o ho
        have hoe : o % 2 = 0 := by
          unfold Val.getOffset at ho
          cases w <;> (simp only [Bool.false_eq_true, if_false, if_true] at ho;
                       rw [bind_eq_ok] at ho; obtain ⟨bs, _, ho⟩ := ho; cases ho; omega)
        split
        · exact NP.err
        · have hl0 : 0 < v.len := by cases w <;> simp at hlen' <;> omega
          obtain ⟨b, h0, hb⟩ := byte_eq hv hl0
          rw [Nat.add_zero] at h0
          simp only [hb, ok_bind]
          obtain ⟨b', hb', hty⟩ := type_ok_iff.mp hp
          rw [hb] at hb'; cases hb'
          have h80 := (fromByte_ptr b).mp hty
          have hx := (hT v.pos b he h0).2.1
          rw [if_neg (fun hc => hx (extern_bit b h80 hc))]
          split
          · exact NP.err
          · rename_i hpos
            unfold Val.In at hv
            rw [mkSlice_eq (by omega)]
            simp only [ok_bind]
            have htin : (⟨v.pos - o, o⟩ : Val).In m := by unfold Val.In; simp; omega
            obtain ⟨t, ht⟩ := type_eq htin (show 0 < o by omega)
            simp only [ht, ok_bind]
            split
            · rename_i htp; subst htp
              exact ih true _ htin (by simp; omega) ht
            · exact NP.ok

theorem tame_derefChecked_even {m : Mem} (fuel : Nat) (w : Bool) (v t : Val)
    (he : v.pos % 2 = 0) (h : derefCheckedGo m fuel w v = .ok t) : t.pos % 2 = 0 := by
  induction fuel generalizing w v with
  | zero => cases h
  | succ f ih =>
    unfold derefCheckedGo at h
    split at h
    · cases h
    · rw [bind_eq_ok] at h; obtain ⟨o, ho, h⟩ := h
      have hoe : o % 2 = 0 := by
        unfold Val.getOffset at ho
        cases w <;> (simp only [Bool.false_eq_true, if_false, if_true] at ho;
                     rw [bind_eq_ok] at ho; obtain ⟨bs, _, ho⟩ := ho; cases ho; omega)
      split at h
      · cases h
      · rw [bind_eq_ok] at h; obtain ⟨b, hb, h⟩ := h
        split at h
        · cases h
        · split at h
          · cases h
          · rw [bind_eq_ok] at h; obtain ⟨x, hx, h⟩ := h
            obtain ⟨rfl, _⟩ := mkSlice_ok hx
            rw [bind_eq_ok] at h; obtain ⟨ty, _, h⟩ := h
            split at h
            · exact ih true _ (by simp; omega) h
            · cases h; simp; omega

theorem tame_fromRaw {m : Mem} (hT : Spec.Tame m.data) {p w : Nat} (hp : p % 2 = 0) (hw : 2 ≤ w)
    (hin : p + w ≤ m.data.length) : NP (fromRaw m p w) := by
  unfold fromRaw
  rw [mkSlice_eq hin]
  simp only [ok_bind]
  rw [if_neg (by omega)]
  have hvin : (⟨p, w⟩ : Val).In m := hin
  obtain ⟨r, hr⟩ := tame_requiredSize hT hvin hp hw
  simp only [hr, ok_bind]
  split
  · obtain ⟨t, ht⟩ := type_eq hvin (show 0 < w by omega)
    rw [ht]; exact NP.err
  · exact NP.ok

theorem tame_validateElems {m : Mem} (hT : Spec.Tame m.data) (rec : Val → Nat → R Unit) (w n cur bound : Nat)
    (hw : w % 2 = 0) (hw2 : 2 ≤ w) (hc : cur % 2 = 0) (hb : cur + n * w ≤ bound) (hbd : bound ≤ m.data.length)
    (hrec : ∀ e : Val, e.In m → e.len = w → e.pos % 2 = 0 → e.pos + w ≤ bound → NP (rec e (e.pos + w))) :
    NP (validateElems m rec w n cur) := by
  induction n generalizing cur with
  | zero => exact NP.ok
  | succ n ih =>
    unfold validateElems
    rw [Nat.add_mul] at hb
    apply NP.bind (tame_fromRaw hT hc hw2 (by omega))
    intro e hfe
    obtain ⟨rfl, hein, _, _⟩ := fromRaw_ok hfe
    apply NP.bind (hrec _ hein rfl hc (by simp; omega))
    intro _ _
    exact ih (cur + w) (by omega) (by omega)

/-- Room for the address arithmetic of the validator. -/
def AddressOK (m : Mem) : Prop := m.base + m.data.length + 2 ^ 16 ≤ 2 ^ 64

theorem tame_validateGo {m : Mem} (hT : Spec.Tame m.data) (ha : AddressOK m) (fuel : Nat)
    (isArr w : Bool) (v : Val) (de : Nat) (hv : v.In m) (he : v.pos % 2 = 0) (hl : 2 ≤ v.len)
    (hde : v.pos + 2 ≤ de) (hdl : de ≤ m.data.length) : NP (validateGo m fuel isArr w v de) := by
  unfold AddressOK at ha
  induction fuel generalizing isArr w v de with
  | zero => exact NP.diverge
  | succ f ih =>
    obtain ⟨t, ht⟩ := type_eq hv (show 0 < v.len by omega)
    have harr : (t = .array ∨ t = .dict) → NP (arrayValidate m (fun w => validateGo m f true w) v de) := by
      intro hc
      obtain ⟨hfp, n, hn, hn4⟩ := tame_count hT hv he hl ht hc
      obtain ⟨b, _, hb⟩ := byte_eq hv (show 0 < v.len by omega)
      have hw' : ∃ w, v.isWide m = .ok w := by unfold Val.isWide; rw [hb]; exact ⟨_, rfl⟩
      obtain ⟨w', hw'⟩ := hw'
      unfold arrayValidate
      simp only [hw', hn, hfp, ok_bind]
      have hwv : (if w' = true then 4 else 2) ≤ 4 ∧ 2 ≤ (if w' = true then 4 else 2) ∧
          (if w' = true then 4 else 2) % 2 = 0 := by cases w' <;> simp
      generalize (if w' = true then 4 else 2) = W at hwv ⊢
      have hnW : n * W ≤ 4094 * 4 := Nat.mul_le_mul hn4 hwv.1
      have hmul : usizeMul (ε := DecodeError) m.dbg n W = .ok (n * W) := by
        unfold usizeMul; rw [if_pos (by omega)]
      have hadd : usizeAdd (ε := DecodeError) m.dbg (m.base + (v.pos + 2)) (n * W)
          = .ok (m.base + (v.pos + 2) + n * W) := by
        unfold usizeAdd; rw [if_pos (by omega)]
      simp only [hmul, hadd, ok_bind]
      split
      · have hsub : usizeSub (ε := DecodeError) m.dbg (m.base + de) (m.base + (v.pos + 2))
            = .ok (m.base + de - (m.base + (v.pos + 2))) := by
          unfold usizeSub; rw [if_pos (by omega)]
        rw [hsub]; exact NP.err
      · apply tame_validateElems hT _ W n (v.pos + 2) de hwv.2.2 hwv.2.1 (by omega) (by omega) hdl
        intro e hein hel hee heb
        exact ih true w' e _ hein hee (by omega) (by omega) (by omega)
    unfold validateGo
    rw [ht]
    simp only [ok_bind]
    have hsc : NP (do
        if isArr = true then pure ()
        else do
          let r ← v.requiredSize m
          if m.base + v.pos + r ≤ m.base + de then pure ()
          else do
            let avail ← usizeSub m.dbg (m.base + de) (m.base + v.pos)
            .err (.valueOutOfBounds t r avail) : R Unit) := by
      split
      · exact NP.ok
      · obtain ⟨r, hr⟩ := tame_requiredSize hT hv he hl
        simp only [hr, ok_bind]
        split
        · exact NP.ok
        · have hsub : usizeSub (ε := DecodeError) m.dbg (m.base + de) (m.base + v.pos)
              = .ok (m.base + de - (m.base + v.pos)) := by
            unfold usizeSub; rw [if_pos (by omega)]
          simp only [hsub, ok_bind]
          exact NP.err
    cases t <;> first
      | exact harr (Or.inl rfl)
      | exact harr (Or.inr rfl)
      | exact hsc
      | skip
    apply NP.bind (tame_derefCheckedGo hT _ _ _ hv he ht)
    intro x hx
    have hxo := derefChecked_ok (m := m) hx
    exact ih false w x v.pos hxo.1 (tame_derefChecked_even _ _ _ _ he hx) hxo.2.2.1 (by omega)
      (by unfold Val.In at hv; omega)

theorem tame_findRoot {m : Mem} (hT : Spec.Tame m.data) : NP (findRoot m) := by
  unfold findRoot
  dsimp only
  split
  · exact NP.err
  · rename_i hn
    have hin : (⟨m.data.length - 2, 2⟩ : Val).In m := by unfold Val.In; simp; omega
    obtain ⟨t, ht⟩ := type_eq hin (show 0 < 2 by omega)
    simp only [ht, ok_bind]
    split
    · rename_i h; subst h
      exact tame_derefCheckedGo hT _ _ _ hin (by simp; omega) ht
    · split
      · exact NP.ok
      · exact NP.err

theorem findRoot_even {m : Mem} {v : Val} (h : findRoot m = .ok v) :
    v.pos % 2 = 0 ∧ v.pos + 2 ≤ m.data.length := by
  unfold findRoot at h
  dsimp only at h
  split at h
  · cases h
  · rename_i hn
    rw [bind_eq_ok] at h; obtain ⟨t, _, h⟩ := h
    split at h
    · have := derefChecked_ok h
      exact ⟨tame_derefChecked_even _ _ _ _ (by simp; omega) h, by have := this.2.1; simp at this; omega⟩
    · split at h
      · cases h; simp; omega
      · cases h

theorem tame_fromBytes {m : Mem} (hT : Spec.Tame m.data) (ha : AddressOK m) (fuel : Nat) :
    NP (fromBytesGo m fuel) := by
  unfold fromBytesGo
  apply NP.bind (tame_findRoot hT)
  intro r hr
  have h1 := findRoot_ok hr
  have h2 := findRoot_even hr
  apply NP.bind (tame_validateGo hT ha fuel false false r _ h1.1 h2.1 h1.2.2.1 h2.2 (Nat.le_refl _))
  intro _ _
  exact NP.ok

end Fleece
