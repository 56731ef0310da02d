import Verif.Proofs.Rep
import Verif.Proofs.EncStep

/-! # A document: bytes followed by a root -/

namespace Fleece
open Res

variable {P : List UInt8 → Prop}

/-- One step of `deref_checked`. -/
theorem derefGo_step {m : Mem} {v : Val} {w : Bool} {off fuel : Nat} (h : Holds m v (ptrBytes w off)) (hm : off ≤ maxOff w)
    (heven : off % 2 = 0) (h0 : 0 < off) (hle : off ≤ v.pos) {ty : ValueType}
    (hty : Val.type m ⟨v.pos - off, off⟩ = .ok ty) :
    derefCheckedGo m (fuel + 1) w v =
      if ty = .pointer then derefCheckedGo m fuel true ⟨v.pos - off, off⟩ else .ok ⟨v.pos - off, off⟩ := by
  obtain ⟨b, tl, hb, ht, h40⟩ := ptr_first hm
  have hval := ptr_value hm heven
  have hl := ptrBytes_length w off
  have hraw := h.rawRead (a := 0) (n := (ptrBytes w off).length) (by omega)
  simp only [Nat.add_zero, List.drop_zero, List.take_length] at hraw
  have hin := h.hin
  have hle2 := h.le
  have hbyte : v.byte m 0 = .ok b := by rw [hb] at h; exact h.byte rfl
  have hoff : v.getOffset m w = .ok off := by
    unfold Val.getOffset
    cases w with
    | false =>
      simp only [Bool.false_eq_true, if_false] at hl hval ⊢
      rw [hl] at hraw
      rw [hraw]; simp only [ok_bind, pure_eq, hval]
    | true =>
      simp only [if_true] at hl hval ⊢
      rw [hl] at hraw
      rw [hraw]; simp only [ok_bind, pure_eq, hval]
  conv => lhs; unfold derefCheckedGo
  rw [if_neg (by cases w <;> simp_all <;> omega), hoff]
  simp only [ok_bind]
  rw [if_neg (by omega), hbyte]
  simp only [ok_bind, h40]
  unfold Val.In at hin
  rw [if_neg (by simp), if_neg (by omega), mkSlice_eq (by omega)]
  simp only [ok_bind, hty]
  rfl

theorem ptr_type {m : Mem} {v : Val} {w : Bool} {off : Nat} (h : Holds m v (ptrBytes w off)) (hm : off ≤ maxOff w) :
    v.type m = .ok .pointer := by
  obtain ⟨b, tl, hb, ht, _⟩ := ptr_first hm
  rw [hb] at h; rw [h.type, ht]

theorem find_root {m : Mem} {pre : List UInt8} {d p : Nat} (hd : m.data = pre ++ rootBytes d) (hpre : pre.length % 2 = 0)
    (hp : p + d = pre.length) (h2 : 0 < d) (heven : d % 2 = 0) (hmax : d ≤ SizedValue.maxWide) {ty : ValueType}
    (hty : Val.type m ⟨p, d⟩ = .ok ty) (hnp : ty ≠ .pointer) : findRoot m = .ok ⟨p, d⟩ := by
  unfold findRoot
  have hpd : pre.length - d = p := by omega
  by_cases hn : d ≤ SizedValue.maxNarrow
  · rw [rootBytes, if_pos hn] at hd
    have hlen : m.data.length = pre.length + 2 := by rw [hd]; simp [ptrBytes]
    have hat : At m.data pre.length (ptrBytes false d) := ⟨pre, [], by simp [hd], rfl⟩
    have hh : Holds m ⟨pre.length, 2⟩ (ptrBytes false d) :=
      hat.holds rfl (by unfold Val.In; simp only; omega) (by simp [ptrBytes])
    have hn : d ≤ maxOff false := Nat.le_trans hn (by decide)
    dsimp only
    rw [if_neg (by omega), hlen, show pre.length + 2 - 2 = pre.length by omega, ptr_type hh hn]
    simp only [ok_bind, if_true]
    unfold derefChecked
    rw [derefGo_step hh hn heven h2 (by simp only; omega) (by simp only [hpd]; exact hty), if_neg hnp]
    simp only [hpd]
  · rw [rootBytes, if_neg hn] at hd
    have hlen : m.data.length = pre.length + 6 := by rw [hd]; simp [ptrBytes]
    have hat : At m.data pre.length (ptrBytes true d) := ⟨pre, ptrBytes false 4, by simp [hd], rfl⟩
    have hat2 : At m.data (pre.length + 4) (ptrBytes false 4) := ⟨pre ++ ptrBytes true d, [], by simp [hd], by simp [ptrBytes]⟩
    have hh : Holds m ⟨pre.length, 4⟩ (ptrBytes true d) :=
      hat.holds rfl (by unfold Val.In; simp only; omega) (by simp [ptrBytes])
    have hh2 : Holds m ⟨pre.length + 4, 2⟩ (ptrBytes false 4) :=
      hat2.holds rfl (by unfold Val.In; simp only; omega) (by simp [ptrBytes])
    have h4 : 4 ≤ maxOff false := by decide
    have hmax : d ≤ maxOff true := Nat.le_trans hmax (by decide)
    dsimp only
    rw [if_neg (by omega), hlen, show pre.length + 6 - 2 = pre.length + 4 by omega, ptr_type hh2 h4]
    simp only [ok_bind, if_true]
    unfold derefChecked
    have hz : pre.length + 4 - 4 = pre.length := by omega
    rw [derefGo_step hh2 h4 rfl (by omega) (by simp only; omega)
      (by simp only [hz]; exact ptr_type hh hmax), if_pos rfl]
    simp only [hz]
    rw [show pre.length + 4 = pre.length + 3 + 1 from rfl,
      derefGo_step hh hmax heven h2 (by simp only; omega) (by simp only [hpd]; exact hty), if_neg hnp]
    simp only [hpd]

/-- A represented value, followed by its root, is a document: the decoder accepts it and reads exactly the value. -/
theorem Rep.document {m : Mem} (hbase : m.base + m.data.length < 2 ^ 64) {F : FloatOps} {scope : Option SharedKeys}
    {pre : List UInt8} {p e : Nat} {t : Tree} (h : Rep pre F P scope none p e t)
    (hd : m.data = pre ++ rootBytes (pre.length - p)) (hpre : pre.length % 2 = 0) (hp : p % 2 = 0)
    (hmax : pre.length - p ≤ SizedValue.maxWide) :
    fromBytes m = .ok ⟨p, pre.length - p⟩ ∧ Rep m.data F P scope none p e t ∧
      ValueOK m F scope ⟨p, pre.length - p⟩ e t := by
  have hpe := h.le
  have hr : Rep m.data F P scope none p e t := h.mono ⟨_, hd.symm⟩ (.refl _)
  have hlen : pre.length ≤ m.data.length := by rw [hd]; simp
  have hok := hr.ok hbase
  dsimp only at hok
  have hv := hok ⟨p, pre.length - p⟩ rfl (by unfold Val.In; simp only; omega) (by simp only; omega)
  obtain ⟨ty, h1, h2⟩ := hv.type
  refine ⟨?_, hr, hv⟩
  unfold fromBytes fromBytesGo
  rw [find_root hd hpre (by omega) (by omega) (by omega) hmax h1 h2]
  simp only [ok_bind]
  have hfuel : e ≤ fuelFor m.data.length := by
    unfold fuelFor
    have := Nat.mul_le_mul_left (m.data.length + 1) (show 1 ≤ m.data.length + 1 by omega)
    omega
  rw [hv.valid _ _ _ hfuel (by omega)]
  rfl

end Fleece
