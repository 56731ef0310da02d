import Verif.Proofs.Sim
import Verif.Props.C30

/-!
# C58 The output is not much larger than what was passed in

An encoder must not blow up its input: whatever is called, in whatever order, accepted or rejected, the output has at
most 24 bytes for each call and the bytes of the strings, data and keys passed in. (Rejected calls count: the code
writes some values before it finds that it has to reject them.)
-/

namespace Fleece.Props
open Fleece Res

/-- The bytes passed to a call. -/
def textBytes : Op → Nat
  | .key k => k.bytes.length
  | .value (.str s) => s.bytes.length
  | .value (.data d) => d.length
  | _ => 0

theorem weight_eq (op : Op) : op.weight = 24 + textBytes op := by
  cases op with
  | value x => cases x <;> rfl
  | _ => rfl

theorem total_eq (ops : List Op) : Op.total ops = 24 * ops.length + (ops.map textBytes).sum := by
  induction ops with
  | nil => rfl
  | cons op ops ih =>
    rw [Op.total_cons, ih, weight_eq]
    simp only [List.length_cons, List.map_cons, List.sum_cons]
    omega

/-- **C58.** Any calls, of which at most 1 GiB in this measure. The length of the output is also even. -/
theorem C58 (c : Cfg) (sk : Option SharedKeys) (hsk : ∀ s, sk = some s → s.WF) (ops : List Op)
    (hsize : 24 * ops.length + (ops.map textBytes).sum ≤ 0x3fffffff) (e : Enc) (rs : List (Except EncodeError Unit))
    (h : ({ Enc.new with sk } : Enc).run c ops = .ok (e, rs)) :
    ∃ out, e.finish c = .ok out ∧ out.length ≤ 24 * ops.length + (ops.map textBytes).sum ∧ out.length % 2 = 0 := by
  have hmax : SizedValue.maxWide = 0x3fffffff := rfl
  have hphi := newWith_phi sk
  have hwf := newWith_wf hsk
  rw [← total_eq] at hsize ⊢
  obtain ⟨hw, hp, _⟩ := Enc.run_inv ops hwf (by omega) h
  obtain ⟨h1, h2, _⟩ := Enc.closeN_inv (c := c) e.stack.length hw (by omega)
  have := Enc.phi_out (e.closeN c e.stack.length)
  exact ⟨_, Enc.finish_eq hw (by omega), by omega, h1.even⟩

/-- `{"cd": [1, "ab", {}], "ab": true}`. -/
example : ∃ e rs out, Enc.new.run exampleCfg exampleOps = .ok (e, rs) ∧ e.finish exampleCfg = .ok out ∧
    out.length ≤ 24 * 10 + 6 := by
  obtain ⟨out, h1, h2, _⟩ := C58 exampleCfg none (by simp) exampleOps (by decide) _ _ rfl
  exact ⟨_, _, out, rfl, h1, h2⟩

end Fleece.Props
