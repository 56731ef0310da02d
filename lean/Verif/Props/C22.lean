import Verif.Proofs.EncGrow
import Verif.Props.C18

/-! # C22 Output is always even-sized and append-only -/

namespace Fleece.Props
open Fleece Res

/-- **C22.** Whatever a call does, in whatever state and of whatever size, nothing already written changes, and an even
length stays even. -/
theorem C22_append_only (c : Cfg) (e e' : Enc) (op : Op) (r : Except EncodeError Unit) (h : e.step c op = .ok (e', r)) :
    e.out <+: e'.out ∧ (e.out.length % 2 = 0 → e'.out.length % 2 = 0) :=
  ⟨(Enc.step_grows h).pre, (Enc.step_grows h).even⟩

/-- The same for any sequence of calls. -/
theorem C22_run_append_only (c : Cfg) (ops : List Op) : ∀ (e e' : Enc) (rs : List (Except EncodeError Unit)),
    e.run c ops = .ok (e', rs) → e.out <+: e'.out ∧ (e.out.length % 2 = 0 → e'.out.length % 2 = 0) := by
  induction ops with
  | nil => intro e e' rs h; cases h; exact ⟨List.prefix_refl _, id⟩
  | cons op ops ih =>
    intro e e' rs h
    obtain ⟨e1, r, rs', h1, h2, rfl⟩ := Enc.run_cons h
    obtain ⟨a1, a2⟩ := C22_append_only c e e1 op r h1
    obtain ⟨b1, b2⟩ := ih e1 e' rs' h2
    exact ⟨a1.trans b1, fun h => b2 (a2 h)⟩

/-- After any sequence of calls on a fresh encoder the output is even. -/
theorem C22_even (c : Cfg) (sk : Option SharedKeys) (ops : List Op) (e : Enc) (rs : List (Except EncodeError Unit))
    (h : ({ Enc.new with sk } : Enc).run c ops = .ok (e, rs)) : e.out.length % 2 = 0 :=
  (C22_run_append_only c ops _ e rs h).2 rfl

/-- `finish` closes everything that is open: `_end` leaves no collection open, and the result extends the output and is
even. -/
theorem C22_finish (c : Cfg) (e : Enc) (out : List UInt8) (h : e.finish c = .ok out) :
    ∃ e', Enc.endGo c e.stack.length e = .ok e' ∧ e'.stack = [] ∧ e'.out = out ∧ e.out <+: out ∧
      (e.out.length % 2 = 0 → out.length % 2 = 0) := by
  unfold Enc.finish at h
  obtain ⟨e', h1, h⟩ := bind_eq_ok.mp h
  cases h
  obtain ⟨g, hs⟩ := Enc.endGo_grows _ h1
  exact ⟨e', h1, hs, rfl, g.pre, g.even⟩

theorem closeTop_single {c : Cfg} {e : Enc} {coll : Collection} (hs : e.stack = [coll]) : (e.closeTop c).closed = true := by
  unfold Enc.closeTop
  rw [hs]
  cases coll <;> rfl

theorem closeN_closed {c : Cfg} (n : Nat) : ∀ {e : Enc}, e.WF → e.phi ≤ SizedValue.maxWide → e.stack.length = n →
    (n ≠ 0 ∨ e.closed = true) → (e.closeN c n).closed = true := by
  induction n with
  | zero => intro e _ _ _ h; exact h.resolve_left (fun h => h rfl)
  | succ n ih =>
    intro e hw hp hl _
    obtain ⟨h1, h2, h3, _⟩ := Enc.closeTop_inv (c := c) hw hp
    refine ih h1 (by omega) (by omega) ?_
    match n, hl with
    | 0, hl =>
      obtain ⟨coll, hs⟩ := List.length_eq_one_iff.mp hl
      exact .inr (closeTop_single hs)
    | n + 1, _ => exact .inl (by omega)

/-- In every reachable state (below 1 GiB) `finish` returns, and if a collection has been opened the document is complete:
the top-level collection is closed. -/
theorem C22_finish_returns (c : Cfg) (n : Nat) (hn : n ≤ SizedValue.maxWide) (e : Enc) (h : Reached c n e) :
    ∃ e', Enc.endGo c e.stack.length e = .ok e' ∧ e.finish c = .ok e'.out ∧ e'.stack = [] ∧
      (e.stack ≠ [] ∨ e.closed = true → e'.closed = true) := by
  obtain ⟨hw, hp⟩ := h.inv hn
  obtain ⟨_, _, h3, _⟩ := Enc.closeN_inv (c := c) e.stack.length hw (by omega)
  refine ⟨_, Enc.endGo_eq _ hw (by omega) rfl, Enc.finish_eq hw (by omega), ?_, fun ho => ?_⟩
  · exact List.length_eq_zero_iff.mp (by omega)
  · exact closeN_closed _ hw (by omega) rfl (ho.imp (fun h h' => h (List.length_eq_zero_iff.mp h')) id)

/-- A dict left open in an array left open, with a dangling key: `finish` writes both and the root. -/
example : (do
    let (e, _) ← Enc.new.run exampleCfg [.beginArray 0, .beginDict, .key ⟨[0x61, 0x62], by decide⟩, .value (.bool true),
      .key ⟨[0x63, 0x63], by decide⟩]
    e.finish exampleCfg : Exec (List UInt8)) =
    .ok [0x42, 0x61, 0x62, 0, 0x42, 0x63, 0x63, 0, 0x70, 1, 0x80, 5, 0x38, 0, 0x60, 1, 0x80, 4, 0x80, 2] := by
  decide +kernel

/-- Appending to a buffer of odd length (`new_to_vec`) makes it even with the first byte written. -/
example : (do
    let (e, _) ← (Enc.newToVec [7]).run exampleCfg [.beginArray 0, .endArray]
    pure e.out : Exec (List UInt8)) = .ok [7, 0x60, 0, 0, 0x80, 1] := by decide +kernel

end Fleece.Props
