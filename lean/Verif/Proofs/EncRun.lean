import Verif.Proofs.EncInv

/-! # Sequences of calls, and `finish` -/

namespace Fleece
open Res

theorem Enc.run_nil (c : Cfg) (e : Enc) : e.run c [] = .ok (e, []) := rfl

theorem Enc.run_cons {c : Cfg} {e e'' : Enc} {op : Op} {ops : List Op} {rs : List (Except EncodeError Unit)}
    (h : e.run c (op :: ops) = .ok (e'', rs)) :
    ∃ e' r rs', e.step c op = .ok (e', r) ∧ e'.run c ops = .ok (e'', rs') ∧ rs = r :: rs' := by
  unfold Enc.run at h
  obtain ⟨⟨e1, r1⟩, h1, h⟩ := bind_eq_ok.mp h
  obtain ⟨⟨e2, rs2⟩, h2, h⟩ := bind_eq_ok.mp h
  cases h
  exact ⟨e1, r1, rs2, h1, h2, rfl⟩

theorem Op.total_cons (op : Op) (ops : List Op) : Op.total (op :: ops) = op.weight + Op.total ops := by
  simp [Op.total]

/-- The invariant along a sequence of calls. -/
theorem Enc.run_inv {c : Cfg} (ops : List Op) : ∀ {e e' : Enc} {rs : List (Except EncodeError Unit)}, e.WF →
    e.phi + Op.total ops ≤ SizedValue.maxWide → e.run c ops = .ok (e', rs) →
    e'.WF ∧ e'.phi ≤ e.phi + Op.total ops ∧ e.out <+: e'.out ∧ SkLe e.sk e'.sk := by
  have hmw : SizedValue.maxWide < 2 ^ 32 := by decide
  induction ops with
  | nil => intro e e' rs hw _ h; cases h; exact ⟨hw, by omega, List.prefix_refl _, SkLe.refl _⟩
  | cons op ops ih =>
    intro e e' rs hw hp h
    rw [Op.total_cons] at hp ⊢
    obtain ⟨e1, r, rs', h1, h2, rfl⟩ := Enc.run_cons h
    have ht := Enc.step_trans hw (by omega) (by omega) h1
    obtain ⟨hw1, hp1⟩ := ht.inv hw (by omega) (by omega)
    obtain ⟨hg, hk⟩ := ht.grows hw (by omega)
    obtain ⟨h3, h4, h5, h6⟩ := ih hw1 (by omega) h2
    exact ⟨h3, by omega, hg.trans h5, hk.trans h6⟩

/-- Accepted calls all return. -/
theorem Enc.run_ok {c : Cfg} (ops : List Op) : ∀ {e : Enc}, e.WF → e.phi + Op.total ops ≤ SizedValue.maxWide →
    (∀ op ∈ ops, op.Accepted) → ∃ e' rs, e.run c ops = .ok (e', rs) := by
  have hmw : SizedValue.maxWide < 2 ^ 32 := by decide
  induction ops with
  | nil => intro e _ _ _; exact ⟨_, _, rfl⟩
  | cons op ops ih =>
    intro e hw hp ha
    rw [Op.total_cons] at hp
    obtain ⟨e1, r, h1⟩ := Enc.step_ok (c := c) hw (by omega) (by omega) (ha op (by simp))
    have ht := Enc.step_trans hw (by omega) (by omega) h1
    obtain ⟨hw1, hp1⟩ := ht.inv hw (by omega) (by omega)
    obtain ⟨e2, rs, h2⟩ := ih hw1 (by omega) (fun o ho => ha o (List.mem_cons_of_mem _ ho))
    refine ⟨e2, r :: rs, ?_⟩
    unfold Enc.run
    rw [h1]; simp only [ok_bind]; rw [h2]; rfl

/-! ## Closing everything -/

/-- The specification's `finish`, one collection. -/
def Build.closeTop (b : Build) : Build :=
  match b.stack with
  | [] => b
  | .arr xs :: rest => Build.close rest (.arr xs)
  | .dict kvs _ :: rest => Build.close rest (.dict kvs)

/-- The innermost collection closed, a dangling key dropped. -/
def Enc.closeTop (c : Cfg) (e : Enc) : Enc :=
  match e.stack with
  | [] => e
  | .arr vs :: rest => Enc.closeEnc { e with stack := rest, out := Enc.arrOut e.out vs } e.out.length
  | .dict els _ :: rest => Enc.closeEnc { e with
      stack := rest
      out := Enc.dictOut e.out (els.any (Enc.pairFar e.out.length)) (c.sort.run els) } e.out.length

theorem Enc.closeEnc_stack (e : Enc) (o : Nat) : (e.closeEnc o).stack.length = e.stack.length := by
  unfold closeEnc
  split
  · next h => rw [h]
  · next h => simp [h]

/-- Dropping the key a dict waits with. -/
theorem Enc.WF.dropKey {e : Enc} (hw : e.WF) {els : List DictElem} {nk : Option DictKey} {rest : List Collection}
    (hs : e.stack = .dict els nk :: rest) :
    ({ e with stack := .dict els none :: rest } : Enc).WF ∧
      ({ e with stack := .dict els none :: rest } : Enc).phi ≤ e.phi := by
  refine ⟨⟨hw.even, ?_, ?_, hw.sk⟩, ?_⟩
  · intro coll hm
    rcases List.mem_cons.mp hm with rfl | hm
    · have := hw.bounded (.dict els nk) (by rw [hs]; simp)
      exact ⟨this.1, fun k hk => by cases hk⟩
    · exact hw.bounded coll (by rw [hs]; simp [hm])
  · intro hc; have := hw.notClosed hs; simp only at hc; rw [hc] at this; cases this
  · rw [Enc.phi_cons hs]
    simp [Enc.phi, Collection.cost]

theorem Enc.closeTop_inv {c : Cfg} {e : Enc} (hw : e.WF) (hphi : e.phi ≤ SizedValue.maxWide) :
    (e.closeTop c).WF ∧ (e.closeTop c).phi ≤ e.phi ∧ (e.closeTop c).stack.length = e.stack.length - 1 ∧
      e.out <+: (e.closeTop c).out ∧ (e.closeTop c).sk = e.sk := by
  have hmw : SizedValue.maxWide < 2 ^ 32 := by decide
  unfold closeTop
  cases hs : e.stack with
  | nil => exact ⟨hw, Nat.le_refl _, by simp [hs], List.prefix_refl _, rfl⟩
  | cons coll rest =>
    cases coll with
    | arr vs =>
      have hp := Enc.phi_cons hs
      simp only [Collection.cost] at hp
      have hlen := arrOut_length hw.even vs (by omega)
      simp only
      refine ⟨Enc.closeEnc_wf hlen.1 ?_ (.inl (hw.notClosed hs)) hw.sk hlen.2.1 (by simp only; omega), ?_, ?_, ?_, ?_⟩
      · intro coll hm
        exact (hw.bounded coll (by rw [hs]; simp [show coll ∈ rest from hm])).mono hlen.2.1
      · refine Nat.le_trans (Enc.closeEnc_phi _ _) ?_
        rw [hp]; simp only [Enc.phi]; omega
      · rw [Enc.closeEnc_stack]; simp
      · exact (arrOut_prefix e.out _).trans (Enc.closeEnc_prefix { e with stack := _, out := Enc.arrOut e.out _ } _)
      · rw [Enc.closeEnc_sk]
    | dict els nk =>
      have hp := Enc.phi_cons hs
      simp only [Collection.cost] at hp
      have hlen := dictOut_length hw.even (els.any (Enc.pairFar e.out.length)) (c.sort.run els)
        (by rw [(c.sort.perm els).length_eq]; omega)
      rw [(c.sort.perm els).length_eq] at hlen
      simp only
      refine ⟨Enc.closeEnc_wf hlen.1 ?_ (.inl (hw.notClosed hs)) hw.sk hlen.2.1 (by simp only; omega), ?_, ?_, ?_, ?_⟩
      · intro coll hm
        exact (hw.bounded coll (by rw [hs]; simp [show coll ∈ rest from hm])).mono hlen.2.1
      · refine Nat.le_trans (Enc.closeEnc_phi _ _) ?_
        rw [hp]; simp only [Enc.phi]; omega
      · rw [Enc.closeEnc_stack]; simp
      · exact (dictOut_prefix e.out _ _).trans
          (Enc.closeEnc_prefix { e with stack := _, out := Enc.dictOut e.out _ _ } _)
      · rw [Enc.closeEnc_sk]

theorem Enc.closeTop_shape {c : Cfg} {e : Enc} (hw : e.WF) {b : Build} (hb : Shape e b) :
    Shape (e.closeTop c) b.closeTop := by
  unfold closeTop
  cases hs : e.stack with
  | nil =>
    unfold Build.closeTop
    rw [hb.nil hs]; exact hb
  | cons coll rest =>
    obtain ⟨f, fr, h1, h2, h3⟩ := hb.cons hs
    unfold Build.closeTop
    rw [h1]
    cases coll with
    | arr vs =>
      obtain ⟨xs, rfl⟩ := kind_arr h2
      exact closeEnc_shape _ h3 (hw.notClosed hs)
    | dict els nk =>
      cases nk with
      | none => obtain ⟨xs, rfl⟩ := kind_dict_none h2; exact closeEnc_shape _ h3 (hw.notClosed hs)
      | some k => obtain ⟨xs, k', rfl⟩ := kind_dict_some h2; exact closeEnc_shape _ h3 (hw.notClosed hs)

/-- Close `n` collections. -/
def Enc.closeN (c : Cfg) : Nat → Enc → Enc
  | 0, e => e
  | n + 1, e => Enc.closeN c n (e.closeTop c)

/-- The specification's. -/
def Build.closeN : Nat → Build → Build
  | 0, b => b
  | n + 1, b => Build.closeN n b.closeTop

theorem Build.closeN_nil (n : Nat) : ∀ {b : Build}, b.stack = [] → Build.closeN n b = b := by
  induction n with
  | zero => intros; rfl
  | succ n ih =>
    intro b hb
    have : b.closeTop = b := by unfold Build.closeTop; rw [hb]
    unfold closeN; rw [this, ih hb]

theorem Build.finishGo_eq (n : Nat) : ∀ b, Build.finishGo n b = Build.closeN n b := by
  induction n with
  | zero => intro b; rfl
  | succ n ih =>
    intro b
    unfold finishGo closeN
    split
    · next h =>
      have : b.closeTop = b := by unfold Build.closeTop; rw [h]
      rw [this, Build.closeN_nil n h]
    · next h => rw [ih]; unfold closeTop; rw [h]
    · next h => rw [ih]; unfold closeTop; rw [h]

theorem Enc.closeN_inv {c : Cfg} (n : Nat) : ∀ {e : Enc}, e.WF → e.phi ≤ SizedValue.maxWide →
    (e.closeN c n).WF ∧ (e.closeN c n).phi ≤ e.phi ∧ (e.closeN c n).stack.length = e.stack.length - n ∧
      e.out <+: (e.closeN c n).out ∧ (e.closeN c n).sk = e.sk := by
  induction n with
  | zero => intro e hw hp; exact ⟨hw, Nat.le_refl _, rfl, List.prefix_refl _, rfl⟩
  | succ n ih =>
    intro e hw hp
    obtain ⟨h1, h2, h3, h4, h5⟩ := closeTop_inv (c := c) hw hp
    obtain ⟨g1, g2, g3, g4, g5⟩ := ih h1 (by omega)
    exact ⟨g1, Nat.le_trans g2 h2, by unfold closeN; rw [g3, h3]; omega, h4.trans g4, by unfold closeN; rw [g5, h5]⟩

theorem Enc.closeN_shape {c : Cfg} (n : Nat) : ∀ {e : Enc} {b : Build}, e.WF → e.phi ≤ SizedValue.maxWide → Shape e b →
    Shape (e.closeN c n) (b.closeN n) := by
  induction n with
  | zero => intro e b _ _ h; exact h
  | succ n ih =>
    intro e b hw hp h
    obtain ⟨h1, h2, _⟩ := closeTop_inv (c := c) hw hp
    exact ih h1 (by omega) (closeTop_shape hw h)

/-- `_end` closes every open collection. -/
theorem Enc.endGo_eq {c : Cfg} (n : Nat) : ∀ {e : Enc}, e.WF → e.phi ≤ SizedValue.maxWide → e.stack.length = n →
    Enc.endGo c n e = .ok (e.closeN c n) := by
  have hmw : SizedValue.maxWide < 2 ^ 32 := by decide
  induction n with
  | zero =>
    intro e _ _ hl
    unfold endGo closeN
    rw [List.length_eq_zero_iff.mp hl]; rfl
  | succ n ih =>
    intro e hw hp hl
    obtain ⟨h1, h2, h3, _⟩ := closeTop_inv (c := c) hw hp
    have hih := ih h1 (by omega) (by omega)
    unfold endGo
    cases hs : e.stack with
    | nil => rw [hs] at hl; cases hl
    | cons coll rest =>
      have hct : e.closeN c (n + 1) = (e.closeTop c).closeN c n := rfl
      rw [hct]
      cases coll with
      | arr vs =>
        have hp' := Enc.phi_cons hs
        simp only [Collection.cost] at hp'
        have hlen := arrOut_length hw.even vs (by omega)
        simp only
        rw [Enc.endArray_eq c e hs hw.even (hw.bounded (.arr vs) (by rw [hs]; simp)) (by omega),
          Enc.finishedCollection_eq c _ (by exact hlen.1) (by exact hlen.2.1) (by simp only; omega)]
        simp only [Enc.done, ok_bind]
        rw [← hih]
        simp only [closeTop, hs]
      | dict els nk =>
        have hp' := Enc.phi_cons hs
        simp only [Collection.cost] at hp'
        have hlen := dictOut_length hw.even (els.any (Enc.pairFar e.out.length)) (c.sort.run els)
          (by rw [(c.sort.perm els).length_eq]; omega)
        rw [(c.sort.perm els).length_eq] at hlen
        have hb := hw.bounded (.dict els nk) (by rw [hs]; simp)
        simp only
        rw [Enc.endDict_eq c { e with stack := .dict els none :: rest } rfl hw.even hb.1 (by simp only; omega),
          Enc.finishedCollection_eq c _ (by exact hlen.1) (by exact hlen.2.1) (by simp only; omega)]
        simp only [Enc.done, ok_bind]
        rw [← hih]
        simp only [closeTop, hs]

theorem Enc.finish_eq {c : Cfg} {e : Enc} (hw : e.WF) (hp : e.phi ≤ SizedValue.maxWide) :
    e.finish c = .ok (e.closeN c e.stack.length).out := by
  unfold finish
  rw [Enc.endGo_eq _ hw hp rfl]; rfl

end Fleece
