import Verif.Proofs.EncRun
import Verif.Proofs.KeyOrder

/-!
# C18 The encoder accepts exactly the documented call sequences

`Build.step` (Spec/Build.lean) is the documentation. The size hypotheses (`phi`, `Op.total`) say that the document stays
below 1 GiB; beyond that `PointerTooLarge` takes over (C40). That a call returns at all is `C18_accepted_calls_return`.
-/

namespace Fleece.Props
open Fleece Res

/-- `e` can be reached by calls whose total weight is at most `n`, starting from a fresh encoder with or without shared
keys; the calls may have been rejected. -/
def Reached (c : Cfg) (n : Nat) (e : Enc) : Prop :=
  ∃ (sk : Option SharedKeys) (ops : List Op) (rs : List (Except EncodeError Unit)), (∀ s, sk = some s → s.WF) ∧
    Op.total ops ≤ n ∧ ({ Enc.new with sk } : Enc).run c ops = .ok (e, rs)

theorem newWith_wf {sk : Option SharedKeys} (h : ∀ s, sk = some s → s.WF) : ({ Enc.new with sk } : Enc).WF :=
  ⟨rfl, by simp [Enc.new], by simp [Enc.new], h⟩

theorem Reached.inv {c : Cfg} {n : Nat} {e : Enc} (hn : n ≤ SizedValue.maxWide) (h : Reached c n e) :
    e.WF ∧ e.phi ≤ n := by
  obtain ⟨sk, ops, rs, hsk, ht, hr⟩ := h
  obtain ⟨h1, h2, _⟩ := Enc.run_inv ops (newWith_wf hsk) (by simp [Enc.phi, Enc.new]; omega) hr
  simp [Enc.phi, Enc.new] at h2
  exact ⟨h1, by simp only [Enc.phi]; omega⟩

/-- **C18, one call.** In every reachable state, for every call: if the same collections are open in the specification,
the call returns exactly the documented result. This includes states reached through rejected calls. -/
theorem C18_step (c : Cfg) (F : FloatOps) (n : Nat) (e e' : Enc) (op : Op) (r : Except EncodeError Unit) (b : Build)
    (hr : Reached c n e) (hn : n + op.weight ≤ SizedValue.maxWide) (hb : Shape e b) (h : e.step c op = .ok (e', r)) :
    r = (b.next F op).2 := by
  have hmw : SizedValue.maxWide < 2 ^ 32 := by decide
  obtain ⟨hw, hp⟩ := hr.inv (by omega)
  exact ((Enc.step_trans hw (by omega) (by omega) h).shape hw F hb).1.symm

/-- No `end_array` is called while the innermost open collection is a dict that has no pending key. -/
def NoDiscard (F : FloatOps) : Build → List Op → Prop
  | _, [] => True
  | b, op :: ops => (op = .endArray → ∀ kvs rest, b.stack ≠ .dict kvs none :: rest) ∧ NoDiscard F (b.next F op).1 ops

theorem results_go (c : Cfg) (F : FloatOps) (ops : List Op) : ∀ {e e' : Enc} {b : Build} {rs : List (Except EncodeError Unit)},
    e.WF → e.phi + Op.total ops ≤ SizedValue.maxWide → Shape e b → NoDiscard F b ops → e.run c ops = .ok (e', rs) →
    rs = (b.run F ops).2 ∧ Shape e' (b.run F ops).1 := by
  have hmw : SizedValue.maxWide < 2 ^ 32 := by decide
  induction ops with
  | nil => intro e e' b rs _ _ hb _ h; cases h; exact ⟨rfl, hb⟩
  | cons op ops ih =>
    intro e e' b rs hw hp hb hd h
    rw [Op.total_cons] at hp
    obtain ⟨e1, r, rs', h1, h2, rfl⟩ := Enc.run_cons h
    have ht := Enc.step_trans hw (by omega) (by omega) h1
    obtain ⟨hw1, hp1⟩ := ht.inv hw (by omega) (by omega)
    obtain ⟨hr, hs⟩ := ht.shape hw F hb
    have hs := hs (by
      rintro ⟨ho, hwait⟩
      obtain ⟨kvs, rest, hk⟩ := hb.waiting hwait
      exact hd.1 ho kvs rest hk)
    obtain ⟨h3, h4⟩ := ih hw1 (by omega) hs hd.2 h2
    simp only [Build.run]
    exact ⟨by rw [h3, ← hr], h4⟩

/-- **C18, sequences.** All results of a sequence of calls are the documented ones, unless the sequence calls `end_array`
on an open dict without a pending key, which discards that dict (`C18_refuted`). -/
theorem C18_results_documented_partial (c : Cfg) (F : FloatOps) (sk : Option SharedKeys) (hsk : ∀ s, sk = some s → s.WF)
    (ops : List Op) (hsize : Op.total ops ≤ SizedValue.maxWide) (hd : NoDiscard F {} ops) (e : Enc)
    (rs : List (Except EncodeError Unit)) (h : ({ Enc.new with sk } : Enc).run c ops = .ok (e, rs)) :
    rs = (Build.run F {} ops).2 :=
  (results_go c F ops (newWith_wf hsk) (by simp [Enc.phi, Enc.new]; omega) ⟨rfl, rfl⟩ hd h).1

theorem Build.run_append (F : FloatOps) (ops ops' : List Op) : ∀ b : Build,
    b.run F (ops ++ ops') = (((b.run F ops).1.run F ops').1, (b.run F ops).2 ++ ((b.run F ops).1.run F ops').2) := by
  induction ops with
  | nil => intro b; rfl
  | cons op ops ih => intro b; simp only [List.cons_append, Build.run, ih]

theorem noDiscard_append (F : FloatOps) (ops ops' : List Op) : ∀ {b : Build}, NoDiscard F b (ops ++ ops') →
    NoDiscard F b ops ∧ NoDiscard F (b.run F ops).1 ops' := by
  induction ops with
  | nil => intro b h; exact ⟨trivial, h⟩
  | cons op ops ih =>
    intro b h
    obtain ⟨h1, h2⟩ := ih h.2
    exact ⟨⟨h.1, h1⟩, h2⟩

/-- **C18, with `set_shared_keys` in between.** Giving the encoder other shared keys, at any point, does not change what it
accepts from then on. -/
theorem C18_swap_partial (c : Cfg) (F : FloatOps) (sk : Option SharedKeys) (hsk : ∀ s, sk = some s → s.WF) (sk' : SharedKeys)
    (hsk' : sk'.WF) (ops ops' : List Op) (hsize : Op.total (ops ++ ops') ≤ SizedValue.maxWide)
    (hd : NoDiscard F {} (ops ++ ops')) (e e' : Enc) (rs rs' : List (Except EncodeError Unit))
    (h : ({ Enc.new with sk } : Enc).run c ops = .ok (e, rs)) (h' : (e.setSharedKeys sk').run c ops' = .ok (e', rs')) :
    rs ++ rs' = (Build.run F {} (ops ++ ops')).2 := by
  have ht : Op.total (ops ++ ops') = Op.total ops + Op.total ops' := by
    clear hsize hd h h'
    induction ops with
    | nil => simp [Op.total]
    | cons op ops ih => rw [List.cons_append, Op.total_cons, Op.total_cons, ih]; omega
  have hmw : SizedValue.maxWide < 2 ^ 32 := by decide
  obtain ⟨d1, d2⟩ := noDiscard_append F ops ops' hd
  have hp0 : ({ Enc.new with sk } : Enc).phi = 0 := by simp [Enc.phi, Enc.new]
  obtain ⟨h1, h2⟩ := results_go c F ops (newWith_wf hsk) (by omega) ⟨rfl, rfl⟩ d1 h
  obtain ⟨w1, w2⟩ := Enc.run_inv ops (newWith_wf hsk) (by omega) h
  obtain ⟨h3, _⟩ := results_go c F ops' (e := e.setSharedKeys sk') ⟨w1.even, w1.bounded, w1.closed, by
    intro s hs; cases hs; exact hsk'⟩ (by
    have : (e.setSharedKeys sk').phi = e.phi := rfl
    omega) ⟨h2.stack, h2.closed⟩ d2 h'
  rw [Build.run_append, h1, h3]

/-- Every sequence of calls with values the code can write returns. -/
theorem C18_accepted_calls_return (c : Cfg) (sk : Option SharedKeys) (hsk : ∀ s, sk = some s → s.WF) (ops : List Op)
    (hsize : Op.total ops ≤ SizedValue.maxWide) (ha : ∀ op ∈ ops, op.Accepted) :
    ∃ e rs, ({ Enc.new with sk } : Enc).run c ops = .ok (e, rs) :=
  Enc.run_ok ops (newWith_wf hsk) (by simp [Enc.phi, Enc.new]; omega) ha

/-- A configuration for examples. -/
def exampleCfg : Cfg := ⟨true, ⟨fun _ => false⟩, insertionSorter⟩

/-- Only the results of a run. -/
def results (x : Exec (Enc × List (Except EncodeError Unit))) : Option (List (Except EncodeError Unit)) :=
  match x with
  | .ok (_, rs) => some rs
  | _ => none

instance : DecidableEq (Except EncodeError Unit) := fun a b => by
  cases a <;> cases b
  · rename_i x y; exact if h : x = y then isTrue (by rw [h]) else isFalse (by rintro h'; cases h'; exact h rfl)
  · exact isFalse (by rintro h; cases h)
  · exact isFalse (by rintro h; cases h)
  · exact isTrue rfl

/-- A run with rejected calls of every kind. -/
example : results (Enc.new.run exampleCfg
    [.value .null, .beginDict, .value .null, .beginArray 0, .key ⟨[0x61, 0x62], by decide⟩, .key ⟨[0x61], by decide⟩,
      .endArray, .endDict, .beginArray 4, .key ⟨[0x61], by decide⟩, .endDict, .value (.bool true), .endArray, .endDict,
      .beginArray 0, .beginDict, .endDict]) =
    some [.error .collectionNotOpen, .ok (), .error .dictWaitingForKey, .error .dictWaitingForKey, .ok (),
      .error .dictWaitingForValue, .error .arrayNotOpen, .error .dictWaitingForValue, .ok (), .error .dictNotOpen,
      .error .dictNotOpen, .ok (), .ok (), .ok (), .error .multiTopLevelCollection, .error .collectionNotOpen,
      .error .dictNotOpen] := by decide +kernel

/-- **C18 is false of the code.** `begin_array, begin_dict, end_array, end_array`: the first `end_array` is rejected (and
documented to be), but it discards the dict, so that the second one, documented to be rejected too, succeeds. -/
theorem C18_refuted : ∃ (c : Cfg) (ops : List Op) (e : Enc) (rs : List (Except EncodeError Unit)),
    (∀ op ∈ ops, op.Accepted) ∧ Enc.new.run c ops = .ok (e, rs) ∧ ∀ F, rs ≠ (Build.run F {} ops).2 := by
  refine ⟨exampleCfg, [.beginArray 0, .beginDict, .endArray, .endArray], _, _, ?_, rfl, ?_⟩
  · intro op hop
    simp only [List.mem_cons, List.not_mem_nil, or_false] at hop
    rcases hop with rfl | rfl | rfl | rfl <;> simp [Op.Accepted]
  · intro F h
    have hspec : (Build.run F {} [.beginArray 0, .beginDict, .endArray, .endArray]).2 =
      [.ok (), .ok (), .error .arrayNotOpen, .error .arrayNotOpen] := rfl
    rw [hspec] at h
    cases h

/-- **C18 is false of the code, also for the capacity.** The first call, `begin_array(1 << 61)`, is documented to succeed and
panics, on every encoder. For one less it does succeed: the bound in `Op.Accepted` is the exact one. -/
theorem C18_refuted_capacity (c : Cfg) (F : FloatOps) : Enc.new.run c [.beginArray (2 ^ 61)] = .panic ∧
    (Build.run F {} [.beginArray (2 ^ 61)]).2 = [.ok ()] ∧
    ∃ e, Enc.new.run c [.beginArray (2 ^ 61 - 1)] = .ok (e, [.ok ()]) :=
  ⟨rfl, rfl, _, rfl⟩

/-- The hypotheses of `C18_swap_partial` hold of this run: an array is begun without shared keys, then shared keys are set,
and after the array is closed another one is refused. -/
example : let ops := [Op.beginArray 0, .value .null]
    let ops' := [Op.endArray, .beginArray 0]
    (∃ e e' rs rs', Enc.new.run exampleCfg ops = .ok (e, rs) ∧ (e.setSharedKeys .new).run exampleCfg ops' = .ok (e', rs') ∧
      rs ++ rs' = [.ok (), .ok (), .ok (), .error .multiTopLevelCollection]) ∧
    SharedKeys.new.WF ∧ ∀ F, NoDiscard F {} (ops ++ ops') :=
  ⟨⟨_, _, _, _, rfl, rfl, rfl⟩, SharedKeys.new_wf, fun F => by simp [NoDiscard, Build.next, Build.open, Build.put, Build.step, Build.close]⟩

end Fleece.Props
