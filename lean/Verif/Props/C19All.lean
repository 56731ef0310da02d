import Verif.Props.C19Bytes
import Verif.Props.C20Large

/-!
# C19, any number of rejected calls

`C19_bytes_partial` for all rejected calls of a sequence at once, and what it means for documents up to 1 GiB.
-/

namespace Fleece.Props
open Fleece Res

/-- The calls that are documented to succeed. -/
def acceptedCalls (F : FloatOps) : Build → List Op → List Op
  | _, [] => []
  | b, op :: ops => match b.step F op with
    | .ok b' => op :: acceptedCalls F b' ops
    | .error _ => acceptedCalls F b ops

/-- Of the calls, only such that open or close collections are documented to be rejected. -/
def RejectsStructural (F : FloatOps) : Build → List Op → Prop
  | _, [] => True
  | b, op :: ops => (∀ x, (b.next F op).2 = .error x → Op.Structural op) ∧ RejectsStructural F (b.next F op).1 ops

/-- The specification does not care for rejected calls. -/
theorem accepted_build (F : FloatOps) (ops : List Op) : ∀ b : Build,
    (Build.run F b (acceptedCalls F b ops)).1 = (Build.run F b ops).1 ∧ AllOk F b (acceptedCalls F b ops) := by
  induction ops with
  | nil => intro b; exact ⟨rfl, fun r hr => by cases hr⟩
  | cons op ops ih =>
    intro b
    cases hs : b.step F op with
    | ok b' =>
      have hn : b.next F op = (b', .ok ()) := by unfold Build.next; rw [hs]
      obtain ⟨h1, h2⟩ := ih b'
      simp only [acceptedCalls, hs, Build.run, hn]
      refine ⟨h1, fun r hr => ?_⟩
      simp only [Build.run, hn, List.mem_cons] at hr
      rcases hr with rfl | hr
      · rfl
      · exact h2 r hr
    | error x =>
      have hn : b.next F op = (b, .error x) := by unfold Build.next; rw [hs]
      simp only [acceptedCalls, hs, Build.run, hn]
      exact ih b

theorem accepted_mem (F : FloatOps) (ops : List Op) : ∀ (b : Build), ∀ op ∈ acceptedCalls F b ops, op ∈ ops := by
  induction ops with
  | nil => intro b op h; cases h
  | cons o ops ih =>
    intro b op h
    cases hs : b.step F o with
    | ok b' =>
      simp only [acceptedCalls, hs, List.mem_cons] at h
      rcases h with rfl | h
      · exact List.mem_cons_self
      · exact List.mem_cons_of_mem _ (ih _ _ h)
    | error x =>
      simp only [acceptedCalls, hs] at h
      exact List.mem_cons_of_mem _ (ih _ _ h)

theorem accepted_run (c : Cfg) (F : FloatOps) (ops : List Op) : ∀ {e e' : Enc} {b : Build} {rs : List (Except EncodeError Unit)},
    e.WF → e.phi + Op.total (acceptedCalls F b ops) ≤ SizedValue.maxWide → Shape e b → RejectsStructural F b ops →
    NoDiscard F b ops → e.run c (acceptedCalls F b ops) = .ok (e', rs) → e.run c ops = .ok (e', (Build.run F b ops).2) := by
  have hmw : SizedValue.maxWide < 2 ^ 32 := by decide
  induction ops with
  | nil => intro e e' b rs _ _ _ _ _ h; cases h; rfl
  | cons op ops ih =>
    intro e e' b rs hw hp hb hst hnd h
    cases hs : b.step F op with
    | ok b' =>
      have hn : b.next F op = (b', .ok ()) := by unfold Build.next; rw [hs]
      simp only [acceptedCalls, hs] at hp h
      rw [Op.total_cons] at hp
      obtain ⟨e1, r, rs', h1, h2, _⟩ := Enc.run_cons h
      have ht := Enc.step_trans hw (by omega) (by omega) h1
      obtain ⟨hw1, hp1⟩ := ht.inv hw (by omega) (by omega)
      have hsh := ht.shape hw F hb
      have hshape := hsh.2 (by
        rintro ⟨ho, hk⟩
        obtain ⟨kvs, rest, hk⟩ := hb.waiting hk
        exact hnd.1 ho kvs rest hk)
      have hr := hsh.1
      rw [hn] at hshape hr
      have hst' := hst.2
      have hnd' := hnd.2
      rw [hn] at hst' hnd'
      have := ih (b := b') hw1 (by omega) hshape hst' hnd' h2
      simp only [Enc.run, h1, ok_bind, this, Build.run, hn, ← hr]
      rfl
    | error x =>
      have hn : b.next F op = (b, .error x) := by unfold Build.next; rw [hs]
      simp only [acceptedCalls, hs] at hp h
      have hsame := rejected_same (c := c) (F := F) hb (hst.1 x (by rw [hn])) hnd.1 (by rw [hn])
      have hst' := hst.2
      have hnd' := hnd.2
      rw [hn] at hst' hnd'
      have := ih (b := b) hw hp hb hst' hnd' h
      simp only [Enc.run, hsame, ok_bind, this, Build.run, hn]
      rfl

/-- **C19, all rejected calls at once.** Any sequence of calls in which only calls that open or close collections are documented
to be rejected: the encoder is in the end the one that the others alone give, and all results are the documented ones. Missing:
rejected `write_key` and `write_value`; `end_array` on a dict, for which it is false. -/
theorem C19_all_partial (c : Cfg) (F : FloatOps) (sk : Option SharedKeys) (hsk : ∀ s, sk = some s → s.WF) (ops : List Op)
    (hst : RejectsStructural F {} ops) (hnd : NoDiscard F {} ops)
    (hsize : Op.total (acceptedCalls F {} ops) ≤ SizedValue.maxWide) (e : Enc) (rs : List (Except EncodeError Unit))
    (h : ({ Enc.new with sk } : Enc).run c (acceptedCalls F {} ops) = .ok (e, rs)) :
    ({ Enc.new with sk } : Enc).run c ops = .ok (e, (Build.run F {} ops).2) :=
  accepted_run c F ops (newWith_wf hsk) (by have := newWith_phi sk; omega) ⟨rfl, rfl⟩ hst hnd h

/-- **C19, documents up to 1 GiB.** `C20_large_partial` without the condition that all calls succeed: calls that open or close
collections may be rejected (with the documented error) anywhere. -/
theorem C19_large_partial (c : Cfg) (F : FloatOps) (sk : Option SharedKeys) (hsk : ∀ s, sk = some s → s.WF) (ops : List Op)
    (hst : RejectsStructural F {} ops) (hnd : NoDiscard F {} ops)
    (hsize : Op.total (acceptedCalls F {} ops) ≤ SizedValue.maxWide) (hsound : ∀ op ∈ ops, op.Sound sk.isSome)
    (hdang : ∀ kvs k rest, (Build.run F {} ops).1.stack ≠ .dict kvs (some k) :: rest) (t : Tree)
    (ht : (Build.run F {} ops).1.finish = some t) (hroom : t.Roomy sk.isSome) :
    ∃ e out, ({ Enc.new with sk } : Enc).run c ops = .ok (e, (Build.run F {} ops).2) ∧ e.finish c = .ok out ∧
      ∀ scope, ScopeLe e.sk scope → Decodes F scope out t := by
  obtain ⟨h1, h2⟩ := accepted_build F ops {}
  obtain ⟨e, rs, out, g1, _, g3, g4⟩ := C20_large_partial c F sk hsk (acceptedCalls F {} ops) hsize
    (fun op hop => hsound op (accepted_mem F ops _ op hop)) h2 (by rw [h1]; exact hdang) t (by rw [h1]; exact ht) hroom
  exact ⟨e, out, C19_all_partial c F sk hsk ops hst hnd hsize e rs g1, g3, g4⟩

/-- `end_dict`, `[`, `end_dict`, `"ab"`, `]`, `begin_dict`: three calls are rejected. -/
example (F : FloatOps) : RejectsStructural F {} [.endDict, .beginArray 0, .endDict, .value (.str sab), .endArray, .beginDict] ∧
    NoDiscard F {} [.endDict, .beginArray 0, .endDict, .value (.str sab), .endArray, .beginDict] ∧
    acceptedCalls F {} [.endDict, .beginArray 0, .endDict, .value (.str sab), .endArray, .beginDict] =
      [.beginArray 0, .value (.str sab), .endArray] ∧
    (Build.run F {} [.endDict, .beginArray 0, .endDict, .value (.str sab), .endArray, .beginDict]).2 =
      [.error .dictNotOpen, .ok (), .error .dictNotOpen, .ok (), .ok (), .error .collectionNotOpen] ∧
    (Build.run F {} [.endDict, .beginArray 0, .endDict, .value (.str sab), .endArray, .beginDict]).1.finish =
      some (.arr [.str [0x61, 0x62]]) ∧ (Tree.arr [.str [0x61, 0x62]]).Roomy false := by
  refine ⟨?_, ?_, rfl, rfl, rfl, ?_⟩
  · exact ⟨fun _ _ => trivial, fun _ _ => trivial, fun _ _ => trivial, fun x h => (by cases h), fun _ _ => trivial,
      fun _ _ => trivial, trivial⟩
  · exact ⟨fun h => (by cases h), fun h => (by cases h), fun h => (by cases h), fun h => (by cases h),
      fun _ _ _ h => (by cases h), fun h => (by cases h), trivial⟩
  · refine .arr (.inr ⟨.inr (by decide), ?_⟩) ?_ <;> intro x hx <;> rw [List.mem_singleton.mp hx]
    · exact by simp [Tree.Tiny]
    · exact .leaf (by simp) (by simp)

end Fleece.Props
