import Verif.Proofs.SmallDoc
import Verif.Props.C22

/-!
# C20 Documents round-trip through the encoder

Full claim: for every sequence of calls that all succeed and build the document `t`, the bytes of `finish` decode to `t`.
It is false (`C20_refuted_string`, `C20_refuted_key`, `C21_refuted`). What holds is stated twice: with the exact
conditions on the run (`C20_exact_partial`), and with conditions a user can check (`C20_small_partial`).
-/

namespace Fleece.Props
open Fleece Res

theorem newWith_nested (sk : Option SharedKeys) : ({ Enc.new with sk } : Enc).Nested := by
  intro a b els r h
  cases a <;> cases h

theorem newWith_clean (sk : Option SharedKeys) : ({ Enc.new with sk } : Enc).Clean := by
  intro coll hm; cases hm

theorem newWith_phi (sk : Option SharedKeys) : ({ Enc.new with sk } : Enc).phi = 0 := rfl

/-- **C20, exact.** Any document below 1 GiB. Conditions (`RunOK`, `FinishOK`): every collection that is closed fits the
slot width the encoder chose for it; scalars survive (C02-C05); with shared keys no key has 16 bytes; `end_array` is not
called on a dict, nor `write_key` after the end. Rejected calls are allowed. Missing from the full claim: collections
that do not fit, i.e. strings, data and keys below two bytes in narrow collections, and pointers that outgrow 14 bits
while the collection is written. -/
theorem C20_exact_partial (c : Cfg) (F : FloatOps) (sk scope : Option SharedKeys) (hsk : ∀ s, sk = some s → s.WF)
    (ops : List Op) (hsize : Op.total ops ≤ SizedValue.maxWide) (e : Enc) (rs : List (Except EncodeError Unit))
    (h : ({ Enc.new with sk } : Enc).run c ops = .ok (e, rs)) (hok : RunOK c { Enc.new with sk } ops)
    (hfin : FinishOK c e.stack.length e) (hsc : ScopeLe e.sk scope) (t : Tree)
    (ht : (Build.run F {} ops).1.finish = some t) :
    ∃ out, e.finish c = .ok out ∧ Decodes F scope out t := by
  have hphi := newWith_phi sk
  obtain ⟨hw, hp, _⟩ := Enc.run_inv ops (newWith_wf hsk) (by omega) h
  obtain ⟨hs, hn⟩ := Sim.run (F := F) (P := fun _ => True) ops (newWith_wf hsk) (newWith_nested sk) (by omega)
    (Sim.new F sk) hok (RunKeys.trivial _ _ _) h
  exact hs.decodes hw hn (by omega) hfin ht hsc

/-- **C20, small documents, rejected calls allowed.** -/
theorem C20_orderly_partial (c : Cfg) (F : FloatOps) (sk scope : Option SharedKeys) (hsk : ∀ s, sk = some s → s.WF)
    (ops : List Op) (hsize : Op.total ops ≤ SizedValue.maxNarrow) (hplain : ∀ op ∈ ops, op.Plain sk.isSome)
    (hor : Orderly F {} ops) (e : Enc) (rs : List (Except EncodeError Unit))
    (h : ({ Enc.new with sk } : Enc).run c ops = .ok (e, rs)) (hsc : ScopeLe e.sk scope) (t : Tree)
    (ht : (Build.run F {} ops).1.finish = some t) :
    ∃ out, e.finish c = .ok out ∧ Decodes F scope out t := by
  have hmn : SizedValue.maxNarrow ≤ SizedValue.maxWide := by decide
  have hphi := newWith_phi sk
  obtain ⟨hw, hp, _⟩ := Enc.run_inv ops (newWith_wf hsk) (by omega) h
  obtain ⟨hok, hc⟩ := plain_run ops (newWith_wf hsk) (by omega) ⟨rfl, rfl⟩ (newWith_clean sk) hplain hor h
  exact C20_exact_partial c F sk scope hsk ops (by omega) e rs h hok (clean_finish _ hw hc (by omega)) hsc t ht

/-- **C20, small documents.** Every sequence of calls, all documented to succeed, with scalars and keys this version can
write, and weighing at most 16383 bytes (24 per call plus the lengths of strings, data and keys): the encoder accepts all
calls, `finish` returns, and its bytes decode to the document, under the encoder's own shared keys (if any). -/
theorem C20_small_partial (c : Cfg) (F : FloatOps) (sk : Option SharedKeys) (hsk : ∀ s, sk = some s → s.WF)
    (ops : List Op) (hsize : Op.total ops ≤ SizedValue.maxNarrow) (hplain : ∀ op ∈ ops, op.Plain sk.isSome)
    (hcap : ∀ n, Op.beginArray n ∈ ops → n * 4 < 2 ^ 63) (hall : AllOk F {} ops) (t : Tree)
    (ht : (Build.run F {} ops).1.finish = some t) :
    ∃ e rs out, ({ Enc.new with sk } : Enc).run c ops = .ok (e, rs) ∧ (∀ r ∈ rs, r = .ok ()) ∧
      e.finish c = .ok out ∧ ∀ scope, ScopeLe e.sk scope → Decodes F scope out t := by
  have hmn : SizedValue.maxNarrow ≤ SizedValue.maxWide := by decide
  have hor := hall.orderly ops (by simp)
  have hacc : ∀ op ∈ ops, op.Accepted := by
    intro op hop
    have := hplain op hop
    cases op with
    | beginArray n => exact hcap n hop
    | beginDict => trivial
    | key k => simp only [Op.Accepted]; try exact this.2.1
    | value x => exact this.1
    | endArray => trivial
    | endDict => trivial
  obtain ⟨e, rs, h⟩ := Enc.run_ok (c := c) ops (newWith_wf hsk) (by have := newWith_phi sk; omega) hacc
  obtain ⟨out, h1, _⟩ := C20_orderly_partial c F sk e.sk hsk ops hsize hplain hor e rs h (.refl _) t ht
  refine ⟨e, rs, out, h, ?_, h1, fun scope hsc => ?_⟩
  · have hnd : ∀ (ops : List Op) (b : Build), Orderly F b ops → NoDiscard F b ops := by
      intro ops
      induction ops with
      | nil => intros; trivial
      | cons op ops ih => intro b hb; exact ⟨hb.1, ih _ hb.2.2⟩
    rw [C18_results_documented_partial c F sk hsk ops (by omega) (hnd _ _ hor) e rs h]
    exact hall
  · obtain ⟨out', h1', h2'⟩ := C20_orderly_partial c F sk scope hsk ops hsize hplain hor e rs h hsc t ht
    rw [h1] at h1'; cases h1'
    exact h2'

/-! ## A document -/

/-- Strings for examples. -/
def sab : RStr := ⟨[0x61, 0x62], by decide⟩
def scd : RStr := ⟨[0x63, 0x64], by decide⟩

/-- `{"cd": [1, "ab", {}], "ab": true}`, the dict left open. -/
def exampleOps : List Op :=
  [.beginDict, .key scd, .beginArray 0, .value (.i64 1), .value (.str sab), .beginDict, .endDict, .endArray, .key sab,
    .value (.bool true)]

example (F : FloatOps) : AllOk F {} exampleOps ∧ Op.total exampleOps ≤ SizedValue.maxNarrow ∧
    (Build.run F {} exampleOps).1.finish =
      some (.dict [([0x63, 0x64], .arr [.int 1, .str [0x61, 0x62], .dict []]), ([0x61, 0x62], .bool true)]) ∧
    ∀ op ∈ exampleOps, op.Plain false := by
  refine ⟨?_, by decide, rfl, ?_⟩
  · intro r hr
    simp [exampleOps, Build.run, Build.next, Build.step, Build.open, Build.put, Build.close] at hr
    exact hr
  · intro op hop
    simp only [exampleOps, List.mem_cons, List.not_mem_nil, or_false] at hop
    rcases hop with rfl | rfl | rfl | rfl | rfl | rfl | rfl | rfl | rfl | rfl <;>
      simp [Op.Plain, Scalar.Survives, Scalar.Tiny, sab, scd, ShortRange] <;> decide

/-! ## The full claim is false -/

theorem not_decodes {F : FloatOps} {out : List UInt8} {v : Val} {t t' : Tree} (hl : out.length < 2 ^ 64)
    (h1 : fromBytes ⟨out, 0, true⟩ = .ok v) (h2 : readTree ⟨out, 0, true⟩ F none out.length v = .ok t')
    (hne : ¬ Tree.Same t t') : ¬ Decodes F none out t := by
  intro h
  obtain ⟨v', t'', g1, g2, g3⟩ := h ⟨out, 0, true⟩ rfl (by simpa using hl)
  rw [h1] at g1; cases g1
  have := g3 _ (Nat.le_refl _)
  rw [h2] at this; cases this
  exact hne g2

set_option maxRecDepth 20000 in
/-- **C20 is false of the code: strings.** The array `["a"]` decodes to `[353]`. -/
theorem C20_refuted_string : ∃ (c : Cfg) (ops : List Op) (e : Enc) (rs : List (Except EncodeError Unit)) (out : List UInt8),
    Enc.new.run c ops = .ok (e, rs) ∧ e.finish c = .ok out ∧
    ∀ F, AllOk F {} ops ∧ (Build.run F {} ops).1.finish = some (.arr [.str [0x61]]) ∧ Decodes F none out (.arr [.int 353]) ∧
      ¬ Decodes F none out (.arr [.str [0x61]]) := by
  refine ⟨exampleCfg, [.beginArray 0, .value (.str ⟨[0x61], by decide⟩), .endArray], _, _,
    [0x60, 0x01, 0x01, 0x61, 0x80, 0x02], rfl, by decide +kernel, ?_⟩
  intro F
  refine ⟨?_, rfl, ?_, ?_⟩
  · intro r hr
    simp [Build.run, Build.next, Build.step, Build.open, Build.put, Build.close] at hr
    exact hr
  · -- the same bytes are the encoding of `[353]`
    have hpl : ∀ op ∈ [Op.beginArray 0, .value (.i16 353), .endArray], op.Plain false := by
      intro op hop
      simp only [List.mem_cons, List.not_mem_nil, or_false] at hop
      rcases hop with rfl | rfl | rfl <;> simp [Op.Plain, Scalar.Survives, Scalar.Tiny] <;> decide
    obtain ⟨e, rs, out, h1, _, h3, h4⟩ := C20_small_partial exampleCfg F none (by simp) _ (by decide) hpl (by simp)
      (by
        intro r hr
        simp [Build.run, Build.next, Build.step, Build.open, Build.put, Build.close] at hr
        exact hr) (.arr [.int 353]) rfl
    have hrun : ∃ e', Enc.new.run exampleCfg [.beginArray 0, .value (.i16 353), .endArray] = .ok (e', rs) ∧
        e'.finish exampleCfg = .ok [0x60, 0x01, 0x01, 0x61, 0x80, 0x02] := by
      cases h1
      exact ⟨_, rfl, by decide +kernel⟩
    obtain ⟨e', g1, g2⟩ := hrun
    have h1' : Enc.new.run exampleCfg [.beginArray 0, .value (.i16 353), .endArray] = .ok (e, rs) := h1
    rw [h1'] at g1; cases g1
    rw [h3] at g2; cases g2
    exact h4 none (fun _ h => by
      have := (Enc.run_inv _ (newWith_wf (sk := none) (by simp)) (by decide) h1).2.2
      revert h; exact fun h => absurd h (by cases h1; simp))
  · refine not_decodes (v := ⟨0, 4⟩) (t' := .arr [.int 353]) (by decide) (by decide +kernel) rfl ?_
    intro h2
    cases h2 with
    | arr len each => cases each 0 _ _ rfl rfl

set_option maxRecDepth 20000 in
/-- **C20 is false of the code: keys.** The dict `{"a": true}` decodes to `{}`: its key becomes the shared key 353, which
ends the iteration. -/
theorem C20_refuted_key : ∃ (c : Cfg) (ops : List Op) (e : Enc) (rs : List (Except EncodeError Unit)) (out : List UInt8),
    Enc.new.run c ops = .ok (e, rs) ∧ e.finish c = .ok out ∧
    ∀ F, AllOk F {} ops ∧ (Build.run F {} ops).1.finish = some (.dict [([0x61], .bool true)]) ∧
      ¬ Decodes F none out (.dict [([0x61], .bool true)]) := by
  refine ⟨exampleCfg, [.beginDict, .key ⟨[0x61], by decide⟩, .value (.bool true), .endDict], _, _,
    [0x70, 0x01, 0x01, 0x61, 0x38, 0x00, 0x80, 0x03], rfl, by decide +kernel, ?_⟩
  intro F
  refine ⟨?_, rfl, ?_⟩
  · intro r hr
    simp [Build.run, Build.next, Build.step, Build.open, Build.put, Build.close] at hr
    exact hr
  · refine not_decodes (v := ⟨0, 6⟩) (t' := .dict []) (by decide) (by decide +kernel) rfl ?_
    intro h2
    cases h2 with
    | dict perm keys each =>
      have := perm.length_eq
      have h2 := congrArg List.length keys
      simp at this h2
      rw [h2] at this; cases this

end Fleece.Props
