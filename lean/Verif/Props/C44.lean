import Verif.Props.C39
import Verif.Props.C47
import Verif.Proofs.De
import Verif.Props.C03

/-!
# C44 `fleece!` builds what is written in it

Full claim: every literal that compiles gives, in both builds, an owned dict or array with the contents of the literal; in
particular no `Err` or `None` meets an `unwrap_unchecked` or `unreachable_unchecked` of the macro, which would be undefined
behaviour. It is false of the code where the encoder is wrong (`C44_refuted`). Proved: no call of the encoder fails (up to
1 GiB), and literals up to 16 KiB are built (Large.lean has larger ones), with the scalars and keys that this version of the encoder keeps.
-/

namespace Fleece.Props
open Fleece Res

theorem matches_type {m : Mem} {F : FloatOps} {scope : Option SharedKeys} {probe : List UInt8 → Prop} {v : Val} {t : Tree}
    (h : Matches m F scope probe v t) : ((∃ xs, t = .arr xs) → v.type m = .ok .array) ∧ ((∃ kvs, t = .dict kvs) → v.type m = .ok .dict) := by
  cases h with
  | leaf type na nd read =>
    have := leaf_read type na nd read
    exact ⟨fun ⟨xs, h⟩ => absurd h (this.1 xs), fun ⟨kvs, h⟩ => absurd h (this.2 kvs)⟩
  | arr u type => exact ⟨fun _ => asArray_type type, by rintro ⟨_, ⟨⟩⟩⟩
  | dict u type => exact ⟨by rintro ⟨_, ⟨⟩⟩, fun _ => asDict_type type⟩

theorem lit_run (c : Cfg) (F : FloatOps) (l : Lit) (hl : ∀ x, l ≠ .val x) (he : l.Every Scalar.Survives fun _ => True)
    (hsize : (l.tree F).weight ≤ SizedValue.maxWide) :
    ∃ e rs, Enc.new.run c l.ops = .ok (e, rs) ∧ (∀ r ∈ rs, r = .ok ()) ∧ AllOk F {} l.ops ∧
      (Build.run F {} l.ops).1.finish = some (l.tree F) := by
  have hmw : SizedValue.maxWide = 0x3fffffff := rfl
  have hs := l.spells F _ he
  have ht := hs.total
  have hphi := newWith_phi none
  obtain ⟨b, hb⟩ : ∃ b, Build.accept {} (l.tree F) = .ok b := by
    cases l with
    | val x => exact absurd rfl (hl x)
    | arr xs => rw [Lit.tree]; exact ⟨_, rfl⟩
    | dict kvs => rw [Lit.tree]; exact ⟨_, rfl⟩
  have hrun := hs.build hb
  obtain ⟨e, rs, h⟩ := Enc.run_ok (c := c) l.ops (newWith_wf (sk := none) (by simp)) (by omega) (hs.accepted (by omega))
  have hall : AllOk F {} l.ops := by
    unfold AllOk
    rw [hrun]
    exact fun r hr => (List.mem_replicate.mp hr).2
  obtain ⟨g1, g2⟩ := results_go c F l.ops (newWith_wf (sk := none) (by simp)) (by omega) (b := {}) ⟨rfl, rfl⟩
    (noDiscard_of_ok F _ hall) h
  rw [hrun] at g1
  refine ⟨e, rs, h, fun r hr => by rw [g1] at hr; exact (List.mem_replicate.mp hr).2, hall, ?_⟩
  rw [hrun]
  generalize l.tree F = t at hb
  cases t <;> cases hb <;> rfl

/-- **C44, no undefined behaviour in the calls.** None of the results that the macro unwraps without looking is an error, for
every literal up to 1 GiB with numbers the encoder can write (C03, C04). -/
theorem C44_calls_succeed_partial (c : Cfg) (F : FloatOps) (l : Lit) (hc : l.Compiles)
    (he : l.Every Scalar.Survives fun _ => True) (hsize : (l.tree F).weight ≤ SizedValue.maxWide) :
    ∃ e, l.write c Enc.new = .ok e := by
  obtain ⟨e, rs, h1, h2, _⟩ := lit_run c F l hc.1 he hsize
  exact ⟨e, by rw [Lit.write_ops]; exact Enc.runMust_run _ h1 h2⟩

/-- What the macro does with the results: it goes on exactly if none of them is an error, and an error is undefined behaviour. -/
theorem C44_unchecked (c : Cfg) (l : Lit) (e e' : Enc) :
    l.write c e = .ok e' ↔ ∃ rs, e.run c l.ops = .ok (e', rs) ∧ ∀ r ∈ rs, r = .ok () := by
  rw [Lit.write_ops]
  constructor
  · generalize l.ops = ops
    induction ops generalizing e with
    | nil => intro h; cases h; exact ⟨[], rfl, by simp⟩
    | cons op ops ih =>
      intro h
      unfold Enc.runMust unwrapUnchecked at h
      obtain ⟨e1, h1, h2⟩ := bind_eq_ok.mp h
      obtain ⟨⟨e2, r⟩, h3, h4⟩ := bind_eq_ok.mp h1
      cases r with
      | error x => cases h4
      | ok u =>
        cases h4
        obtain ⟨rs, g1, g2⟩ := ih e1 h2
        refine ⟨.ok () :: rs, ?_, by simpa using g2⟩
        unfold Enc.run
        simp only [h3, ok_bind, g1, pure_eq]
  · rintro ⟨rs, h1, h2⟩
    exact Enc.runMust_run _ h1 h2

mutual
theorem Lit.every_mono {S S' : Scalar → Prop} {K K' : RStr → Prop} (hs : ∀ s, S s → S' s) (hk : ∀ k, K k → K' k) :
    ∀ l : Lit, l.Every S K → l.Every S' K'
  | .val x, h => by simp only [Lit.Every] at h ⊢; exact hs x h
  | .arr xs, h => by simp only [Lit.Every] at h ⊢; exact Lit.everyOf_mono hs hk xs h
  | .dict kvs, h => by simp only [Lit.Every] at h ⊢; exact Lit.everyEntry_mono hs hk kvs h

theorem Lit.everyOf_mono {S S' : Scalar → Prop} {K K' : RStr → Prop} (hs : ∀ s, S s → S' s) (hk : ∀ k, K k → K' k) :
    ∀ xs : List Lit, Lit.EveryOf S K xs → Lit.EveryOf S' K' xs
  | [], _ => by simp [Lit.EveryOf]
  | x :: xs, h => by
    simp only [Lit.EveryOf] at h ⊢
    exact ⟨Lit.every_mono hs hk x h.1, Lit.everyOf_mono hs hk xs h.2⟩

theorem Lit.everyEntry_mono {S S' : Scalar → Prop} {K K' : RStr → Prop} (hs : ∀ s, S s → S' s) (hk : ∀ k, K k → K' k) :
    ∀ kvs : List (RStr × Lit), Lit.EveryEntry S K kvs → Lit.EveryEntry S' K' kvs
  | [], _ => by simp [Lit.EveryEntry]
  | kv :: kvs, h => by
    simp only [Lit.EveryEntry] at h ⊢
    exact ⟨hk _ h.1, Lit.every_mono hs hk kv.2 h.2.1, Lit.everyEntry_mono hs hk kvs h.2.2⟩
end

/-- **C44, the literal is built**, in both builds, wherever the allocator puts it. -/
theorem C44_builds_partial (c : Cfg) (F : FloatOps) (l : Lit) (hc : l.Compiles)
    (he : l.Every Scalar.Plain (RStr.PlainKey false)) (hsize : (l.tree F).weight ≤ SizedValue.maxNarrow) :
    ∃ out, ∀ base, base + out.length < 2 ^ 64 →
      ∃ v, l.fleece c base = .ok ⟨⟨out, base, c.dbg⟩, v⟩ ∧ Holds F ⟨⟨out, base, c.dbg⟩, v⟩ (l.tree F) := by
  have hmn : SizedValue.maxNarrow = 0x3fff := rfl
  have hmw : SizedValue.maxWide = 0x3fffffff := rfl
  have he' := Lit.every_mono (K' := fun _ => True) (fun _ (h : Scalar.Plain _) => h.1) (fun _ _ => trivial) l he
  obtain ⟨e, rs, h1, h2, hall, hfin⟩ := lit_run c F l hc.1 he' (by omega)
  have hs := l.spells F _ he'
  have ht := hs.total
  obtain ⟨e', rs', out, g1, _, g2⟩ := C47_finish_value_partial c F l.ops (by omega) (fun op hop => by
      have := Lit.ops_in l he op hop
      unfold Op.In at this
      cases op <;> first | trivial | exact this) (fun n hn => hs.accepted (by omega) _ hn) hall _ hfin
  rw [h1] at g1
  cases g1
  refine ⟨out, fun base hb => ?_⟩
  obtain ⟨v, k1, k2⟩ := g2 base hb
  refine ⟨v, ?_, k2⟩
  obtain ⟨_, t', hsame, hm⟩ := k2
  unfold Lit.fleece
  simp only [Lit.write_ops, Enc.runMust_run _ h1 h2, ok_bind, k1]
  cases l with
  | val x => exact absurd rfl (hc.1 x)
  | arr xs =>
    simp only [Lit.tree] at hsame
    have hty : v.type ⟨out, base, c.dbg⟩ = .ok .array := by
      cases hsame <;> exact (matches_type hm).1 ⟨_, rfl⟩
    simp only [Alloced.toArray, hty, ok_bind, pure_eq, if_true, unwrap, someUnchecked]
  | dict kvs =>
    simp only [Lit.tree] at hsame
    have hty : v.type ⟨out, base, c.dbg⟩ = .ok .dict := by
      cases hsame <;> exact (matches_type hm).2 ⟨_, rfl⟩
    simp only [Alloced.toDict, hty, ok_bind, pure_eq, if_true, unwrap, someUnchecked]

/-! ## Example -/

/-- `fleece! { "ab": [true, { "cd": 5u8 }], "cd": "ab" }` -/
def exampleLit : Lit := .dict [(sab, .arr [.val (.bool true), .dict [(scd, .val (.u8 5))]]), (scd, .val (.str sab))]

example (c : Cfg) (F : FloatOps) : ∃ out, ∀ base, base + out.length < 2 ^ 64 → ∃ v,
    exampleLit.fleece c base = .ok ⟨⟨out, base, c.dbg⟩, v⟩ ∧ Holds F ⟨⟨out, base, c.dbg⟩, v⟩
      (.dict [(sab.bytes, .arr [.bool true, .dict [(scd.bytes, .int 5)]]), (scd.bytes, .str sab.bytes)]) := by
  refine C44_builds_partial c F exampleLit ⟨nofun, nofun, ?_⟩ ?_ ?_
  · simp [exampleLit, Lit.Nests, Lit.NestsIn, Lit.NestsOf]
  · simp [exampleLit, Lit.Every, Lit.EveryOf, Lit.EveryEntry, Scalar.Plain, Scalar.Survives, Scalar.Tiny, RStr.PlainKey, sab, scd]
  · simp [exampleLit, Lit.tree, Lit.trees, Lit.entries, Tree.weight, Tree.weights, Tree.entryWeights, Scalar.tree, sab, scd,
      SizedValue.maxNarrow]

/-! ## Refutation -/

/-- `a` -/
def sLetter : RStr := ⟨[0x61], by decide⟩

set_option maxRecDepth 20000 in
/-- **C44 is false of the code.** `fleece! { "ab": 5000 }` never returns (C03), in both builds; `fleece! { "a": true }` is an
empty dict (C20); and `fleece! [b]` with one byte of data in `b` panics in the debug build (C21). -/
theorem C44_refuted :
    (∀ (c : Cfg) (base : Nat), (Lit.dict [(sab, .val (.i32 5000))]).fleece c base = .diverge) ∧
    (∃ out v, (Lit.dict [(sLetter, .val (.bool true))]).fleece exampleCfg 0 = .ok ⟨⟨out, 0, true⟩, v⟩ ∧
      ∀ F, readTree ⟨out, 0, true⟩ F none out.length v = .ok (.dict [])) ∧
    (Lit.arr [.val (.data [0x61])]).fleece exampleCfg 0 = .panic := by
  refine ⟨?_, ⟨[0x70, 0x01, 0x01, 0x61, 0x38, 0x00, 0x80, 0x03], ⟨0, 6⟩, ?_, fun F => rfl⟩, ?_⟩
  · intro c base
    have h : ∃ e, Enc.runMust c [.beginDict, .key sab] Enc.new = .ok e ∧ e.stack ≠ [] := by
      cases c with
      | mk dbg chars sort => cases dbg <;> exact ⟨_, rfl, by simp⟩
    obtain ⟨e, h1, h2⟩ := h
    have h3 := C03_write_value_i32_diverges c e 5000 h2 (by decide)
    unfold Lit.fleece
    have h4 : Enc.runMust c (Lit.dict [(sab, .val (.i32 5000))]).ops Enc.new = .diverge := by
      have : (Lit.dict [(sab, .val (.i32 5000))]).ops = [.beginDict, .key sab] ++ [.value (.i32 5000), .endDict] := rfl
      rw [this, Enc.runMust_append, h1, ok_bind, Enc.runMust]
      simp only [Enc.step, h3, unwrapUnchecked, diverge_bind]
    rw [Lit.write_ops, h4]
    rfl
  · have h1 : ∃ e, (Lit.dict [(sLetter, .val (.bool true))]).write exampleCfg Enc.new = .ok e ∧
        e.finish exampleCfg = .ok [0x70, 0x01, 0x01, 0x61, 0x38, 0x00, 0x80, 0x03] := ⟨_, rfl, by decide +kernel⟩
    obtain ⟨e, h1, h2⟩ := h1
    have h3 : fromBytes ⟨[0x70, 0x01, 0x01, 0x61, 0x38, 0x00, 0x80, 0x03], 0, true⟩ = .ok ⟨0, 6⟩ := by decide +kernel
    have h4 : e.finishValue exampleCfg 0 = .ok ⟨⟨[0x70, 0x01, 0x01, 0x61, 0x38, 0x00, 0x80, 0x03], 0, true⟩, ⟨0, 6⟩⟩ :=
      Enc.finishValue_ok h2 (fun _ => h3) nofun
    unfold Lit.fleece
    simp only [h1, ok_bind, h4]
    rfl
  · have h1 : ∃ e, (Lit.arr [.val (.data [0x61])]).write exampleCfg Enc.new = .ok e ∧
        e.finish exampleCfg = .ok [0x60, 0x01, 0x11, 0x61, 0x80, 0x02] := ⟨_, rfl, by decide +kernel⟩
    obtain ⟨e, h1, h2⟩ := h1
    have h3 : e.finishValue exampleCfg 0 = .panic := finishValue_rejected h2
      (x := .valueOutOfBounds .int 3 2) (by decide +kernel)
    unfold Lit.fleece
    simp only [h1, ok_bind, h3]
    rfl

end Fleece.Props
