import Verif.Proofs.Determ
import Verif.Props.C30

/-!
# C57 The same calls give the same bytes

`sort_unstable_by` may leave equal keys in any order, and debug and release builds differ in their overflow checks.
Full claim: neither shows in the output. It is false: a dict with the same key twice (`C57_refuted_duplicate`), two
16-byte keys that share a code (`C57_refuted_shared`), a number whose last 57 bits are zero (`C57_refuted_release`).
-/

namespace Fleece.Props
open Fleece Res

/-- **C57.** Calls that may be rejected but contain neither misuse of `Orderly`; in the document they describe, no dict
has a key twice; with shared keys, no key has 16 bytes. What one build returns (with whatever sort), another returns too:
the same results, the same bytes, the same shared keys. `c` may be a debug build and `c'` a release build. -/
theorem C57_partial (c c' : Cfg) (hchars : c'.chars = c.chars) (hdbg : c.dbg = true ∨ c'.dbg = c.dbg) (F : FloatOps)
    (sk : Option SharedKeys) (hsk : ∀ s, sk = some s → s.WF) (ops : List Op) (hsize : Op.total ops ≤ SizedValue.maxWide)
    (horder : Orderly F {} ops) (h16 : sk.isSome → ∀ k, Op.key k ∈ ops → k.bytes.length ≠ 16)
    (hdist : ∀ t, (Build.run F {} ops).1.finish = some t → t.Distinct) (e : Enc) (rs : List (Except EncodeError Unit))
    (h : ({ Enc.new with sk } : Enc).run c ops = .ok (e, rs)) :
    ({ Enc.new with sk } : Enc).run c' ops = .ok (e, rs) ∧ ∃ out, e.finish c = .ok out ∧ e.finish c' = .ok out := by
  have hphi := newWith_phi sk
  have hwf := newWith_wf hsk
  obtain ⟨hw, hp, _⟩ := Enc.run_inv ops hwf (by omega) h
  have ho : (Build.run F {} ops).1.Ordered := (Build.run_back false ops Build.empty_ordered).1
  have hd := Build.finish_distinct hdist
  obtain ⟨h1, h2, h3, _⟩ := Enc.run_agree (F := F) (b := {}) hchars hdbg ops hwf (by omega) ⟨rfl, rfl⟩ .nil
    Build.empty_ordered horder (fun op hop => by
      cases op with
      | key k => exact fun hs => h16 hs k hop
      | _ => trivial) (Build.closeN_distinct _ ho hd) h
  refine ⟨h1, _, Enc.finish_eq hw (by omega), ?_⟩
  rw [Enc.finish_eq hw (by omega)]
  have hlen : e.stack.length = (Build.run F {} ops).1.stack.length := by simpa using congrArg List.length h2.stack
  rw [Enc.closeN_agree (c := c) (c' := c') e.stack.length hw (by omega) h2 h3 ho (by rw [hlen]; exact hd)]

/-- Insertion sort from the other end: equal keys come out in the opposite order. -/
def otherSorter : Sorter where
  run l := insertionSorter.run l.reverse
  perm l := (insertionSorter.perm _).trans (List.reverse_perm l)
  sorted _ := insertionSorter.sorted _

/-- A release build with the other sort. -/
def otherCfg : Cfg := { exampleCfg with dbg := false, sort := otherSorter }

/-- `{"cd": [1, "ab", {}], "ab": true}`, debug and release, with two different sorts. -/
example (F : FloatOps) (e : Enc) (rs : List (Except EncodeError Unit))
    (h : Enc.new.run { exampleCfg with dbg := true } exampleOps = .ok (e, rs)) :
    Enc.new.run otherCfg exampleOps = .ok (e, rs) ∧
      ∃ out, e.finish { exampleCfg with dbg := true } = .ok out ∧ e.finish otherCfg = .ok out := by
  refine C57_partial { exampleCfg with dbg := true } otherCfg rfl (.inl rfl) F none (by simp) exampleOps (by decide) ?_ (by simp) ?_ e rs h
  · refine AllOk.orderly _ (by simp) ?_
    intro r hr
    simp [exampleOps, Build.run, Build.next, Build.step, Build.open, Build.put, Build.close] at hr
    exact hr
  · rintro t ⟨⟩
    refine .dict (by simp [sab, scd]) ?_
    intro x hx
    simp only [List.nil_append, List.cons_append, List.mem_cons, List.not_mem_nil, or_false] at hx
    rcases hx with rfl | rfl
    · refine .arr ?_
      intro y hy
      simp only [List.mem_cons, List.not_mem_nil, or_false] at hy
      rcases hy with rfl | rfl | rfl
      · exact .leaf (by simp [Scalar.tree]) (by simp [Scalar.tree])
      · exact .leaf (by simp [Scalar.tree]) (by simp [Scalar.tree])
      · exact .dict (by simp) (by simp)
    · exact .leaf (by simp [Scalar.tree]) (by simp [Scalar.tree])

/-! ## The full claim is false -/

/-- **C57 is false of the code: a key twice.** `{"ab": true, "ab": false}`: two sorts, two outputs. -/
theorem C57_refuted_duplicate : ∃ (c c' : Cfg) (ops : List Op) (e : Enc) (rs : List (Except EncodeError Unit))
    (out out' : List UInt8), c'.chars = c.chars ∧ c'.dbg = c.dbg ∧ Enc.new.run c ops = .ok (e, rs) ∧
    Enc.new.run c' ops = .ok (e, rs) ∧ e.finish c = .ok out ∧ e.finish c' = .ok out' ∧ out ≠ out' ∧
    (∀ F, AllOk F {} ops) ∧ ∀ op ∈ ops, op.Plain false := by
  refine ⟨exampleCfg, { exampleCfg with sort := otherSorter },
    [.beginDict, .key sab, .value (.bool true), .key sab, .value (.bool false)], _, _,
    [66, 97, 98, 0, 66, 97, 98, 0, 112, 2, 128, 5, 56, 0, 128, 5, 52, 0, 128, 5],
    [66, 97, 98, 0, 66, 97, 98, 0, 112, 2, 128, 3, 52, 0, 128, 7, 56, 0, 128, 5], rfl, rfl, rfl, rfl,
    by decide +kernel, by decide +kernel, by decide, ?_, ?_⟩
  · intro F r hr
    simp [Build.run, Build.next, Build.step, Build.open, Build.put] at hr
    exact hr
  · intro op hop
    simp only [List.mem_cons, List.not_mem_nil, or_false] at hop
    rcases hop with rfl | rfl | rfl | rfl | rfl <;> simp [Op.Plain, Scalar.Survives, Scalar.Tiny, sab]

/-- Two 16-byte keys that differ in their last byte. -/
def key16b : RStr := ⟨List.replicate 15 0x61 ++ [0x62], by decide +kernel⟩
def key16c : RStr := ⟨List.replicate 15 0x61 ++ [0x63], by decide +kernel⟩

/-- **C57 is false of the code: keys of 16 bytes.** `{key16b: true, key16c: false}` with an empty table of shared keys:
the keys differ, but get the same code, so that the order is up to the sort. -/
theorem C57_refuted_shared : ∃ (c c' : Cfg) (ops : List Op) (e : Enc) (rs : List (Except EncodeError Unit))
    (out out' : List UInt8), c'.chars = c.chars ∧ c'.dbg = c.dbg ∧
    ({ Enc.new with sk := some .new } : Enc).run c ops = .ok (e, rs) ∧
    ({ Enc.new with sk := some .new } : Enc).run c' ops = .ok (e, rs) ∧ e.finish c = .ok out ∧ e.finish c' = .ok out' ∧
    out ≠ out' ∧ (∀ F, AllOk F {} ops) ∧
    ∀ F, ∃ t, (Build.run F {} ops).1.finish = some t ∧ t.Distinct := by
  refine ⟨exampleCfg, { exampleCfg with sort := otherSorter },
    [.beginDict, .key key16b, .value (.bool true), .key key16c, .value (.bool false)], _, _,
    [112, 2, 0, 0, 56, 0, 0, 0, 52, 0, 128, 5], [112, 2, 0, 0, 52, 0, 0, 0, 56, 0, 128, 5], rfl, rfl, rfl, rfl,
    by decide +kernel, by decide +kernel, by decide, ?_, ?_⟩
  · intro F r hr
    simp [Build.run, Build.next, Build.step, Build.open, Build.put] at hr
    exact hr
  · intro F
    refine ⟨.dict [(key16b.bytes, .bool true), (key16c.bytes, .bool false)], rfl, .dict (by decide) ?_⟩
    intro x hx
    simp only [List.mem_cons, List.not_mem_nil, or_false] at hx
    rcases hx with rfl | rfl <;> exact .leaf (by simp) (by simp)

/-- **C57 is false of the code: release against debug.** `[2^57]`: the debug build panics, the release build writes the
byte `0xFF` for the number. -/
theorem C57_refuted_release : ∃ (c c' : Cfg) (ops : List Op) (e : Enc) (rs : List (Except EncodeError Unit)),
    c'.chars = c.chars ∧ c'.sort = c.sort ∧ Enc.new.run c ops = .ok (e, rs) ∧ rs = [.ok (), .ok ()] ∧
    e.finish c = .ok [255, 0, 96, 1, 128, 2, 128, 2] ∧ Enc.new.run c' ops = .panic :=
  ⟨{ exampleCfg with dbg := false }, exampleCfg, [.beginArray 0, .value (.u64 (2 ^ 57))], _, _, rfl, rfl, rfl, rfl,
    by decide +kernel, rfl⟩

end Fleece.Props
