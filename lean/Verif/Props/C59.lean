import Verif.Props.C20Large
import Verif.Props.C58
import Verif.Proofs.HasFits

/-!
# C59 Equal bytes mean equal documents

Encoded documents are compared, hashed and deduplicated as bytes. Full claim: two sequences of calls with the same output
describe the same document. It is false (`C59_refuted_string`, `C59_refuted_number`): the encoder does not tell short
strings from numbers, nor numbers that agree modulo 2^16.
-/

namespace Fleece

/-- Equality of documents is transitive. -/
theorem Tree.Same.trans {t u w : Tree} (h : Tree.Same t u) (h' : Tree.Same u w) : Tree.Same t w := by
  induction h generalizing w with
  | refl t => exact h'
  | @arr xs ys len each ih =>
    cases h' with
    | refl => exact .arr len each
    | arr len' each' =>
      refine .arr (len.trans len') fun i x z hx hz => ?_
      have hi : i < ys.length := by
        have := (List.getElem?_eq_some_iff.mp hx).1; omega
      exact ih i x ys[i] hx (by simp) (each' i ys[i] z (by simp) hz)
  | @dict kvs mid lvs perm keys each ih =>
    cases h' with
    | refl => exact .dict perm keys each
    | @dict _ mid' nvs perm' keys' each' =>
      have hl : mid.length = lvs.length := by simpa using congrArg List.length keys
      have hl' : mid'.length = nvs.length := by simpa using congrArg List.length keys'
      have hz1 : (mid.zip lvs).map Prod.fst = mid := List.map_fst_zip (by omega)
      have hz2 : (mid.zip lvs).map Prod.snd = lvs := List.map_snd_zip (by omega)
      obtain ⟨zs, hp, hk⟩ := perm_map_inv perm' (f := Prod.snd) hz2.symm
      have hmem : ∀ z ∈ zs, z.1.1 = z.2.1 ∧ ∀ w, Tree.Same z.2.2 w → Tree.Same z.1.2 w := by
        intro z hz
        obtain ⟨i, hi, rfl⟩ := List.mem_iff_getElem.mp (hp.mem_iff.mpr hz)
        simp only [List.length_zip] at hi
        simp only [List.getElem_zip]
        refine ⟨?_, fun w hw => ih i mid[i] lvs[i] (by simp) (by simp) hw⟩
        have := congrArg (·[i]?) keys
        simpa [show i < mid.length by omega, show i < lvs.length by omega] using this
      refine .dict (mid := zs.map Prod.fst) ?_ ?_ ?_
      · rw [← hz1] at perm; exact perm.trans (hp.map _)
      · rw [← keys', hk, List.map_map, List.map_map]
        exact List.map_congr_left fun z hz => (hmem z hz).1
      · intro i x y hx hy
        simp only [List.getElem?_map] at hx
        cases hz : zs[i]? with
        | none => rw [hz] at hx; cases hx
        | some z =>
          rw [hz] at hx
          cases hx
          exact (hmem z (List.mem_of_getElem? hz)).2 _ (each' i z.2 y (by rw [hk, List.getElem?_map, hz]; rfl) hy)

namespace Props
open Res

/-- Bytes decode to one document only. -/
theorem Decodes.unique {F : FloatOps} {scope : Option SharedKeys} {out : List UInt8} (hl : out.length < 2 ^ 64) {t u : Tree}
    (h : Decodes F scope out t) (h' : Decodes F scope out u) : Tree.Same t u := by
  obtain ⟨v, t', h1, h2, h3⟩ := h ⟨out, 0, true⟩ rfl (by simpa using hl)
  obtain ⟨v', u', g1, g2, g3⟩ := h' ⟨out, 0, true⟩ rfl (by simpa using hl)
  rw [h1] at g1; cases g1
  have h4 := h3 _ (Nat.le_refl _)
  rw [g3 _ (Nat.le_refl _)] at h4; cases h4
  exact h2.trans g2.symm

/-- The calls and documents of C20: below 16 KiB (24 bytes per call and the text), or roomy and below 1 GiB. -/
def Good (F : FloatOps) (shared : Bool) (ops : List Op) (t : Tree) : Prop :=
  AllOk F {} ops ∧ (Build.run F {} ops).1.finish = some t ∧
    ((Op.total ops ≤ SizedValue.maxNarrow ∧ (∀ op ∈ ops, op.Plain shared) ∧ ∀ n, Op.beginArray n ∈ ops → n * 4 < 2 ^ 63) ∨
      (Op.total ops ≤ SizedValue.maxWide ∧ (∀ op ∈ ops, op.Sound shared) ∧
        (∀ kvs k rest, (Build.run F {} ops).1.stack ≠ .dict kvs (some k) :: rest) ∧ t.Roomy shared))

theorem Good.decodes (c : Cfg) {F : FloatOps} {sk : Option SharedKeys} (hsk : ∀ s, sk = some s → s.WF) {ops : List Op} {t : Tree}
    (h : Good F sk.isSome ops t) : ∃ e rs out, ({ Enc.new with sk } : Enc).run c ops = .ok (e, rs) ∧
      e.finish c = .ok out ∧ ∀ scope, ScopeLe e.sk scope → Decodes F scope out t := by
  obtain ⟨h1, h2, h | h⟩ := h
  · obtain ⟨e, rs, out, g1, _, g2, g3⟩ := C20_small_partial c F sk hsk ops h.1 h.2.1 h.2.2 h1 t h2
    exact ⟨e, rs, out, g1, g2, g3⟩
  · obtain ⟨e, rs, out, g1, _, g2, g3⟩ := C20_large_partial c F sk hsk ops h.1 h.2.1 h1 h.2.2.1 t h2 h.2.2.2
    exact ⟨e, rs, out, g1, g2, g3⟩

theorem Good.length (c : Cfg) {F : FloatOps} {sk : Option SharedKeys} (hsk : ∀ s, sk = some s → s.WF) {ops : List Op} {t : Tree}
    (h : Good F sk.isSome ops t) {e : Enc} {rs : List (Except EncodeError Unit)} {out : List UInt8}
    (hr : ({ Enc.new with sk } : Enc).run c ops = .ok (e, rs)) (hf : e.finish c = .ok out) : out.length < 2 ^ 64 := by
  have hmn : SizedValue.maxNarrow ≤ SizedValue.maxWide := by decide
  have hmw : SizedValue.maxWide = 0x3fffffff := rfl
  have ht : Op.total ops ≤ SizedValue.maxWide := by
    rcases h.2.2 with h | h
    · exact Nat.le_trans h.1 hmn
    · exact h.1
  rw [total_eq, hmw] at ht
  obtain ⟨out', h1, h2, _⟩ := C58 c sk hsk ops ht e rs hr
  rw [hf] at h1; cases h1
  omega

/-- **C59.** Two sequences of calls of the kinds of C20 (`Good`), with any builds and sorts. If the outputs are the same
bytes, and the shared keys one encoder ends with are an extension of the other's (there may be none), the documents are
the same. -/
theorem C59_partial (c c' : Cfg) (F : FloatOps) (sk sk' : Option SharedKeys) (hsk : ∀ s, sk = some s → s.WF)
    (hsk' : ∀ s, sk' = some s → s.WF) (ops ops' : List Op) (t t' : Tree) (hg : Good F sk.isSome ops t)
    (hg' : Good F sk'.isSome ops' t') (e e' : Enc) (rs rs' : List (Except EncodeError Unit)) (out : List UInt8)
    (h : ({ Enc.new with sk } : Enc).run c ops = .ok (e, rs)) (hf : e.finish c = .ok out)
    (h' : ({ Enc.new with sk := sk' } : Enc).run c' ops' = .ok (e', rs')) (hf' : e'.finish c' = .ok out)
    (hle : ScopeLe e.sk e'.sk) : Tree.Same t t' := by
  obtain ⟨_, _, _, g1, g2, g3⟩ := hg.decodes c hsk
  obtain ⟨_, _, _, k1, k2, k3⟩ := hg'.decodes c' hsk'
  rw [h] at g1; cases g1
  rw [hf] at g2; cases g2
  rw [h'] at k1; cases k1
  rw [hf'] at k2; cases k2
  exact Decodes.unique (hg.length c hsk h hf) (g3 _ hle) (k3 _ (.refl _))

/-- A table with the keys "ab" and "cd". -/
def abcd : SharedKeys := ⟨[(sab.bytes, 0), (scd.bytes, 1)]⟩

theorem abcd_wf : abcd.WF := by
  have h1 := (SharedKeys.new_wf.insert exampleCfg.chars sab.bytes).1
  exact (h1.insert exampleCfg.chars scd.bytes).1

/-- `{"ab": true, "cd": false}` and `{"cd": false, "ab": true}` with that table: the same 12 bytes. -/
example (F : FloatOps) : Tree.Same (.dict [(sab.bytes, .bool true), (scd.bytes, .bool false)])
    (.dict [(scd.bytes, .bool false), (sab.bytes, .bool true)]) := by
  refine C59_partial exampleCfg exampleCfg F (some abcd) (some abcd) (by rintro s ⟨⟩; exact abcd_wf)
    (by rintro s ⟨⟩; exact abcd_wf) [.beginDict, .key sab, .value (.bool true), .key scd, .value (.bool false), .endDict]
    [.beginDict, .key scd, .value (.bool false), .key sab, .value (.bool true), .endDict] _ _ ?_ ?_ _ _ _ _
    [112, 2, 0, 0, 56, 0, 0, 1, 52, 0, 128, 5] rfl (by decide +kernel) rfl (by decide +kernel) (.refl _)
  all_goals
    refine ⟨?_, rfl, .inl ⟨by decide, ?_, by simp⟩⟩
    · intro r hr
      simp [Build.run, Build.next, Build.step, Build.open, Build.put, Build.close] at hr
      exact hr
    · intro op hop
      simp only [List.mem_cons, List.not_mem_nil, or_false] at hop
      rcases hop with rfl | rfl | rfl | rfl | rfl | rfl <;> simp [Op.Plain, Scalar.Survives, Scalar.Tiny, sab, scd]

/-! ## The full claim is false -/

/-- **C59 is false of the code: strings and numbers.** `["a"]` and `[353]` have the same encoding. -/
theorem C59_refuted_string : ∃ (c : Cfg) (ops ops' : List Op) (e e' : Enc) (rs rs' : List (Except EncodeError Unit))
    (out : List UInt8), Enc.new.run c ops = .ok (e, rs) ∧ e.finish c = .ok out ∧ Enc.new.run c ops' = .ok (e', rs') ∧
    e'.finish c = .ok out ∧ ∀ F, AllOk F {} ops ∧ AllOk F {} ops' ∧
      (Build.run F {} ops).1.finish = some (.arr [.str [0x61]]) ∧ (Build.run F {} ops').1.finish = some (.arr [.int 353]) := by
  refine ⟨exampleCfg, [.beginArray 0, .value (.str ⟨[0x61], by decide⟩), .endArray],
    [.beginArray 0, .value (.i16 353), .endArray], _, _, _, _, [0x60, 0x01, 0x01, 0x61, 0x80, 0x02], rfl, by decide +kernel,
    rfl, by decide +kernel, fun F => ⟨?_, ?_, rfl, rfl⟩⟩ <;>
  · intro r hr
    simp [Build.run, Build.next, Build.step, Build.open, Build.put, Build.close] at hr
    exact hr

/-- **C59 is false of the code: numbers.** `[65541]` and `[5]`, as `i64`, have the same encoding. -/
theorem C59_refuted_number : ∃ (c : Cfg) (ops ops' : List Op) (e e' : Enc) (rs rs' : List (Except EncodeError Unit))
    (out : List UInt8), Enc.new.run c ops = .ok (e, rs) ∧ e.finish c = .ok out ∧ Enc.new.run c ops' = .ok (e', rs') ∧
    e'.finish c = .ok out ∧ ∀ F, AllOk F {} ops ∧ AllOk F {} ops' ∧
      (Build.run F {} ops).1.finish = some (.arr [.int 65541]) ∧ (Build.run F {} ops').1.finish = some (.arr [.int 5]) := by
  refine ⟨exampleCfg, [.beginArray 0, .value (.i64 65541), .endArray],
    [.beginArray 0, .value (.i64 5), .endArray], _, _, _, _, [0x60, 0x01, 0x00, 0x05, 0x80, 0x02], rfl, by decide +kernel,
    rfl, by decide +kernel, fun F => ⟨?_, ?_, rfl, rfl⟩⟩ <;>
  · intro r hr
    simp [Build.run, Build.next, Build.step, Build.open, Build.put, Build.close] at hr
    exact hr

end Props
end Fleece
