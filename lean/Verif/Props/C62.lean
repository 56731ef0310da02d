import Verif.Proofs.FormatWrite
import Verif.Props.C30
import Verif.Props.C61

/-!
# C62 The encoder writes the format

The counterpart of C61: the bytes the encoder produces are, by the definition of the format (`Format.Document`, which mentions no
code), the document that was built, so that any reader of the format reads it. The full claim is false (`C62_refuted`), for the
reasons given with C20, and of dicts in which a key is written twice (`C62_refuted_twice`).
-/

namespace Fleece.Props
open Fleece Res Format

theorem sim_format {P : List UInt8 → Prop} {c : Cfg} {F : FloatOps} {e : Enc} {b : Build} (hw : e.WF) (hn : e.Nested)
    (hphi : e.phi ≤ SizedValue.maxWide) (hs : Sim F P e b) (hok : FinishOK c e.stack.length e) {t : Tree}
    (ht : b.finish = some t) (hd : t.Distinct) {scope : Option SharedKeys} (hsc : ScopeLe e.sk scope) :
    ∃ out t', e.finish c = .ok out ∧ Tree.Same t t' ∧ Document ⟨F, scope, False, P⟩ out t' := by
  obtain ⟨out, pre, p, en, t', h1, h2, h3, h4, h5, h6, h7⟩ := hs.finish hw hn hphi hok ht
  exact ⟨out, t', h1, h2, (h4.mono (List.prefix_refl _) hsc).format_document h3 h5 h6 h7 (hd.same h2)⟩

/-- **C62, exact.** Under the conditions of `C20_exact_partial` (documents below 1 GiB whose collections fit the width the encoder
chose), and if no dict has a key twice, the output is the document in the format; the entries of dicts may be in another order. -/
theorem C62_exact_partial (c : Cfg) (F : FloatOps) (ops : List Op) (hsize : Op.total ops ≤ SizedValue.maxWide) (e : Enc)
    (rs : List (Except EncodeError Unit)) (h : Enc.new.run c ops = .ok (e, rs)) (hok : RunOK c Enc.new ops)
    (hfin : FinishOK c e.stack.length e) (t : Tree) (ht : (Build.run F {} ops).1.finish = some t) (hd : t.Distinct) :
    ∃ out t', e.finish c = .ok out ∧ Tree.Same t t' ∧ Document ⟨F, none, False, fun _ => True⟩ out t' := by
  have hphi := newWith_phi none
  obtain ⟨hw, hp, _, hsk⟩ := Enc.run_inv ops (newWith_wf (sk := none) (by simp)) (by omega) h
  obtain ⟨hs, hn⟩ := Sim.run (F := F) (P := fun _ => True) ops (newWith_wf (sk := none) (by simp)) (newWith_nested none)
    (by omega) (Sim.new F none) hok (RunKeys.trivial _ _ _) h
  have hnone : e.sk = none := by
    cases he : e.sk with
    | none => rfl
    | some sk => rw [he] at hsk; exact hsk.elim
  exact sim_format hw hn (by omega) hs hfin ht hd (by rw [hnone]; exact .refl _)

/-- **C62, small documents.** All calls documented to succeed, at most 16383 bytes, scalars this version can write, no string,
data or key of fewer than two bytes, no key twice in a dict. -/
theorem C62_small_partial (c : Cfg) (F : FloatOps) (ops : List Op) (hsize : Op.total ops ≤ SizedValue.maxNarrow)
    (hplain : ∀ op ∈ ops, op.Plain false) (hcap : ∀ n, Op.beginArray n ∈ ops → n * 4 < 2 ^ 63) (hall : AllOk F {} ops)
    (t : Tree) (ht : (Build.run F {} ops).1.finish = some t) (hd : t.Distinct) :
    ∃ e rs out t', Enc.new.run c ops = .ok (e, rs) ∧ e.finish c = .ok out ∧ Tree.Same t t' ∧
      Document ⟨F, none, False, fun _ => True⟩ out t' := by
  have hmn : SizedValue.maxNarrow ≤ SizedValue.maxWide := by decide
  obtain ⟨e, rs, out, h1, _, h3, _⟩ := C20_small_partial c F none (by simp) ops hsize hplain hcap hall t ht
  have hphi := newWith_phi none
  obtain ⟨hw, hp, _⟩ := Enc.run_inv ops (newWith_wf (sk := none) (by simp)) (by omega) h1
  obtain ⟨hok, hc⟩ := plain_run ops (newWith_wf (sk := none) (by simp)) (by omega) ⟨rfl, rfl⟩ (newWith_clean none) hplain
    (hall.orderly ops (by simp)) h1
  obtain ⟨out', t', h4, h5, h6⟩ := C62_exact_partial c F ops (by omega) e rs h1 hok (clean_finish _ hw hc (by omega)) t ht hd
  exact ⟨e, rs, out', t', h1, h4, h5, h6⟩

/-- **C62, with shared keys.** As `C62_exact_partial`; the output is the document in the format under the final table and every
later one. No condition on the keys is needed beyond those of `RunOK`. -/
theorem C62_shared_partial (c : Cfg) (F : FloatOps) (sk : SharedKeys) (hsk : sk.WF) (ops : List Op)
    (hsize : Op.total ops ≤ SizedValue.maxWide) (e : Enc) (rs : List (Except EncodeError Unit))
    (h : ({ Enc.new with sk := some sk } : Enc).run c ops = .ok (e, rs)) (hok : RunOK c { Enc.new with sk := some sk } ops)
    (hfin : FinishOK c e.stack.length e) (last sk' : SharedKeys) (hlast : e.sk = some last) (hle : last.Le sk') (t : Tree)
    (ht : (Build.run F {} ops).1.finish = some t) (hd : t.Distinct) :
    ∃ out t', e.finish c = .ok out ∧ Tree.Same t t' ∧ Document ⟨F, some sk', False, fun _ => True⟩ out t' := by
  have hphi := newWith_phi (some sk)
  have hwf := newWith_wf (sk := some sk) (by rintro s ⟨⟩; exact hsk)
  obtain ⟨hw, hp, _⟩ := Enc.run_inv ops hwf (by omega) h
  obtain ⟨hs, hn⟩ := Sim.run (F := F) (P := fun _ => True) ops hwf (newWith_nested _) (by omega) (Sim.new F _) hok
    (RunKeys.trivial _ _ _) h
  exact sim_format hw hn (by omega) hs hfin ht hd (by rw [hlast]; rintro s ⟨⟩; exact ⟨sk', rfl, hle⟩)

/-! ## A document -/

theorem example_distinct : Tree.Distinct
    (.dict [([0x63, 0x64], .arr [.int 1, .str [0x61, 0x62], .dict []]), ([0x61, 0x62], .bool true)]) := by
  have leaf : ∀ t : Tree, (∀ xs, t ≠ .arr xs) → (∀ kvs, t ≠ .dict kvs) → t.Distinct := fun t h1 h2 => .leaf h1 h2
  refine .dict (by decide) fun e he => ?_
  simp only [List.mem_cons, List.not_mem_nil, or_false] at he
  rcases he with rfl | rfl
  · refine .arr fun x hx => ?_
    simp only [List.mem_cons, List.not_mem_nil, or_false] at hx
    rcases hx with rfl | rfl | rfl
    · exact leaf _ (by simp) (by simp)
    · exact leaf _ (by simp) (by simp)
    · exact .dict (by decide) (by simp)
  · exact leaf _ (by simp) (by simp)

/-- `{"cd": [1, "ab", {}], "ab": true}`. -/
example (F : FloatOps) : ∃ e rs out t', Enc.new.run exampleCfg exampleOps = .ok (e, rs) ∧ e.finish exampleCfg = .ok out ∧
    Tree.Same (.dict [([0x63, 0x64], .arr [.int 1, .str [0x61, 0x62], .dict []]), ([0x61, 0x62], .bool true)]) t' ∧
    Document ⟨F, none, False, fun _ => True⟩ out t' := by
  refine C62_small_partial exampleCfg F exampleOps (by decide) ?_ ?_ ?_ _ rfl example_distinct
  · intro op hop
    simp only [exampleOps, List.mem_cons, List.not_mem_nil, or_false] at hop
    rcases hop with rfl | rfl | rfl | rfl | rfl | rfl | rfl | rfl | rfl | rfl <;>
      simp [Op.Plain, Scalar.Survives, Scalar.Tiny, sab, scd, ShortRange] <;> decide
  · intro n hn
    simp [exampleOps] at hn
    omega
  · intro r hr
    simp [exampleOps, Build.run, Build.next, Build.step, Build.open, Build.put, Build.close] at hr
    exact hr

/-- The same with shared keys, read with the table as it is in the end. -/
example (F : FloatOps) : ∃ e rs out last t', ({ Enc.new with sk := some .new } : Enc).run exampleCfg exampleOps = .ok (e, rs) ∧
    e.finish exampleCfg = .ok out ∧ e.sk = some last ∧
    Tree.Same (.dict [([0x63, 0x64], .arr [.int 1, .str [0x61, 0x62], .dict []]), ([0x61, 0x62], .bool true)]) t' ∧
    Document ⟨F, some last, False, fun _ => True⟩ out t' := by
  have hsk0 : ∀ s, (some SharedKeys.new : Option SharedKeys) = some s → s.WF := by rintro s ⟨⟩; exact SharedKeys.new_wf
  have hplain : ∀ op ∈ exampleOps, op.Plain true := by
    intro op hop
    simp only [exampleOps, List.mem_cons, List.not_mem_nil, or_false] at hop
    rcases hop with rfl | rfl | rfl | rfl | rfl | rfl | rfl | rfl | rfl | rfl <;>
      simp [Op.Plain, Scalar.Survives, Scalar.Tiny, sab, scd, ShortRange] <;> decide
  have hall : AllOk F {} exampleOps := by
    intro r hr
    simp [exampleOps, Build.run, Build.next, Build.step, Build.open, Build.put, Build.close] at hr
    exact hr
  have hsize : Op.total exampleOps ≤ SizedValue.maxNarrow := by decide
  have hmn : SizedValue.maxNarrow ≤ SizedValue.maxWide := by decide
  obtain ⟨e, rs, out, h1, _, h3, _⟩ := C20_small_partial exampleCfg F (some .new) hsk0 exampleOps hsize hplain
    (by intro n hn; simp [exampleOps] at hn; omega) hall _ rfl
  have hphi := newWith_phi (some SharedKeys.new)
  obtain ⟨hw, hp, _, hskle⟩ := Enc.run_inv exampleOps (newWith_wf hsk0) (by omega) h1
  obtain ⟨hok, hc⟩ := plain_run exampleOps (newWith_wf hsk0) (by omega) ⟨rfl, rfl⟩ (newWith_clean _) hplain
    (hall.orderly _ (by simp)) h1
  cases hl : e.sk with
  | none => rw [hl] at hskle; exact hskle.elim
  | some last =>
    obtain ⟨out', t', h4, h5, h6⟩ := C62_shared_partial exampleCfg F .new SharedKeys.new_wf exampleOps (by omega) e rs h1 hok
      (clean_finish _ hw hc (by omega)) last last hl (.refl _) _ rfl example_distinct
    exact ⟨e, rs, out', last, t', h1, h4, hl, h5, h6⟩

/-! ## What is not -/

theorem not_document {F : FloatOps} {neg : Prop} {P : List UInt8 → Prop} {out : List UInt8} {t t' : Tree}
    (hb : ∀ b ∈ out, ¬ (16 ≤ b.toNat ∧ b.toNat < 23)) (hnot : ¬ Decodes F none out t) (hs : Tree.Same t t') :
    ¬ Document ⟨F, none, neg, P⟩ out t' := by
  intro h
  refine hnot fun m hm hbase => ?_
  obtain ⟨v, h1, h2⟩ := C61_decodes_partial _ (fun h => h) out t' (h.calm hb) m hm hbase
  exact ⟨v, t', h1, hs, h2⟩

set_option maxRecDepth 20000 in
/-- **C62 is false of the code**: of `["a"]` the encoder makes bytes which are not that document in the format, even if that
includes negative numbers of any size. -/
theorem C62_refuted : ∃ (c : Cfg) (ops : List Op) (e : Enc) (rs : List (Except EncodeError Unit)) (out : List UInt8),
    Enc.new.run c ops = .ok (e, rs) ∧ e.finish c = .ok out ∧
    ∀ F, AllOk F {} ops ∧ (Build.run F {} ops).1.finish = some (.arr [.str [0x61]]) ∧
      ∀ t', Tree.Same (.arr [.str [0x61]]) t' → ¬ Document ⟨F, none, True, fun _ => True⟩ out t' := by
  have hbytes : ∀ b ∈ ([0x60, 0x01, 0x01, 0x61, 0x80, 0x02] : List UInt8), ¬ (16 ≤ b.toNat ∧ b.toNat < 23) := by decide
  refine ⟨exampleCfg, [.beginArray 0, .value (.str ⟨[0x61], by decide⟩), .endArray], _, _,
    [0x60, 0x01, 0x01, 0x61, 0x80, 0x02], rfl, by decide +kernel, fun F => ⟨?_, rfl, fun t' hs => not_document hbytes ?_ hs⟩⟩
  · intro r hr
    simp [Build.run, Build.next, Build.step, Build.open, Build.put, Build.close] at hr
    exact hr
  · refine not_decodes (v := ⟨0, 4⟩) (t' := .arr [.int 353]) (by decide) (by decide +kernel) rfl ?_
    intro h2
    cases h2 with
    | arr len each => cases each 0 _ _ rfl rfl

set_option maxRecDepth 20000 in
/-- **C62 is false of dicts with a key written twice**: `{"ab": true, "ab": null}` is no document of the format at all, since its
keys have to increase. -/
theorem C62_refuted_twice : ∃ (c : Cfg) (ops : List Op) (e : Enc) (rs : List (Except EncodeError Unit)) (out : List UInt8),
    Enc.new.run c ops = .ok (e, rs) ∧ e.finish c = .ok out ∧
    ∀ F, AllOk F {} ops ∧ ∀ t, ¬ Document ⟨F, none, True, fun _ => True⟩ out t := by
  have hbytes : ∀ b ∈ ([66, 97, 98, 0, 66, 97, 98, 0, 112, 2, 128, 5, 56, 0, 128, 5, 48, 0, 128, 5] : List UInt8),
    ¬ (16 ≤ b.toNat ∧ b.toNat < 23) := by decide
  refine ⟨exampleCfg, [.beginDict, .key sab, .value (.bool true), .key sab, .value .null, .endDict], _, _,
    [66, 97, 98, 0, 66, 97, 98, 0, 112, 2, 128, 5, 56, 0, 128, 5, 48, 0, 128, 5], rfl, by decide +kernel,
    fun F => ⟨?_, fun t h => ?_⟩⟩
  · intro r hr
    simp [Build.run, Build.next, Build.step, Build.open, Build.put, Build.close] at hr
    exact hr
  · obtain ⟨v, h1, h2⟩ := C61_decodes_partial _ (fun h => h) _ t (h.calm hbytes) ⟨_, 0, true⟩ rfl (by decide)
    have hv : fromBytes ⟨[66, 97, 98, 0, 66, 97, 98, 0, 112, 2, 128, 5, 56, 0, 128, 5, 48, 0, 128, 5], 0, true⟩ =
      .ok ⟨8, 10⟩ := by decide +kernel
    rw [hv] at h1; cases h1
    have h3 : readTree ⟨[66, 97, 98, 0, 66, 97, 98, 0, 112, 2, 128, 5, 56, 0, 128, 5, 48, 0, 128, 5], 0, true⟩ F none 20 ⟨8, 10⟩ =
      .ok (.dict [([97, 98], .bool true), ([97, 98], .null)]) := rfl
    have h4 := h2 20 (by decide)
    rw [h3] at h4; cases h4
    cases h.distinct rfl with
    | leaf _ nd => exact nd _ rfl
    | dict once _ => exact absurd once (by decide)

end Fleece.Props
