import Verif.Props.Large
import Verif.Props.C49
import Verif.Props.C62
import Verif.Props.C68

/-!
# Documents up to 1 GiB: scopes (C49), the format (C62) and the printed text (C68)

The condition is that the document is roomy (Spec/Layout.lean), as in Props/Large.lean.
-/

namespace Fleece.Props
open Fleece Res Spec Format

/-- **C49, from the calls to the reading, documents up to 1 GiB.** As `C49_small_partial`. -/
theorem C49_large_partial (before after : List ScopeOp) (c : Cfg) (F : FloatOps) (sk : SharedKeys) (hsk : sk.WF)
    (htidy : sk.Tidy c.chars) (ops : List Op) (hsize : Op.total ops ≤ SizedValue.maxWide) (hgood : ∀ op ∈ ops, op.GoodKey c.chars)
    (hsound : ∀ op ∈ ops, op.Sound true) (hall : AllOk F {} ops)
    (hdang : ∀ kvs k rest, (Build.run F {} ops).1.stack ≠ .dict kvs (some k) :: rest) (t : Tree)
    (ht : (Build.run F {} ops).1.finish = some t) (hroomy : t.Roomy true) :
    ∃ e rs out last, ({ Enc.new with sk := some sk } : Enc).run c ops = .ok (e, rs) ∧ e.finish c = .ok out ∧ e.sk = some last ∧
      (last.entries.length < 2048 → ∀ base, base + out.length < 2 ^ 64 →
        ∀ m, m = ⟨out, base, c.dbg⟩ → LegalRun [] (before ++ .new m e.sk :: after) →
        Spares (bookRun [] before).length after →
        ∃ r' s v t', (Registry.run {} before).1.finishScoped c e base = (r', .ok (bookRun [] before).length) ∧
          (r'.run after).1.scopes[(bookRun [] before).length]? = some s ∧ s.rootValue = some ⟨m, v⟩ ∧
          Tree.Same t t' ∧ Matches m F e.sk (Sound c.chars) v t' ∧
          (∀ fuel x, (r'.run after).1.readTree m F fuel x = readTree m F e.sk fuel x) ∧
          (∀ x k, (r'.run after).1.dictGet m x k = x.dictGet m e.sk k)) := by
  obtain ⟨e, rs, out, last, h1, h2, h3, h4, h5, _, h7⟩ :=
    C30_large_partial c F sk hsk htidy ops hsize hgood hsound hall hdang t ht hroomy
  refine ⟨e, rs, out, last, h1, h2, h3, ?_⟩
  rintro hroom base hbase m rfl hl hs
  have hdoc := h7 hroom last (.refl _) h4 h5
  obtain ⟨r', hnew, hr'⟩ := scope_made before after _ _ hl
  obtain ⟨s, v, t', g1, g2, g3, g4, g5, g6, g7, _⟩ := C49_reads_partial before after F _ _ e.sk t hbase (by rw [h3]; exact hdoc) hl hs
    (r'.run after).1 hr'.symm
  refine ⟨r', s, v, t', ?_, g1, g2, g4, g5, g6, g7⟩
  rw [C49_finish_scoped _ c (some sk) (by rintro s ⟨⟩; exact hsk) ops (by omega) e rs h1 base out h2, hnew]

/-- **C62, documents up to 1 GiB.** All calls documented to succeed, scalars and keys this version can write, no key twice in a
dict. -/
theorem C62_large_partial (c : Cfg) (F : FloatOps) (ops : List Op) (hsize : Op.total ops ≤ SizedValue.maxWide)
    (hsound : ∀ op ∈ ops, op.Sound false) (hall : AllOk F {} ops)
    (hdang : ∀ kvs k rest, (Build.run F {} ops).1.stack ≠ .dict kvs (some k) :: rest) (t : Tree)
    (ht : (Build.run F {} ops).1.finish = some t) (hroomy : t.Roomy false) (hd : t.Distinct) :
    ∃ e rs out t', Enc.new.run c ops = .ok (e, rs) ∧ e.finish c = .ok out ∧ Tree.Same t t' ∧
      Document ⟨F, none, False, fun _ => True⟩ out t' := by
  obtain ⟨e, rs, out, h1, _, _, _⟩ := C20_large_partial c F none (by simp) ops hsize hsound hall hdang t ht hroomy
  obtain ⟨g1, g2⟩ := roomy_ok c F none (by simp) ops hsize hsound hall hdang t ht hroomy e rs h1
  obtain ⟨out', t', h4, h5, h6⟩ := C62_exact_partial c F ops hsize e rs h1 g1 g2 t ht hd
  exact ⟨e, rs, out', t', h1, h4, h5, h6⟩

/-- **C62, with shared keys, documents up to 1 GiB.** -/
theorem C62_large_shared_partial (c : Cfg) (F : FloatOps) (sk : SharedKeys) (hsk : sk.WF) (ops : List Op)
    (hsize : Op.total ops ≤ SizedValue.maxWide) (hsound : ∀ op ∈ ops, op.Sound true) (hall : AllOk F {} ops)
    (hdang : ∀ kvs k rest, (Build.run F {} ops).1.stack ≠ .dict kvs (some k) :: rest) (t : Tree)
    (ht : (Build.run F {} ops).1.finish = some t) (hroomy : t.Roomy true) (hd : t.Distinct) :
    ∃ e rs out last, ({ Enc.new with sk := some sk } : Enc).run c ops = .ok (e, rs) ∧ e.finish c = .ok out ∧ e.sk = some last ∧
      ∀ sk', last.Le sk' → ∃ t', Tree.Same t t' ∧ Document ⟨F, some sk', False, fun _ => True⟩ out t' := by
  have hsk0 : ∀ s, (some sk : Option SharedKeys) = some s → s.WF := by rintro s ⟨⟩; exact hsk
  obtain ⟨e, rs, out, h1, _, h3, _⟩ := C20_large_partial c F (some sk) hsk0 ops hsize hsound hall hdang t ht hroomy
  obtain ⟨g1, g2⟩ := roomy_ok c F (some sk) hsk0 ops hsize hsound hall hdang t ht hroomy e rs h1
  have hphi := newWith_phi (some sk)
  obtain ⟨_, _, _, hskle⟩ := Enc.run_inv ops (newWith_wf hsk0) (by omega) h1
  cases hl : e.sk with
  | none => rw [hl] at hskle; exact hskle.elim
  | some last =>
    refine ⟨e, rs, out, last, h1, h3, hl, fun sk' hle => ?_⟩
    obtain ⟨out', t', h4, h5, h6⟩ := C62_shared_partial c F sk hsk ops hsize e rs h1 g1 g2 last sk' hl hle t ht hd
    rw [h3] at h4; cases h4
    exact ⟨t', h5, h6⟩

/-- **C68 of the encoder, documents up to 1 GiB.** As `C68_written_partial`. -/
theorem C68_large_partial (P : Printer) (c : Cfg) (F : FloatOps) (sk : Option SharedKeys) (hsk : ∀ s, sk = some s → s.WF)
    (ops : List Op) (hsize : Op.total ops ≤ SizedValue.maxWide) (hsound : ∀ op ∈ ops, op.Sound sk.isSome)
    (hall : AllOk F {} ops) (hdang : ∀ kvs k rest, (Build.run F {} ops).1.stack ≠ .dict kvs (some k) :: rest) (t : Tree)
    (ht : (Build.run F {} ops).1.finish = some t) (hroomy : t.Roomy sk.isSome) :
    ∃ e rs out, ({ Enc.new with sk } : Enc).run c ops = .ok (e, rs) ∧ e.finish c = .ok out ∧
      ∀ scope, ScopeLe e.sk scope → Legible scope → ∀ m : Mem, m.data = out → m.base + out.length < 2 ^ 64 →
        ∃ v t', fromBytes m = .ok v ∧ Tree.Same t t' ∧
          ∀ d, out.length ≤ d → ∃ s, v.debug P m F scope d = .ok s ∧ Renders P t' s := by
  obtain ⟨e, rs, out, h1, _, h3, h4⟩ := C20_large_partial c F sk hsk ops hsize hsound hall hdang t ht hroomy
  refine ⟨e, rs, out, h1, h3, fun scope hs hl m hm hb => ?_⟩
  obtain ⟨v, t', g1, g2, g3⟩ := h4 scope hs m hm hb
  exact ⟨v, t', g1, g2, fun d hd => C68_shows P m F scope hl d v t' (g3 d hd)⟩

/-! ## A large document -/

/-- `["ab", …]`. -/
def stringsOps (n : Nat) : List Op := .beginArray 0 :: (List.replicate n (.value (.str sab)) ++ [.endArray])

/-- Ten thousand up to forty million strings meet the conditions. -/
theorem strings_meet (F : FloatOps) (U : CharTable) (sh : Bool) (n : Nat) (h1 : 10000 ≤ n) (h2 : n ≤ 40000000) :
    Op.total (stringsOps n) ≤ SizedValue.maxWide ∧ (∀ op ∈ stringsOps n, op.GoodKey U) ∧ (∀ op ∈ stringsOps n, op.Sound sh) ∧
    AllOk F {} (stringsOps n) ∧ (∀ kvs k rest, (Build.run F {} (stringsOps n)).1.stack ≠ .dict kvs (some k) :: rest) ∧
    (Build.run F {} (stringsOps n)).1.finish = some (.arr (List.replicate n (.str [0x61, 0x62]))) ∧
    (Tree.arr (List.replicate n (.str [0x61, 0x62]))).Roomy sh ∧ (Tree.arr (List.replicate n (.str [0x61, 0x62]))).Distinct := by
  have hrun : Build.run F {} (stringsOps n) =
      ({ stack := [], root := some (.arr (List.replicate n (.str [0x61, 0x62]))) }, List.replicate (n + 2) (.ok ())) := by
    unfold stringsOps Build.run
    simp only [Build.next, Build.step, Build.open, Option.isSome_none, Bool.false_eq_true, if_false]
    rw [run_values]
    exact Prod.ext rfl (List.replicate_succ).symm
  have htot : Op.total (stringsOps n) = 48 + n * 26 := by
    simp only [stringsOps, Op.total, List.map_cons, List.map_append, List.map_replicate, List.sum_cons, List.sum_append,
      List.sum_replicate_nat, List.map_nil, List.sum_nil]
    have : (Op.value (.str sab)).weight = 26 := rfl
    rw [this]
    show 24 + (n * 26 + 24) = _
    omega
  have hmw : SizedValue.maxWide = 0x3fffffff := rfl
  refine ⟨by omega, ?_, ?_, ?_, ?_, by rw [hrun]; rfl, ?_, ?_⟩
  · intro op hop
    simp only [stringsOps, List.mem_cons, List.mem_append, List.not_mem_nil, or_false] at hop
    rcases hop with rfl | hop | rfl
    · trivial
    · rw [List.eq_of_mem_replicate hop]; trivial
    · trivial
  · intro op hop
    simp only [stringsOps, List.mem_cons, List.mem_append, List.not_mem_nil, or_false] at hop
    rcases hop with rfl | hop | rfl
    · simp [Op.Sound]
    · rw [List.eq_of_mem_replicate hop]; simp [Op.Sound, Scalar.Survives, sab]
    · trivial
  · intro r hr; rw [hrun] at hr; exact List.eq_of_mem_replicate hr
  · intro kvs k rest; rw [hrun]; simp
  · refine .arr (.inl ⟨0, .str [0x61, 0x62], by rw [List.getElem?_replicate, if_pos (by omega)], by simp [Tree.Apart], ?_⟩) ?_
    · rw [List.drop_replicate, lows_replicate]
      show 0x3fff < 2 + (n - 1) * 2
      omega
    · intro x hx; rw [List.eq_of_mem_replicate hx]; exact .leaf (by simp) (by simp)
  · refine .arr fun x hx => ?_
    rw [List.eq_of_mem_replicate hx]; exact .leaf (by simp) (by simp)

example (c : Cfg) (F : FloatOps) : ∃ e rs out t', Enc.new.run c (stringsOps 1000000) = .ok (e, rs) ∧ e.finish c = .ok out ∧
    Tree.Same (.arr (List.replicate 1000000 (.str [0x61, 0x62]))) t' ∧ Document ⟨F, none, False, fun _ => True⟩ out t' := by
  obtain ⟨h1, _, h3, h4, h5, h6, h7, h8⟩ := strings_meet F c.chars false 1000000 (by omega) (by omega)
  exact C62_large_partial c F _ h1 h3 h4 h5 _ h6 h7 h8

end Fleece.Props
