import Verif.Props.C20

/-!
# C19 A rejected call changes nothing that will be encoded

False for two calls (`C19_refuted_end_array`, `C19_refuted_write_key`). For all others: the state keeps its open
collections and their contents (`C19_state_partial`), and the document finally produced is the same (`C19_document_partial`);
for calls that open or close collections even the bytes are (`C19_bytes_partial`, Props/C19Bytes.lean).
-/

namespace Fleece.Props
open Fleece Res

/-- **C19, the state.** In every reachable state, a rejected call other than `end_array` on a dict that expects a key
leaves the open collections, with everything collected in them, and the closed flag as they were. What was written
stays; bytes of the rejected key or value may have been added behind it, and the shared keys may have gained entries. -/
theorem C19_state_partial (c : Cfg) (n : Nat) (e e' : Enc) (op : Op) (x : EncodeError) (hr : Reached c n e)
    (hn : n + op.weight ≤ SizedValue.maxWide) (hd : ¬ Discards e op) (h : e.step c op = .ok (e', .error x)) :
    e'.stack = e.stack ∧ e'.closed = e.closed ∧ e.out <+: e'.out ∧ ScopeLe e.sk e'.sk := by
  have hmw : SizedValue.maxWide < 2 ^ 32 := by decide
  obtain ⟨hw, hp⟩ := hr.inv (by omega)
  generalize hr' : (Except.error x : Except EncodeError Unit) = r at h
  have ht := Enc.step_trans hw (by omega) (by omega) h
  cases ht with
  | reject hx heven hl hsk hwf _ => exact ⟨rfl, rfl, List.prefix_append _ _, hsk.scope⟩
  | discard hs => exact absurd ⟨rfl, by simp only [Enc.waitingForKey, hs]⟩ hd
  | openArr => cases hr'
  | openDict => cases hr'
  | key => cases hr'
  | value => cases hr'
  | endArr => cases hr'
  | endDict => cases hr'

theorem build_run_append (F : FloatOps) (ops1 : List Op) : ∀ (b : Build) (ops2 : List Op),
    (b.run F (ops1 ++ ops2)).1 = ((b.run F ops1).1.run F ops2).1 := by
  induction ops1 with
  | nil => intros; rfl
  | cons op ops1 ih => intro b ops2; simp only [List.cons_append, Build.run]; exact ih _ _

theorem orderly_append {F : FloatOps} (ops1 : List Op) : ∀ {b : Build} {ops2 : List Op}, Orderly F b (ops1 ++ ops2) →
    Orderly F b ops1 ∧ Orderly F (b.run F ops1).1 ops2 := by
  induction ops1 with
  | nil => intro b ops2 h; exact ⟨trivial, h⟩
  | cons op ops1 ih =>
    intro b ops2 h
    obtain ⟨h1, h2⟩ := ih h.2.2
    exact ⟨⟨h.1, h.2.1, h1⟩, h2⟩

theorem orderly_concat {F : FloatOps} (ops1 : List Op) : ∀ {b : Build} {ops2 : List Op}, Orderly F b ops1 →
    Orderly F (b.run F ops1).1 ops2 → Orderly F b (ops1 ++ ops2) := by
  induction ops1 with
  | nil => intro b ops2 _ h; exact h
  | cons op ops1 ih => intro b ops2 h1 h2; exact ⟨h1.1, h1.2.1, ih h1.2.2 h2⟩

/-- **C19, the document.** Take a sequence of calls (of the kind C20 covers) with a rejected call `op` somewhere in it.
Both with and without `op`, `finish` returns bytes that decode to the same document. Missing: the two calls refuted
below, and what C20 excludes. -/
theorem C19_document_partial (c : Cfg) (F : FloatOps) (sk : Option SharedKeys) (hsk : ∀ s, sk = some s → s.WF)
    (ops1 ops2 : List Op) (op : Op) (x : EncodeError) (hrej : ((Build.run F {} ops1).1.next F op).2 = .error x)
    (hsize : Op.total (ops1 ++ op :: ops2) ≤ SizedValue.maxNarrow) (hplain : ∀ o ∈ ops1 ++ op :: ops2, o.Plain sk.isSome)
    (hor : Orderly F {} (ops1 ++ op :: ops2)) (e e' : Enc) (rs rs' : List (Except EncodeError Unit))
    (h : ({ Enc.new with sk } : Enc).run c (ops1 ++ op :: ops2) = .ok (e, rs))
    (h' : ({ Enc.new with sk } : Enc).run c (ops1 ++ ops2) = .ok (e', rs')) (t : Tree)
    (ht : (Build.run F {} (ops1 ++ ops2)).1.finish = some t) :
    ∃ out out', e.finish c = .ok out ∧ e'.finish c = .ok out' ∧ Decodes F e.sk out t ∧ Decodes F e'.sk out' t := by
  have hskip : ((Build.run F {} ops1).1.next F op).1 = (Build.run F {} ops1).1 := by
    unfold Build.next at hrej ⊢
    cases hst : (Build.run F {} ops1).1.step F op with
    | ok b => rw [hst] at hrej; cases hrej
    | error x => rfl
  have hsame : (Build.run F {} (ops1 ++ op :: ops2)).1 = (Build.run F {} (ops1 ++ ops2)).1 := by
    rw [build_run_append, build_run_append]
    simp only [Build.run, hskip]
  have hor' : Orderly F {} (ops1 ++ ops2) := by
    obtain ⟨h1, h2⟩ := orderly_append ops1 hor
    have h3 := h2.2.2
    rw [hskip] at h3
    exact orderly_concat ops1 h1 h3
  have hsize' : Op.total (ops1 ++ ops2) ≤ SizedValue.maxNarrow := by
    refine Nat.le_trans ?_ hsize
    simp only [Op.total, List.map_append, List.sum_append, List.map_cons, List.sum_cons]
    omega
  have hplain' : ∀ o ∈ ops1 ++ ops2, o.Plain sk.isSome := by
    intro o ho
    refine hplain o ?_
    rcases List.mem_append.mp ho with ho | ho
    · exact List.mem_append_left _ ho
    · exact List.mem_append_right _ (List.mem_cons_of_mem _ ho)
  obtain ⟨out, h1, h2⟩ := C20_orderly_partial c F sk e.sk hsk _ hsize hplain hor e rs h (.refl _) t (by rw [hsame]; exact ht)
  obtain ⟨out', h1', h2'⟩ := C20_orderly_partial c F sk e'.sk hsk _ hsize' hplain' hor' e' rs' h' (.refl _) t ht
  exact ⟨out, out', h1, h1', h2, h2'⟩

/-- A rejected `write_key` inside an array, leaving its bytes in the output: `[true]` all the same. -/
example : (do
    let (e, rs) ← Enc.new.run exampleCfg [.beginArray 0, .key sab, .value (.bool true), .endArray]
    let out ← e.finish exampleCfg
    pure (rs, out) : Exec _) =
    .ok ([.ok (), .error .dictNotOpen, .ok (), .ok ()], [0x42, 0x61, 0x62, 0x00, 0x60, 0x01, 0x38, 0x00, 0x80, 0x02]) := by
  decide +kernel

/-- The hypotheses of `C19_document_partial` are met by it. -/
example (F : FloatOps) : ((Build.run F {} [.beginArray 0]).1.next F (.key sab)).2 = .error .dictNotOpen ∧
    Orderly F {} [.beginArray 0, .key sab, .value (.bool true), .endArray] :=
  ⟨rfl, by
    refine ⟨by simp, by simp, ?_⟩
    refine ⟨by simp, by simp [Build.next, Build.step, Build.open], ?_⟩
    refine ⟨by simp, by simp, ?_⟩
    refine ⟨?_, by simp, trivial⟩
    intro _ kvs rest hs
    simp [Build.next, Build.step, Build.open, Build.put] at hs⟩

/-- **C19 is false of the code: `end_array`.** `begin_array, begin_dict, end_array`: the last call is rejected. Without
it the document is `[{}]`; with it, `[]`. -/
theorem C19_refuted_end_array : ∃ (c : Cfg) (ops : List Op) (e e' : Enc) (rs : List (Except EncodeError Unit)),
    Enc.new.run c ops = .ok (e, rs) ∧ e.step c .endArray = .ok (e', .error .arrayNotOpen) ∧
    e.finish c = .ok [0x70, 0x00, 0x60, 0x01, 0x80, 0x02, 0x80, 0x02] ∧ e'.finish c = .ok [0x60, 0x00, 0x80, 0x01] :=
  ⟨exampleCfg, [.beginArray 0, .beginDict], _, _, _, rfl, rfl, by decide +kernel, by decide +kernel⟩

/-- **C19 is false of the code: `write_key`.** After `[true]` is complete, a rejected `write_key("ab")` writes the key
behind the root; the result is no longer accepted. -/
theorem C19_refuted_write_key : ∃ (c : Cfg) (ops : List Op) (k : RStr) (e e' : Enc) (rs : List (Except EncodeError Unit))
    (out out' : List UInt8) (x : DecodeError),
    Enc.new.run c ops = .ok (e, rs) ∧ e.step c (.key k) = .ok (e', .error .dictNotOpen) ∧
    e.finish c = .ok out ∧ e'.finish c = .ok out' ∧ fromBytes ⟨out, 0, true⟩ = .ok ⟨0, 4⟩ ∧
    fromBytes ⟨out', 0, true⟩ = .err x :=
  ⟨exampleCfg, [.beginArray 0, .value (.bool true), .endArray], sab, _, _, _, [0x60, 0x01, 0x38, 0x00, 0x80, 0x02],
    [0x60, 0x01, 0x38, 0x00, 0x80, 0x02, 0x42, 0x61, 0x62, 0x00], .rootNotPointer, rfl, rfl, by decide +kernel, by decide +kernel,
    by decide +kernel, by decide +kernel⟩

end Fleece.Props
