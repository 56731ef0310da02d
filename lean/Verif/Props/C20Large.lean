import Verif.Props.C20
import Verif.Proofs.LargeDoc

/-!
# C20, documents up to 1 GiB

`C20_exact_partial` asks that every collection fits the width the encoder chose for it, a condition on the run. Here the
condition is on the document alone: `Tree.Roomy` (Spec/Layout.lean), by which every collection is clearly small or clearly
large. Strings, data and keys of one byte are allowed in the large ones.
-/

namespace Fleece.Props
open Fleece Res

theorem close_stack_length (rest : List Frame) (t : Tree) : (Build.close rest t).stack.length = rest.length := by
  match rest with
  | [] => rfl
  | .arr _ :: _ => rfl
  | .dict _ (some _) :: _ => rfl
  | .dict _ none :: _ => rfl

theorem closeN_stack (n : Nat) : ∀ b : Build, (b.closeN n).stack.length = b.stack.length - n := by
  induction n with
  | zero => intro b; rfl
  | succ n ih =>
    intro b
    unfold Build.closeN
    rw [ih]
    have : b.closeTop.stack.length = b.stack.length - 1 := by
      unfold Build.closeTop
      split
      · next h => rw [h]; rfl
      · next h => rw [close_stack_length, h]; rfl
      · next h => rw [close_stack_length, h]; rfl
    omega

theorem ordered_new : ({} : Build).Ordered := ⟨fun h => (by cases h), fun f fs h => by cases h⟩

/-- A roomy document satisfies the conditions of `C20_exact_partial`, wherever the encoder starts. -/
theorem roomy_ok_from (c : Cfg) (F : FloatOps) (e0 : Enc) (hw0 : e0.WF) (hshape : Shape e0 {}) (hstack : e0.stack = [])
    (ops : List Op) (hsize : e0.phi + Op.total ops ≤ SizedValue.maxWide) (hsound : ∀ op ∈ ops, op.Sound e0.sk.isSome)
    (hall : AllOk F {} ops) (hdang : (Build.run F {} ops).1.NoDangling) (t : Tree)
    (ht : (Build.run F {} ops).1.finish = some t) (hroom : t.Roomy e0.sk.isSome) (e : Enc)
    (rs : List (Except EncodeError Unit)) (h : e0.run c ops = .ok (e, rs)) :
    RunOK c e0 ops ∧ FinishOK c e.stack.length e := by
  obtain ⟨hw, hp, _⟩ := Enc.run_inv ops hw0 (by omega) h
  have ho : (Build.run F {} ops).1.Ordered := (Build.run_back e0.sk.isSome ops ordered_new).1
  have hfin : ((Build.run F {} ops).1.closeN (Build.run F {} ops).1.stack.length).Roomy e0.sk.isSome := by
    constructor
    · intro f hf
      have := closeN_stack (Build.run F {} ops).1.stack.length (Build.run F {} ops).1
      rw [Nat.sub_self] at this
      rw [List.length_eq_zero_iff.mp this] at hf; cases hf
    · intro t' ht'
      unfold Build.finish at ht
      rw [Build.finishGo_eq, ht'] at ht; cases ht
      exact hroom
  have hr := Build.closeN_back e0.sk.isSome _ ho hdang hfin
  obtain ⟨h1, h2, h3, h4⟩ := roomy_run (F := F) ops hw0 hsize hshape ordered_new (by rw [hstack]; exact True.intro) hsound hall hr h
  refine ⟨h1, roomy_finish _ hw (by omega) h3 ho hdang (by rw [h2]; exact h4) ?_⟩
  rw [h3.length, h2]; exact hfin

theorem roomy_ok (c : Cfg) (F : FloatOps) (sk : Option SharedKeys) (hsk : ∀ s, sk = some s → s.WF)
    (ops : List Op) (hsize : Op.total ops ≤ SizedValue.maxWide) (hsound : ∀ op ∈ ops, op.Sound sk.isSome)
    (hall : AllOk F {} ops) (hdang : (Build.run F {} ops).1.NoDangling) (t : Tree)
    (ht : (Build.run F {} ops).1.finish = some t) (hroom : t.Roomy sk.isSome) (e : Enc)
    (rs : List (Except EncodeError Unit)) (h : ({ Enc.new with sk } : Enc).run c ops = .ok (e, rs)) :
    RunOK c { Enc.new with sk } ops ∧ FinishOK c e.stack.length e :=
  have hphi := newWith_phi sk
  roomy_ok_from c F { Enc.new with sk } (newWith_wf hsk) ⟨rfl, rfl⟩ rfl ops (by omega) hsound hall hdang t ht hroom e rs h

/-- Sound calls are accepted. -/
theorem sound_accepted {sh : Bool} {op : Op} (h : op.Sound sh) : op.Accepted := by
  cases op with
  | beginArray n => exact h
  | beginDict => trivial
  | key k => simp only [Op.Accepted]; try exact h.1
  | value x => exact h
  | endArray => trivial
  | endDict => trivial

/-- **C20, documents up to 1 GiB.** Every sequence of calls, all documented to succeed, with scalars and keys this version
can write, that build a roomy document of at most 1 GiB: the encoder accepts all calls, `finish` returns, and its bytes
decode to the document, under the encoder's own shared keys (if any). Collections left open are closed by `finish`; no key
may be left without a value. Missing from the full claim: documents that are not roomy, some of which do not survive
(`C20_refuted_string`, `C20_refuted_key`, `C21_refuted`). -/
theorem C20_large_partial (c : Cfg) (F : FloatOps) (sk : Option SharedKeys) (hsk : ∀ s, sk = some s → s.WF)
    (ops : List Op) (hsize : Op.total ops ≤ SizedValue.maxWide) (hsound : ∀ op ∈ ops, op.Sound sk.isSome)
    (hall : AllOk F {} ops) (hdang : ∀ kvs k rest, (Build.run F {} ops).1.stack ≠ .dict kvs (some k) :: rest) (t : Tree)
    (ht : (Build.run F {} ops).1.finish = some t) (hroom : t.Roomy sk.isSome) :
    ∃ e rs out, ({ Enc.new with sk } : Enc).run c ops = .ok (e, rs) ∧ (∀ r ∈ rs, r = .ok ()) ∧
      e.finish c = .ok out ∧ ∀ scope, ScopeLe e.sk scope → Decodes F scope out t := by
  have hphi := newWith_phi sk
  obtain ⟨e, rs, h⟩ := Enc.run_ok (c := c) ops (newWith_wf hsk) (by omega) (fun op hop => sound_accepted (hsound op hop))
  obtain ⟨h1, h2⟩ := roomy_ok c F sk hsk ops hsize hsound hall hdang t ht hroom e rs h
  obtain ⟨out, hout, _⟩ := C20_exact_partial c F sk e.sk hsk ops hsize e rs h h1 h2 (.refl _) t ht
  refine ⟨e, rs, out, h, ?_, hout, fun scope hsc => ?_⟩
  · have hor := hall.orderly ops (by simp)
    have hnd : ∀ (ops : List Op) (b : Build), Orderly F b ops → NoDiscard F b ops := by
      intro ops
      induction ops with
      | nil => intros; trivial
      | cons op ops ih => intro b hb; exact ⟨hb.1, ih _ hb.2.2⟩
    rw [C18_results_documented_partial c F sk hsk ops hsize (hnd _ _ hor) e rs h]
    exact hall
  · obtain ⟨out', h1', h2'⟩ := C20_exact_partial c F sk scope hsk ops hsize e rs h h1 h2 hsc t ht
    rw [hout] at h1'; cases h1'
    exact h2'

/-! ## A large document -/

theorem run_values (F : FloatOps) (x : Scalar) (rest : List Frame) (n : Nat) : ∀ xs : List Tree,
    Build.run F { stack := .arr xs :: rest } (List.replicate n (.value x) ++ [.endArray]) =
      (Build.close rest (.arr (xs ++ List.replicate n (x.tree F))), List.replicate (n + 1) (.ok ())) := by
  induction n with
  | zero => intro xs; simp [Build.run, Build.next, Build.step]
  | succ n ih =>
    intro xs
    rw [List.replicate_succ, List.cons_append]
    unfold Build.run
    simp only [Build.next, Build.step, Build.put]
    rw [ih]
    simp [List.replicate_succ]

theorem lows_replicate (sh : Bool) (x : Tree) (n : Nat) : Tree.lows sh (List.replicate n x) = n * x.low sh := by
  induction n with
  | zero => simp [Tree.lows]
  | succ n ih => rw [List.replicate_succ]; simp only [Tree.lows, ih, Nat.succ_mul]; omega

/-- Arrays of ten thousand up to forty million strings `"ab"`. -/
theorem C20_large_array (c : Cfg) (F : FloatOps) (n : Nat) (h1 : 10000 ≤ n) (h2 : n ≤ 40000000) : ∃ e rs out,
    Enc.new.run c (.beginArray 0 :: (List.replicate n (.value (.str sab)) ++ [.endArray])) = .ok (e, rs) ∧
    e.finish c = .ok out ∧ Decodes F none out (.arr (List.replicate n (.str [0x61, 0x62]))) := by
  have hrun : Build.run F {} (.beginArray 0 :: (List.replicate n (.value (.str sab)) ++ [.endArray])) =
      ({ stack := [], root := some (.arr (List.replicate n (.str [0x61, 0x62]))) },
        List.replicate (n + 2) (.ok ())) := by
    unfold Build.run
    simp only [Build.next, Build.step, Build.open, Option.isSome_none, Bool.false_eq_true, if_false]
    rw [run_values]
    exact Prod.ext rfl (List.replicate_succ).symm
  have htot : Op.total (.beginArray 0 :: (List.replicate n (.value (.str sab)) ++ [.endArray])) = 48 + n * 26 := by
    simp only [Op.total, List.map_cons, List.map_append, List.map_replicate, List.sum_cons, List.sum_append,
      List.sum_replicate_nat, List.map_nil, List.sum_nil]
    have : (Op.value (.str sab)).weight = 26 := rfl
    rw [this]
    show 24 + (n * 26 + 24) = _
    omega
  have hmw : SizedValue.maxWide = 0x3fffffff := rfl
  obtain ⟨e, rs, out, g1, _, g3, g4⟩ := C20_large_partial c F none (by simp)
    (.beginArray 0 :: (List.replicate n (.value (.str sab)) ++ [.endArray])) (by omega)
    (by
      intro op hop
      simp only [List.mem_cons, List.mem_append, List.not_mem_nil, or_false] at hop
      rcases hop with rfl | hop | rfl
      · simp [Op.Sound]
      · rw [List.eq_of_mem_replicate hop]; simp [Op.Sound, Scalar.Survives, sab]
      · trivial)
    (by intro r hr; rw [hrun] at hr; exact List.eq_of_mem_replicate hr)
    (by intro kvs k rest; rw [hrun]; simp)
    (.arr (List.replicate n (.str [0x61, 0x62])))
    (by rw [hrun]; rfl)
    (by
      refine .arr (.inl ⟨0, .str [0x61, 0x62], by rw [List.getElem?_replicate, if_pos (by omega)], by simp [Tree.Apart], ?_⟩) ?_
      · rw [List.drop_replicate, lows_replicate]
        show 0x3fff < 2 + (n - 1) * 2
        omega
      · intro x hx; rw [List.eq_of_mem_replicate hx]; exact .leaf (by simp) (by simp))
  refine ⟨e, rs, out, g1, g3, g4 none fun s hs => ?_⟩
  have hle := (Enc.run_inv _ (newWith_wf (sk := none) (by simp)) (by rw [newWith_phi]; omega) g1).2.2.2
  have := hle.isSome
  rw [hs] at this; cases this

end Fleece.Props
