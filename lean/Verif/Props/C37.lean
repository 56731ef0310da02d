import Verif.Proofs.WriteOps
import Verif.Props.C20
import Verif.Props.C34

/-!
# C37 Copying a value into an encoder preserves it

Full claim: every valid value. It is false, for the same values as in C20 (strings, data and keys below two bytes) and for
values of type `Int` outside -2048..2047 (`C37_refuted`). `Copies` and `Tree.Plain` exclude these.
-/

namespace Fleece.Props
open Fleece Res

/-- **C37, exactly.** Writing a readable value that can be copied (`Copies`; keys must be UTF-8) is, in every state of every
encoder, the same as a certain sequence of calls, given up at the first that fails. These calls are documented to build
the value wherever it is accepted, and weigh as much as the value. (With C20 this gives the bytes; `C37_small_partial` is
the result for small documents.) -/
theorem C37_calls_partial (m : Mem) (F : FloatOps) (scope : Option SharedKeys) (hm : m.data.length < 2 ^ 63) (depth : Nat)
    (v : Val) (t : Tree) (hread : readTree m F scope depth v = .ok t)
    (hc : Copies m F scope (fun k => validUtf8 k = true) depth v) :
    ∃ ops, Op.total ops = t.weight ∧
      (∀ b b' : Build, b.accept t = .ok b' → b.run F ops = (b', List.replicate ops.length (.ok ()))) ∧
      ∀ c e, Enc.writeFleece c m F scope depth v e = (Enc.runStop c e ops).lift := by
  obtain ⟨ops, h1, h2⟩ := writeFleece_spells hm hc hread
  exact ⟨ops, h1.total, fun _ _ h => h1.build h, h2⟩

/-! ## Small documents -/

/-- A call that amounts to encoder calls with `P`. -/
def _root_.Fleece.Call.Becomes (F : FloatOps) (tree : Source → Tree) (P : Op → Prop) : Call → Prop
  | .op o => P o
  | .fleece b => b.Good F (fun k => validUtf8 k = true) (tree b) ∧
      ∀ ops, Spells F (tree b) ops → (tree b).weight < 2 ^ 60 → ∀ op ∈ ops, P op

theorem calls_expand_as (c : Cfg) (F : FloatOps) (tree : Source → Tree) (P : Op → Prop) (calls : List Call)
    (hp : ∀ x ∈ calls, x.Becomes F tree P) (hw : Call.total tree calls < 2 ^ 60) :
    ∃ ops, Op.total ops = Call.total tree calls ∧ (∀ op ∈ ops, P op) ∧
      (∀ b, (∀ r ∈ (Build.calls F tree b calls).2, r = .ok ()) →
        b.run F ops = ((Build.calls F tree b calls).1, List.replicate ops.length (.ok ()))) ∧
      ∀ (e e' : Enc) (rs : List (Except EncodeError Unit)), e.run c ops = .ok (e', rs) → (∀ r ∈ rs, r = .ok ()) →
        ∃ rs', e.calls c F calls = .ok (e', rs') ∧ rs'.length = calls.length ∧ ∀ r ∈ rs', r = .ok () := by
  induction calls with
  | nil => exact ⟨[], rfl, by simp, fun b _ => rfl, fun e e' rs h _ => by cases h; exact ⟨[], rfl, rfl, by simp⟩⟩
  | cons x calls ih =>
    have hw' : x.weight tree + Call.total tree calls < 2 ^ 60 := by simpa [Call.total] using hw
    obtain ⟨ops, h1, h2, h3, h4⟩ := ih (fun y hy => hp y (by simp [hy])) (by omega)
    have hx := hp x (by simp)
    -- the calls for the first one
    obtain ⟨pre, p1, p2, p3, p4⟩ : ∃ pre, Op.total pre = x.weight tree ∧
        (∀ op ∈ pre, P op) ∧
        (∀ b b1 : Build, b.call F tree x = (b1, .ok ()) → b.run F pre = (b1, List.replicate pre.length (.ok ()))) ∧
        ∀ (e e1 : Enc) (rs : List (Except EncodeError Unit)), e.run c pre = .ok (e1, rs) → (∀ r ∈ rs, r = .ok ()) →
          e.call c F x = .ok (e1, .ok ()) := by
      cases x with
      | op o =>
        refine ⟨[o], by simp [Op.total, Call.weight], ?_, ?_, ?_⟩
        · intro op hop; simp only [List.mem_singleton] at hop; subst hop; exact hx
        · intro b b1 hb
          simp only [Build.call] at hb
          simp [Build.run, hb]
        · intro e e1 rs hr hall
          obtain ⟨e2, r, rs', g1, g2, rfl⟩ := Enc.run_cons hr
          cases g2
          have := hall r (by simp)
          subst this
          simp only [Enc.call, g1]; rfl
      | fleece s =>
        obtain ⟨hg, hpl⟩ := hx
        obtain ⟨pre, s1, s2⟩ := writeFleece_spells hg.size hg.copies hg.reads
        refine ⟨pre, s1.total, hpl _ s1 (by simp only [Call.weight] at hw'; omega), ?_, ?_⟩
        · intro b b1 hb
          simp only [Build.call] at hb
          cases ha : b.accept (tree s) with
          | error y => rw [ha] at hb; cases hb
          | ok b2 => rw [ha] at hb; cases hb; exact s1.build ha
        · intro e e1 rs hr hall
          simp only [Enc.call]
          rw [s2, Enc.runStop_run c pre hr hall]; rfl
    refine ⟨pre ++ ops, ?_, ?_, ?_, ?_⟩
    · rw [total_append, p1, h1]; simp [Call.total]
    · intro op hop
      rcases List.mem_append.mp hop with h | h
      · exact p2 op h
      · exact h2 op h
    · intro b hb
      simp only [Build.calls] at hb ⊢
      generalize hst : b.call F tree x = st at hb ⊢
      obtain ⟨b1, r1⟩ := st
      simp only [List.mem_cons, forall_eq_or_imp] at hb
      obtain ⟨rfl, hb⟩ := hb
      rw [Build.run_append, p3 b b1 hst, h3 b1 hb]
      simp [List.replicate_append_replicate]
    · intro e e' rs hr hall
      obtain ⟨e1, rs1, rs2, g1, g2, rfl⟩ := Enc.run_append_ok pre hr
      obtain ⟨rs', k1, k2, k3⟩ := h4 e1 e' rs2 g2 (fun r h => hall r (by simp [h]))
      refine ⟨.ok () :: rs', ?_, by simp [k2], by simpa using k3⟩
      simp only [Enc.calls]
      have := p4 e e1 rs1 g1 (fun r h => hall r (by simp [h]))
      rw [this]
      simp only [ok_bind, k1, pure_eq]

theorem calls_expand (c : Cfg) (F : FloatOps) (tree : Source → Tree) (shared : Bool) (calls : List Call)
    (hp : ∀ x ∈ calls, x.Plain F tree shared) (hw : Call.total tree calls < 2 ^ 60) :
    ∃ ops, Op.total ops = Call.total tree calls ∧ (∀ op ∈ ops, op.Plain shared ∧ ∀ n, op = .beginArray n → n * 4 < 2 ^ 63) ∧
      (∀ b, (∀ r ∈ (Build.calls F tree b calls).2, r = .ok ()) →
        b.run F ops = ((Build.calls F tree b calls).1, List.replicate ops.length (.ok ()))) ∧
      ∀ (e e' : Enc) (rs : List (Except EncodeError Unit)), e.run c ops = .ok (e', rs) → (∀ r ∈ rs, r = .ok ()) →
        ∃ rs', e.calls c F calls = .ok (e', rs') ∧ rs'.length = calls.length ∧ ∀ r ∈ rs', r = .ok () :=
  calls_expand_as c F tree (fun op => op.Plain shared ∧ ∀ n, op = .beginArray n → n * 4 < 2 ^ 63) calls (by
    intro x hx
    have := hp x hx
    cases x with
    | op o => exact this
    | fleece b => exact ⟨this.1, fun ops h hw => h.plain this.2 hw⟩) hw

/-- **C37, small documents.** Every sequence of encoder calls, with `write_fleece` among them, all documented to succeed,
with values and keys this version can copy and write, and weighing at most 16383 bytes: the encoder accepts all of them,
`finish` returns, and its bytes decode to the document which has the copied values in their places. -/
theorem C37_small_partial (c : Cfg) (F : FloatOps) (sk : Option SharedKeys) (hsk : ∀ s, sk = some s → s.WF)
    (tree : Source → Tree) (calls : List Call) (hsize : Call.total tree calls ≤ SizedValue.maxNarrow)
    (hplain : ∀ x ∈ calls, x.Plain F tree sk.isSome) (hall : ∀ r ∈ (Build.calls F tree {} calls).2, r = .ok ()) (t : Tree)
    (ht : (Build.calls F tree {} calls).1.finish = some t) :
    ∃ e rs out, ({ Enc.new with sk } : Enc).calls c F calls = .ok (e, rs) ∧ rs.length = calls.length ∧
      (∀ r ∈ rs, r = .ok ()) ∧ e.finish c = .ok out ∧ ∀ scope, ScopeLe e.sk scope → Decodes F scope out t := by
  have hmn : SizedValue.maxNarrow = 0x3fff := rfl
  obtain ⟨ops, h1, h2, h3, h4⟩ := calls_expand c F tree sk.isSome calls hplain (by omega)
  have hrun := h3 {} hall
  obtain ⟨e, rs, out, g1, g2, g3, g4⟩ := C20_small_partial c F sk hsk ops (by omega) (fun op hop => (h2 op hop).1)
    (fun n hn => (h2 _ hn).2 n rfl) (by intro r hr; rw [hrun] at hr; exact (List.mem_replicate.mp hr).2) t (by rw [hrun]; exact ht)
  obtain ⟨rs', k1, k2, k3⟩ := h4 _ _ _ g1 g2
  exact ⟨e, rs', out, k1, k2, k3, g3, g4⟩

/-! ## Results -/

/-- No `end_array` is called while the innermost open collection is a dict that has no pending key (C18). -/
def CallsNoDiscard (F : FloatOps) (tree : Source → Tree) : Build → List Call → Prop
  | _, [] => True
  | b, x :: xs => (x = .op .endArray → ∀ kvs rest, b.stack ≠ .dict kvs none :: rest) ∧
      CallsNoDiscard F tree (b.call F tree x).1 xs

/-- A call with values the code can write. -/
def Call.Accepted (F : FloatOps) (tree : Source → Tree) : Call → Prop
  | .op o => o.Accepted
  | .fleece b => b.Good F (fun k => validUtf8 k = true) (tree b)

theorem noDiscard_of_ok (F : FloatOps) (ops : List Op) : ∀ {b : Build}, (∀ r ∈ (b.run F ops).2, r = .ok ()) →
    NoDiscard F b ops := by
  induction ops with
  | nil => intro b _; trivial
  | cons op ops ih =>
    intro b h
    have h1 : (b.next F op).2 = .ok () := h _ (by simp [Build.run])
    refine ⟨?_, ih fun r hr => h r (by simp only [Build.run]; exact List.mem_cons_of_mem _ hr)⟩
    rintro rfl kvs rest hs
    simp only [Build.next, Build.step, hs] at h1
    cases h1

theorem call_ok (c : Cfg) (F : FloatOps) (tree : Source → Tree) (x : Call) (e : Enc) (b : Build) (hw : e.WF)
    (hp : e.phi + x.weight tree ≤ SizedValue.maxWide) (hb : Shape e b) (hx : Call.Accepted F tree x)
    (hd : x = .op .endArray → ∀ kvs rest, b.stack ≠ .dict kvs none :: rest) :
    ∃ e' r, e.call c F x = .ok (e', r) ∧ e'.WF ∧ e'.phi ≤ e.phi + x.weight tree ∧ r = (b.call F tree x).2 ∧
      Shape e' (b.call F tree x).1 := by
  have hmw : SizedValue.maxWide = 0x3fffffff := rfl
  have one : ∀ op : Op, e.phi + op.weight ≤ SizedValue.maxWide → op.Accepted →
      (op = .endArray → ∀ kvs rest, b.stack ≠ .dict kvs none :: rest) →
      ∃ e' r, e.step c op = .ok (e', r) ∧ e'.WF ∧ e'.phi ≤ e.phi + op.weight ∧ r = (b.next F op).2 ∧
        Shape e' (b.next F op).1 := by
    intro op hop ha hd
    have ht : Op.total [op] = op.weight := by simp [Op.total]
    obtain ⟨e', rs, h⟩ := Enc.run_ok (c := c) [op] hw (by omega) (by simpa using ha)
    obtain ⟨g1, g2⟩ := results_go c F [op] hw (by omega) hb ⟨hd, trivial⟩ h
    obtain ⟨k1, k2, _⟩ := Enc.run_inv [op] hw (by omega) h
    obtain ⟨e1, r, rs', h1, h2, rfl⟩ := Enc.run_cons h
    simp only [Enc.run, ok.injEq, Prod.mk.injEq] at h2
    obtain ⟨rfl, rfl⟩ := h2
    simp only [Build.run, List.cons.injEq, and_true] at g1 g2
    exact ⟨_, r, h1, k1, by omega, g1, g2⟩
  cases x with
  | op o =>
    obtain ⟨e', r, h1, h2⟩ := one o hp hx (fun h => hd (by rw [h]))
    exact ⟨e', r, by simp only [Enc.call, h1]; rfl, h2⟩
  | fleece s =>
    have hx : s.Good F (fun k => validUtf8 k = true) (tree s) := hx
    have hp : e.phi + (tree s).weight ≤ SizedValue.maxWide := hp
    obtain ⟨ops, s1, s2⟩ := writeFleece_spells hx.size hx.copies hx.reads
    have ht := s1.total
    have hacc := s1.accepted (by omega)
    simp only [Enc.call, Build.call, s2]
    cases ha : b.accept (tree s) with
    | ok b' =>
      have hrun := s1.build ha
      obtain ⟨e', rs, h⟩ := Enc.run_ok (c := c) ops hw (by omega) hacc
      obtain ⟨g1, g2⟩ := results_go c F ops hw (by omega) hb
        (noDiscard_of_ok F ops (by rw [hrun]; exact fun r hr => (List.mem_replicate.mp hr).2)) h
      obtain ⟨k1, k2, _⟩ := Enc.run_inv ops hw (by omega) h
      rw [hrun] at g1 g2
      subst g1
      refine ⟨e', .ok (), ?_, k1, by simp only [Call.weight]; omega, rfl, g2⟩
      rw [Enc.runStop_run c ops h fun r hr => (List.mem_replicate.mp hr).2]
      rfl
    | error y =>
      obtain ⟨op, rest, rfl, hop⟩ := s1.refused ha
      have htc := total_cons op rest
      obtain ⟨e', r, h1, h2, h3, h4, h5⟩ := one op (by omega) (hacc op (by simp)) (by
        rintro rfl
        exact absurd s1 Spells.not_end)
      rw [hop] at h4 h5
      subst h4
      refine ⟨e', _, ?_, h2, by simp only [Call.weight]; omega, rfl, h5⟩
      simp only [Enc.runStop, h1, ok_bind]
      rfl

theorem calls_ok (c : Cfg) (F : FloatOps) (tree : Source → Tree) (calls : List Call) : ∀ (e : Enc) (b : Build), e.WF →
    e.phi + Call.total tree calls ≤ SizedValue.maxWide → Shape e b → (∀ x ∈ calls, Call.Accepted F tree x) →
    CallsNoDiscard F tree b calls →
    ∃ e' rs, e.calls c F calls = .ok (e', rs) ∧ rs = (b.calls F tree calls).2 ∧ Shape e' (b.calls F tree calls).1 := by
  induction calls with
  | nil => intro e b _ _ hb _ _; exact ⟨e, [], rfl, rfl, hb⟩
  | cons x calls ih =>
    intro e b hw hp hb ha hd
    have htot : Call.total tree (x :: calls) = x.weight tree + Call.total tree calls := by simp [Call.total]
    obtain ⟨e1, r, h1, h2, h3, h4, h5⟩ := call_ok c F tree x e b hw (by omega) hb (ha x (by simp)) hd.1
    obtain ⟨e', rs, g1, g2, g3⟩ := ih e1 _ h2 (by omega) h5 (fun y hy => ha y (by simp [hy])) hd.2
    refine ⟨e', r :: rs, ?_, ?_, ?_⟩
    · simp only [Enc.calls, h1, ok_bind, g1, pure_eq]
    · simp only [Build.calls, g2, h4]
    · simp only [Build.calls]; exact g3

/-- **C37, results.** Every sequence of calls with values that can be copied and written, up to 1 GiB: the encoder returns
from all of them, and all results are the documented ones: a scalar is refused like `write_value`, a collection like
`begin_array` and `begin_dict`. (Except after `end_array` on an open dict, see C18.) -/
theorem C37_results_partial (c : Cfg) (F : FloatOps) (sk : Option SharedKeys) (hsk : ∀ s, sk = some s → s.WF)
    (tree : Source → Tree) (calls : List Call) (hsize : Call.total tree calls ≤ SizedValue.maxWide)
    (ha : ∀ x ∈ calls, Call.Accepted F tree x) (hd : CallsNoDiscard F tree {} calls) :
    ∃ e rs, ({ Enc.new with sk } : Enc).calls c F calls = .ok (e, rs) ∧ rs = (Build.calls F tree {} calls).2 := by
  obtain ⟨e, rs, h1, h2, _⟩ := calls_ok c F tree calls { Enc.new with sk } {} (newWith_wf hsk)
    (by have := newWith_phi sk; omega) ⟨rfl, rfl⟩ ha hd
  exact ⟨e, rs, h1, h2⟩

/-! ## The numbers that are lost -/

/-- **C37 is false of every `Int` outside -2048..2047**: with some collection open, `write_fleece` either overflows the
stack, or does what it does for another number. -/
theorem C37_int_lost (c : Cfg) (m : Mem) (F : FloatOps) (scope : Option SharedKeys) (depth : Nat) (v : Val) (i : Int) (e : Enc)
    (he : e.stack ≠ []) (ht : v.type m = .ok .int) (hi : v.toInt m F = .ok i) (hr : ¬ ShortRange i) :
    Enc.writeFleece c m F scope (depth + 1) v e = .diverge ∨
      ∃ k : Int64, k.toInt ≠ i ∧ Enc.writeFleece c m F scope (depth + 1) v e = (e.writeValue c (.i64 k)).lift := by
  have hx := toInt_range ht (.inr (.inl rfl)) hi
  have hoi : (Int64.ofInt i).toInt = i := by
    have hz : Int64.size = 2 ^ 64 := rfl
    rw [Int64.toInt_ofInt, hz, Int.bmod_eq_of_le (by omega) (by omega)]
  have hw : Enc.writeFleece c m F scope (depth + 1) v e = (e.writeValue c (.i64 (Int64.ofInt i))).lift := by
    unfold Enc.writeFleece
    rw [ht]
    simp only [ok_bind, hi]
    rw [if_neg (by rintro ⟨h, -⟩; exact he (by simpa using h))]
  by_cases hs : ShortRange (Int.bmod i (2 ^ 16))
  · refine .inr ⟨Int64.ofInt (Int.bmod i (2 ^ 16)), ?_, ?_⟩
    · have hz : Int64.size = 2 ^ 64 := rfl
      rw [Int64.toInt_ofInt, hz, Int.bmod_eq_of_le (by unfold ShortRange at hs; omega) (by unfold ShortRange at hs; omega)]
      intro h; rw [h] at hs; exact hr hs
    · have hz : Int64.size = 2 ^ 64 := rfl
      have hk : (Int64.ofInt (Int.bmod i (2 ^ 16))).toInt = Int.bmod i (2 ^ 16) := by
        rw [Int64.toInt_ofInt, hz, Int.bmod_eq_of_le (by unfold ShortRange at hs; omega) (by unfold ShortRange at hs; omega)]
      rw [hw, C03_signed_truncated c e _ (Int64.ofInt (Int.bmod i (2 ^ 16))) (by rw [hoi, hk]) (by rw [hk]; exact hs)]
  · refine .inl ?_
    rw [hw, C03_write_value_diverges c e _ he (by rw [hoi]; exact hs)]
    rfl

set_option maxRecDepth 20000 in
/-- **C37 is false of the code.** The document `[5000]` (`C34_refuted`: accepted, and read correctly) overflows the stack. -/
theorem C37_refuted (c : Cfg) (F : FloatOps) : Enc.writeFleece c intDoc F none 2 ⟨4, 4⟩ Enc.new = .diverge := by
  have ht : (⟨0, 6⟩ : Val).type intDoc = .ok .int := rfl
  have hi : (⟨0, 6⟩ : Val).toInt intDoc F = .ok 5000 := by
    unfold Val.toInt
    rw [ht]
    simp only [ok_bind]
    decide +kernel
  have hta : (⟨4, 4⟩ : Val).type intDoc = .ok .array := rfl
  obtain ⟨it, hit, hl, it', hs1⟩ : ∃ it, (⟨4, 4⟩ : Val).iter intDoc = .ok it ∧ it.len = 1 ∧
      ∃ it', it.step intDoc = .ok (some ⟨0, 6⟩, it') := ⟨_, rfl, rfl, _, rfl⟩
  have hlen := (iter_counts hit).1
  unfold Enc.writeFleece
  rw [hta]
  simp only [ok_bind]
  rw [if_neg (by simp)]
  simp only [hlen, ok_bind, hl]
  have hb : Enc.new.beginArray 1 = .ok ({ Enc.new with stack := [.arr []] }, .ok ()) := rfl
  simp only [hb, Enc.andThen, Exec.lift_ok, ok_bind, hit, hl, Enc.writeItems, hs1]
  have hw : Enc.writeFleece c intDoc F none 1 ⟨0, 6⟩ { Enc.new with stack := [.arr []] } = .diverge := by
    unfold Enc.writeFleece
    rw [ht]
    simp only [ok_bind, hi]
    rw [if_neg (by simp), C03_write_value_diverges c _ _ (by simp) (by decide)]
    rfl
  rw [hw]
  rfl

/-! ## Copying a document -/

/-- The document `{"list": [7, "tree"], "nn": true}`. -/
def copyDoc : Mem :=
  { data := [0x44, 0x6c, 0x69, 0x73, 0x74, 0x00, 0x44, 0x74, 0x72, 0x65, 0x65, 0x00, 0x42, 0x6e, 0x6e, 0x00, 0x60, 0x02,
      0x00, 0x07, 0x80, 0x07, 0x70, 0x02, 0x80, 0x0c, 0x80, 0x05, 0x80, 0x08, 0x38, 0x00, 0x80, 0x05] }

def copySource : Source := ⟨copyDoc, none, ⟨22, 10⟩, 3⟩

def copyTree : Tree :=
  .dict [([0x6c, 0x69, 0x73, 0x74], .arr [.int 7, .str [0x74, 0x72, 0x65, 0x65]]), ([0x6e, 0x6e], .bool true)]

set_option maxRecDepth 20000 in
/-- It can be copied; `begin_array, write_fleece, write_fleece, end_array` should build `[doc, doc]`. -/
example (F : FloatOps) : fromBytes copyDoc = .ok ⟨22, 10⟩ ∧
    let calls : List Call := [.op (.beginArray 2), .fleece copySource, .fleece copySource, .op .endArray]
    (∀ x ∈ calls, x.Plain F (fun _ => copyTree) false) ∧ Call.total (fun _ => copyTree) calls ≤ SizedValue.maxNarrow ∧
    (Build.calls F (fun _ => copyTree) {} calls).1.finish = some (.arr [copyTree, copyTree]) ∧
    ∀ r ∈ (Build.calls F (fun _ => copyTree) {} calls).2, r = .ok () := by
  refine ⟨by decide +kernel, ?_, by decide, rfl, ?_⟩
  · have hgood : copySource.Good F (fun k => validUtf8 k = true) copyTree := by
      refine ⟨by decide, fun _ h => (nomatch h), rfl, ?_⟩
      refine .dict [([0x6c, 0x69, 0x73, 0x74], ⟨16, 10⟩), ([0x6e, 0x6e], ⟨30, 2⟩)] rfl rfl rfl ?_
      intro e he
      simp only [List.mem_cons, List.not_mem_nil, or_false] at he
      rcases he with rfl | rfl
      · refine ⟨by decide, .array [⟨18, 2⟩, ⟨6, 14⟩] rfl rfl rfl ?_⟩
        intro x hx
        simp only [List.mem_cons, List.not_mem_nil, or_false] at hx
        rcases hx with rfl | rfl
        · exact .leaf (ty := .short) rfl (by decide)
        · exact .leaf (ty := .string) rfl (by decide)
      · exact ⟨by decide, .leaf (ty := .true) rfl (by decide)⟩
    have hplain : copyTree.Plain false := by
      simp [copyTree, Tree.Plain, Tree.EntriesPlain, Tree.Plains]
    intro x hx
    simp only [List.mem_cons, List.not_mem_nil, or_false] at hx
    rcases hx with rfl | rfl | rfl | rfl
    · exact ⟨trivial, fun n h => by cases h; decide⟩
    · exact ⟨hgood, hplain⟩
    · exact ⟨hgood, hplain⟩
    · exact ⟨trivial, fun n h => (nomatch h)⟩
  · intro r hr
    simp [Build.calls, Build.call, Build.accept, copyTree, Build.next, Build.step, Build.open, Build.close, Except.map] at hr
    exact hr

end Fleece.Props
