import Verif.Proofs.Macro
import Verif.Props.C14
import Verif.Props.C16
import Verif.Props.C21
import Verif.Props.C24

/-!
# C47 Owned values are the values they were made from

Full claim: `finish_value` gives the root of the document that was written, in both builds, whatever was written; the
`clone_from_bytes` functions give what the borrowing ones give; the empty constants are empty. `finish_value` is proved for
what C24 covers; it is refuted for an encoder that nothing was written to, and for data of one byte (`C47_refuted`), where
the debug build panics. `Array::empty().get(0)` reads beyond the constant (`C47_empty_get`).
-/

namespace Fleece.Props
open Fleece Res

/-- The value that `a` holds is the one `from_bytes` finds in its buffer, and what a client sees of it is `t`. -/
def Holds (F : FloatOps) (a : Alloced) (t : Tree) : Prop :=
  fromBytes a.mem = .ok a.value ∧ ∃ t', Tree.Same t t' ∧ Matches a.mem F none (fun _ => True) a.value t'

theorem finishValue_shows {c : Cfg} {F : FloatOps} {e : Enc} {out : List UInt8} {t : Tree} (h : e.finish c = .ok out)
    (hs : Shows F none (fun _ => True) out t) (base : Nat) (hb : base + out.length < 2 ^ 64) :
    ∃ v, e.finishValue c base = .ok ⟨⟨out, base, c.dbg⟩, v⟩ ∧ Holds F ⟨⟨out, base, c.dbg⟩, v⟩ t := by
  obtain ⟨v, t', h1, h2, h3⟩ := hs ⟨out, base, c.dbg⟩ rfl hb
  exact ⟨v, Enc.finishValue_ok h (fun _ => h1) (fun _ => C16_unchecked_agrees _ _ h1), h1, t', h2, h3⟩

/-- **C47, `finish_value`, exact.** Documents below 1 GiB whose collections fit the width the encoder chose (`C24_exact_partial`). -/
theorem C47_finish_value_exact_partial (c : Cfg) (F : FloatOps) (ops : List Op) (hsize : Op.total ops ≤ SizedValue.maxWide)
    (e : Enc) (rs : List (Except EncodeError Unit)) (h : Enc.new.run c ops = .ok (e, rs)) (hok : RunOK c Enc.new ops)
    (hfin : FinishOK c e.stack.length e) (t : Tree) (ht : (Build.run F {} ops).1.finish = some t) :
    ∃ out, e.finish c = .ok out ∧ ∀ base, base + out.length < 2 ^ 64 →
      ∃ v, e.finishValue c base = .ok ⟨⟨out, base, c.dbg⟩, v⟩ ∧ Holds F ⟨⟨out, base, c.dbg⟩, v⟩ t := by
  obtain ⟨out, h1, h2⟩ := C24_exact_partial c F ops hsize e rs h hok hfin t ht
  exact ⟨out, h1, finishValue_shows h1 h2⟩

/-- **C47, `finish_value`, small documents.** -/
theorem C47_finish_value_partial (c : Cfg) (F : FloatOps) (ops : List Op) (hsize : Op.total ops ≤ SizedValue.maxNarrow)
    (hplain : ∀ op ∈ ops, op.Plain false) (hcap : ∀ n, Op.beginArray n ∈ ops → n * 4 < 2 ^ 63) (hall : AllOk F {} ops)
    (t : Tree) (ht : (Build.run F {} ops).1.finish = some t) :
    ∃ e rs out, Enc.new.run c ops = .ok (e, rs) ∧ e.finish c = .ok out ∧ ∀ base, base + out.length < 2 ^ 64 →
      ∃ v, e.finishValue c base = .ok ⟨⟨out, base, c.dbg⟩, v⟩ ∧ Holds F ⟨⟨out, base, c.dbg⟩, v⟩ t := by
  obtain ⟨e, rs, out, h1, h2, h3⟩ := C24_small_partial c F ops hsize hplain hcap hall t ht
  exact ⟨e, rs, out, h1, h2, finishValue_shows h2 h3⟩

/-- In the debug build `finish_value` returns exactly if `from_bytes` accepts the output, and then gives its root. -/
theorem C47_finish_value_checks (c : Cfg) (hc : c.dbg = true) (e : Enc) (out : List UInt8) (h : e.finish c = .ok out)
    (base : Nat) (a : Alloced) :
    e.finishValue c base = .ok a ↔ a.mem = ⟨out, base, true⟩ ∧ fromBytes ⟨out, base, true⟩ = .ok a.value := by
  unfold Enc.finishValue
  simp only [h, ok_bind, hc, if_true, cloneFromBytes]
  cases hf : fromBytes ⟨out, base, true⟩ with
  | ok v =>
    simp only [ok_bind, pure_eq, unwrap, Res.ok.injEq]
    constructor
    · rintro rfl; exact ⟨rfl, rfl⟩
    · rintro ⟨h1, rfl⟩; cases a; cases h1; rfl
  | err e => simp [unwrap]
  | panic => simp [unwrap]
  | ub => simp [unwrap]
  | diverge => simp [unwrap]

/-! ## Cloning -/

/-- **C47, `clone_from_bytes`.** The copy, wherever it lies, is accepted exactly if the original is, with the same root. -/
theorem C47_clone (data : List UInt8) (b b' : Nat) (hb : b + data.length < 2 ^ 64) (hb' : b' + data.length < 2 ^ 64)
    (v : Val) : cloneFromBytes true b' data = .ok ⟨⟨data, b', true⟩, v⟩ ↔ fromBytes ⟨data, b, true⟩ = .ok v := by
  rw [C14_acceptance_address_free data b b' hb hb' v]
  unfold cloneFromBytes
  dsimp only
  cases fromBytes ⟨data, b', true⟩ <;> simp

/-- The copies of arrays and dicts. -/
theorem C47_clone_collections (data : List UInt8) (b b' : Nat) (hb : b + data.length < 2 ^ 64)
    (hb' : b' + data.length < 2 ^ 64) (v : Val) :
    (arrayCloneFromBytes true b' data = .ok ⟨⟨data, b', true⟩, v⟩ ↔ arrayFromBytes ⟨data, b, true⟩ = .ok v) ∧
    (dictCloneFromBytes true b' data = .ok ⟨⟨data, b', true⟩, v⟩ ↔ dictFromBytes ⟨data, b, true⟩ = .ok v) := by
  have key : ∀ w, fromBytes ⟨data, b, true⟩ = .ok w ↔ fromBytes ⟨data, b', true⟩ = .ok w :=
    fun w => C14_acceptance_address_free data b b' hb hb' w
  have ty : ∀ w : Val, w.type ⟨data, b, true⟩ = w.type ⟨data, b', true⟩ := fun w => rfl
  unfold arrayCloneFromBytes arrayFromBytes dictCloneFromBytes dictFromBytes cloneFromBytes Alloced.toArray Alloced.toDict
  dsimp only
  cases hx : fromBytes ⟨data, b, true⟩ with
  | ok w =>
    rw [(key w).mp hx]
    simp only [ok_bind, pure_eq, ty]
    cases w.type ⟨data, b', true⟩ with
    | ok t =>
      simp only [ok_bind]
      constructor
      · by_cases h : t = .array <;> simp [h]
      · by_cases h : t = .dict <;> simp [h]
    | err e => simp
    | panic => simp
    | ub => simp
    | diverge => simp
  | _ =>
    have hne : ∀ w, fromBytes ⟨data, b', true⟩ ≠ .ok w := fun w h => by rw [(key w).mpr h] at hx; cases hx
    cases hy : fromBytes ⟨data, b', true⟩ with
    | ok w => exact absurd hy (hne w)
    | _ => simp

/-- The type of a value that reads as a tree: an array exactly if the tree is one, a dict exactly if the tree is one. -/
theorem readTree_type {m : Mem} {F : FloatOps} {scope : Option SharedKeys} {n : Nat} {v : Val} {t : Tree}
    (h : readTree m F scope n v = .ok t) : ∃ ty, v.type m = .ok ty ∧ (ty = .array ↔ ∃ xs, t = .arr xs) ∧
      (ty = .dict ↔ ∃ kvs, t = .dict kvs) := by
  cases n with
  | zero => cases h
  | succ n =>
    unfold readTree at h
    obtain ⟨ty, h1, h⟩ := bind_eq_ok.mp h
    refine ⟨ty, h1, ?_⟩
    cases ty <;> dsimp only at h <;> first
      | (cases h; done)
      | (cases h; simp; done)
      | (obtain ⟨_, _, h⟩ := bind_eq_ok.mp h; cases h; simp; done)
      | (obtain ⟨_, _, h⟩ := bind_eq_ok.mp h; obtain ⟨_, _, h⟩ := bind_eq_ok.mp h; cases h; simp)

/-- **C47, `Array::from_bytes` and `Dict::from_bytes`.** Of a document that is accepted and can be read: the root, if it is
an array (a dict), and otherwise `IsNotArray` (`IsNotDict`). -/
theorem C47_typed_root (m : Mem) (F : FloatOps) (scope : Option SharedKeys) (n : Nat) (v : Val) (t : Tree)
    (h : fromBytes m = .ok v) (ht : readTree m F scope n v = .ok t) :
    ((∃ xs, t = .arr xs) → arrayFromBytes m = .ok v) ∧ ((∀ xs, t ≠ .arr xs) → arrayFromBytes m = .err .isNotArray) ∧
    ((∃ kvs, t = .dict kvs) → dictFromBytes m = .ok v) ∧ ((∀ kvs, t ≠ .dict kvs) → dictFromBytes m = .err .isNotDict) := by
  obtain ⟨ty, h1, h2, h3⟩ := readTree_type ht
  unfold arrayFromBytes dictFromBytes
  simp only [h, ok_bind, h1, pure_eq]
  refine ⟨fun hx => if_pos (h2.mpr hx), fun hx => if_neg fun hc => ?_, fun hx => if_pos (h3.mpr hx), fun hx => if_neg fun hc => ?_⟩
  · obtain ⟨xs, hxs⟩ := h2.mp hc; exact hx xs hxs
  · obtain ⟨xs, hxs⟩ := h3.mp hc; exact hx xs hxs

/-- Documents that are not accepted are refused for the same reason. -/
theorem C47_typed_root_error (m : Mem) (e : DecodeError) (h : fromBytes m = .err e) :
    arrayFromBytes m = .err e ∧ dictFromBytes m = .err e := by
  unfold arrayFromBytes dictFromBytes
  simp only [h, err_bind, and_self]

set_option maxRecDepth 20000 in
/-- The hypotheses of `C47_typed_root` hold of the document `[1]`, and of the document `true`. -/
example (F : FloatOps) : (∃ v, fromBytes ⟨[0x60, 0x01, 0x00, 0x01, 0x80, 0x02], 0, true⟩ = .ok v ∧
      readTree ⟨[0x60, 0x01, 0x00, 0x01, 0x80, 0x02], 0, true⟩ F none 3 v = .ok (.arr [.int 1])) ∧
    ∃ v, fromBytes ⟨[0x38, 0x00], 0, true⟩ = .ok v ∧ readTree ⟨[0x38, 0x00], 0, true⟩ F none 3 v = .ok (.bool true) :=
  ⟨⟨_, rfl, rfl⟩, ⟨_, rfl, rfl⟩⟩

/-- What the copies say of documents whose root is something else. -/
theorem C47_clone_errors (data : List UInt8) (b : Nat) (dbg : Bool) (v : Val) (t : ValueType)
    (h : fromBytes ⟨data, b, dbg⟩ = .ok v) (ht : v.type ⟨data, b, dbg⟩ = .ok t) :
    (t ≠ .array → arrayCloneFromBytes dbg b data = .err .isNotArray) ∧
    (t ≠ .dict → dictCloneFromBytes dbg b data = .err .isNotDict) := by
  unfold arrayCloneFromBytes dictCloneFromBytes cloneFromBytes Alloced.toArray Alloced.toDict
  dsimp only
  simp only [h, ok_bind, pure_eq, ht]
  refine ⟨fun hn => ?_, fun hn => ?_⟩
  · rw [if_neg hn]
  · rw [if_neg hn]

/-- A clone of a document with an array. -/
example : arrayCloneFromBytes true 0x7f00 [0x60, 0x01, 0x00, 0x05, 0x80, 0x02] =
    .ok ⟨⟨[0x60, 0x01, 0x00, 0x05, 0x80, 0x02], 0x7f00, true⟩, ⟨0, 4⟩⟩ :=
  (C47_clone_collections _ 0 0x7f00 (by decide) (by decide) _).1.mpr (by decide +kernel)

example : dictCloneFromBytes true 0 [0x60, 0x01, 0x00, 0x05, 0x80, 0x02] = .err .isNotDict :=
  (C47_clone_errors _ 0 true ⟨0, 4⟩ .array (by decide +kernel) rfl).2 (by decide)

/-! ## Empty collections -/

set_option maxRecDepth 20000 in
/-- **C47, empty collections** have no elements, no entries, and no keys, in both builds. -/
theorem C47_empty (dbg : Bool) (base : Nat) :
    (∀ a : Alloced, a = .emptyArray dbg base →
      a.value.type a.mem = .ok .array ∧ a.value.arrayLen a.mem = .ok 0 ∧
      (∃ it, a.value.iter a.mem = .ok it ∧ it.step a.mem = .ok (none, it)) ∧
      ∀ i, 0 < i → a.value.get a.mem i = .ok none) ∧
    ∀ d : Alloced, d = .emptyDict dbg base →
      d.value.type d.mem = .ok .dict ∧ d.value.dictLen d.mem = .ok 0 ∧
      (∃ it, d.value.dictIter d.mem = .ok it ∧ ∀ scope, it.dictStep d.mem scope = .ok (none, it)) ∧
      ∀ scope key, d.value.dictGet d.mem scope key = .ok none := by
  refine ⟨?_, ?_⟩
  · rintro a rfl
    have hl : (⟨0, 2⟩ : Val).arrayLen ⟨[0x60, 0], base, dbg⟩ = .ok 0 := by cases dbg <;> rfl
    refine ⟨by cases dbg <;> rfl, hl, ⟨⟨none, 2, 0, 0⟩, by cases dbg <;> rfl, rfl⟩, ?_⟩
    intro i hi
    simp only [Alloced.emptyArray, Val.get, hl, ok_bind, pure_eq]
    rw [if_pos hi]
  · rintro d rfl
    have hl : (⟨0, 2⟩ : Val).arrayLen ⟨[0x70, 0], base, dbg⟩ = .ok 0 := by cases dbg <;> rfl
    refine ⟨by cases dbg <;> rfl, by cases dbg <;> rfl, ⟨⟨none, 2, 0, 0⟩, by cases dbg <;> rfl, fun _ => rfl⟩, ?_⟩
    intro scope key
    simp only [Alloced.emptyDict, Val.dictGet, Val.encodeKey, Val.usesSharedKeys, Val.search, Val.dictLen, hl, ok_bind, pure_eq,
      if_true]
    rfl

set_option maxRecDepth 20000 in
/-- **C47 is false of the code: `Array::empty().get(0)`** reads beyond the two bytes of the constant. -/
theorem C47_empty_get (dbg : Bool) (base : Nat) :
    (Alloced.emptyArray dbg base).value.get (Alloced.emptyArray dbg base).mem 0 = .ub := by
  cases dbg <;> rfl

/-! ## Refutation -/

theorem finishValue_rejected {e : Enc} {out : List UInt8} {x : DecodeError} (h : e.finish exampleCfg = .ok out)
    (hf : fromBytes ⟨out, 0, true⟩ = .err x) : e.finishValue exampleCfg 0 = .panic := by
  have hc : exampleCfg.dbg = true := rfl
  unfold Enc.finishValue
  rw [h, ok_bind, hc, if_pos rfl]
  simp only [cloneFromBytes, hf]
  rfl

/-- **C47 is false of the code: `finish_value`** panics if nothing was written, in both builds; and in the debug build after
`begin_array`, `write_value` of one byte of data, and `end_array`, all of which succeed. -/
theorem C47_refuted : (∀ (c : Cfg) (base : Nat), Enc.new.finishValue c base = .panic) ∧
    ∃ (c : Cfg) (ops : List Op) (e : Enc) (rs : List (Except EncodeError Unit)), Enc.new.run c ops = .ok (e, rs) ∧
      (∀ r ∈ rs, r = .ok ()) ∧ ∀ F, (Build.run F {} ops).1.finish = some (.arr [.data [0x61]]) ∧
      e.finishValue c 0 = .panic := by
  refine ⟨?_, exampleCfg, [.beginArray 0, .value (.data [0x61]), .endArray], _, [.ok (), .ok (), .ok ()], rfl, by simp,
    fun F => ⟨rfl, ?_⟩⟩
  · intro c base
    cases c with
    | mk dbg chars sort => cases dbg <;> rfl
  · exact finishValue_rejected (out := [0x60, 0x01, 0x11, 0x61, 0x80, 0x02]) (x := .valueOutOfBounds .int 3 2)
      (by decide +kernel) (by decide +kernel)

end Fleece.Props
