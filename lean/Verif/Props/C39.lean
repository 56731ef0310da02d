import Verif.Proofs.Ser
import Verif.Props.C37

/-!
# C39 Serde rejects what Fleece cannot hold

Full claim: every value of the serde data model. `to_bytes` and `to_bytes_with_shared_keys` (`sk`). That no bytes are
emitted, and the error for scalars, hold of all values. The error for keys needs `to_bytes` to return, which it does not do
for signed numbers outside -2048..2047 in front of the key (C03; `C39_refuted`), and is proved up to 1 GiB.
-/

namespace Fleece.Props
open Fleece Res

/-- Serializing a scalar is one `write_value`. -/
theorem scalar_value (c : Cfg) : ∀ (x : SVal), x.isScalar = true → ∃ s : Scalar, ∀ e, Ser.value c x e = Ser.call (e.writeValue c s)
  | .prim p, _ => ⟨p.scalar, fun e => by simp only [Ser.value]⟩
  | .char s, _ => ⟨.str s, fun e => by simp only [Ser.value]⟩
  | .none, _ => ⟨.null, fun e => by simp only [Ser.value]⟩
  | .unit, _ => ⟨.undefined, fun e => by simp only [Ser.value]⟩
  | .unitStruct, _ => ⟨.null, fun e => by simp only [Ser.value]⟩
  | .some v, h => by
    obtain ⟨s, hs⟩ := scalar_value c v (by simpa [SVal.isScalar] using h)
    exact ⟨s, fun e => by simp only [Ser.value, hs]⟩
  | .newtypeStruct v, h => by
    obtain ⟨s, hs⟩ := scalar_value c v (by simpa [SVal.isScalar] using h)
    exact ⟨s, fun e => by simp only [Ser.value, hs]⟩
  | .unitVariant _, h => by simp [SVal.isScalar] at h
  | .newtypeVariant _ _, h => by simp [SVal.isScalar] at h
  | .seq _ _, h => by simp [SVal.isScalar] at h
  | .tuple _, h => by simp [SVal.isScalar] at h
  | .tupleVariant _ _, h => by simp [SVal.isScalar] at h
  | .map _, h => by simp [SVal.isScalar] at h
  | .struct _, h => by simp [SVal.isScalar] at h
  | .structVariant _ _, h => by simp [SVal.isScalar] at h

/-- **C39, scalars.** Everything that is not a collection at top level is refused with `ValueNotCollection`. -/
theorem C39_scalar (c : Cfg) (sk : Option SharedKeys) (x : SVal) (h : x.isScalar = true) :
    Ser.toBytes c sk x = .ok (.error .valueNotCollection) := by
  obtain ⟨s, hs⟩ := scalar_value c x h
  unfold Ser.toBytes
  rw [hs]
  rfl

theorem runScript_bad (c : Cfg) (ss : List SStep) : ∀ {e e' : Enc} {k : KeyType}, SStep.firstBad ss = some k →
    Ser.runScript c ss e ≠ .ok (e', .ok ()) := by
  induction ss with
  | nil => intro e e' k h; cases h
  | cons s ss ih =>
    intro e e' k h
    cases s with
    | bad t => rintro ⟨⟩
    | op o =>
      simp only [Ser.runScript, Ser.andThen]
      cases Ser.call (e.step c o) with
      | err x => cases x
      | ok p =>
        obtain ⟨e1, r⟩ := p
        cases r with
        | error x => rintro ⟨⟩
        | ok u => exact ih h
      | panic => rintro ⟨⟩
      | ub => rintro ⟨⟩
      | diverge => rintro ⟨⟩

/-- **C39, keys: no bytes.** A value with a key that is not a string or `char`, anywhere, never gives bytes. -/
theorem C39_key_no_bytes (c : Cfg) (sk : Option SharedKeys) (x : SVal) (k : KeyType) (h : x.badKey = some k)
    (out : List UInt8 × Option SharedKeys) : Ser.toBytes c sk x ≠ .ok (.ok out) := by
  intro hb
  unfold Ser.toBytes at hb
  obtain ⟨⟨e, r⟩, h1, h2⟩ := bind_eq_ok.mp hb
  rw [Ser.value_script] at h1
  cases r with
  | ok u => exact runScript_bad c _ (by rw [badKey_script, h]) h1
  | error x => cases x with
    | encode y => cases y <;> cases h2
    | _ => cases h2

/-- The document of a collection is one. -/
theorem tree_collection (F : FloatOps) : ∀ x : SVal, x.isScalar = false → ∃ b, Build.accept {} (x.tree F) = .ok b
  | .some v, h => by simp only [SVal.tree]; exact tree_collection F v (by simpa [SVal.isScalar] using h)
  | .newtypeStruct v, h => by simp only [SVal.tree]; exact tree_collection F v (by simpa [SVal.isScalar] using h)
  | .unitVariant _, _ => by simp only [SVal.tree]; exact ⟨_, rfl⟩
  | .newtypeVariant _ _, _ => by simp only [SVal.tree]; exact ⟨_, rfl⟩
  | .seq _ _, _ => by simp only [SVal.tree]; exact ⟨_, rfl⟩
  | .tuple _, _ => by simp only [SVal.tree]; exact ⟨_, rfl⟩
  | .tupleVariant _ _, _ => by simp only [SVal.tree]; exact ⟨_, rfl⟩
  | .map _, _ => by simp only [SVal.tree]; exact ⟨_, rfl⟩
  | .struct _, _ => by simp only [SVal.tree]; exact ⟨_, rfl⟩
  | .structVariant _ _, _ => by simp only [SVal.tree]; exact ⟨_, rfl⟩
  | .prim _, h => by simp [SVal.isScalar] at h
  | .char _, h => by simp [SVal.isScalar] at h
  | .none, h => by simp [SVal.isScalar] at h
  | .unit, h => by simp [SVal.isScalar] at h
  | .unitStruct, h => by simp [SVal.isScalar] at h

/-- The calls for a collection are all accepted. -/
theorem ser_run (c : Cfg) (F : FloatOps) (sk : Option SharedKeys) (hsk : ∀ s, sk = some s → s.WF) (x : SVal)
    (hx : x.isScalar = false) (he : x.Every Scalar.Survives fun _ => True) (hsize : (x.tree F).weight ≤ SizedValue.maxWide) :
    ∃ e rs, ({ Enc.new with sk } : Enc).run c (x.script.map SStep.toOp) = .ok (e, rs) ∧ (∀ r ∈ rs, r = .ok ()) ∧
      e.stack = [] := by
  have hmw : SizedValue.maxWide = 0x3fffffff := rfl
  have hs := sval_spells F _ x he
  have ht := hs.total
  have hphi := newWith_phi sk
  obtain ⟨b, hb⟩ := tree_collection F x hx
  have hrun := hs.build hb
  obtain ⟨e, rs, h⟩ := Enc.run_ok (c := c) (x.script.map SStep.toOp) (newWith_wf hsk) (by omega) (hs.accepted (by omega))
  obtain ⟨g1, g2⟩ := results_go c F (x.script.map SStep.toOp) (newWith_wf hsk) (by omega) (b := {}) ⟨rfl, rfl⟩
    (noDiscard_of_ok F _ (by rw [hrun]; exact fun r hr => (List.mem_replicate.mp hr).2)) h
  rw [hrun] at g1 g2
  refine ⟨e, rs, h, fun r hr => by rw [g1] at hr; exact (List.mem_replicate.mp hr).2, ?_⟩
  have hst : b.stack = [] := by
    generalize x.tree F = t at hb
    cases t <;> cases hb <;> rfl
  have := g2.stack; rw [hst] at this; simpa using this

/-- **C39, keys: the error.** Up to 1 GiB, with numbers the encoder can write (C03, C04): `to_bytes` returns; a collection with a
key that is not a string or `char`, anywhere, is refused with `KeyNotString` and the type of the first such key; every other
collection gives bytes. -/
theorem C39_key_partial (c : Cfg) (F : FloatOps) (sk : Option SharedKeys) (hsk : ∀ s, sk = some s → s.WF) (x : SVal)
    (hx : x.isScalar = false) (he : x.Every Scalar.Survives fun _ => True) (hsize : (x.tree F).weight ≤ SizedValue.maxWide) :
    (∀ k, x.badKey = some k → Ser.toBytes c sk x = .ok (.error (.keyNotString k))) ∧
      (x.badKey = none → ∃ out sk', Ser.toBytes c sk x = .ok (.ok (out, sk'))) := by
  obtain ⟨e, rs, h1, h2, h3⟩ := ser_run c F sk hsk x hx he hsize
  have := Ser.runScript_run c x.script h1 h2
  rw [badKey_script] at this
  constructor
  · intro k hk
    rw [hk] at this
    obtain ⟨e1, h4⟩ := this
    unfold Ser.toBytes
    rw [Ser.value_script, h4]
    rfl
  · intro hk
    rw [hk] at this
    unfold Ser.toBytes
    rw [Ser.value_script, this]
    refine ⟨e.out, e.sk, ?_⟩
    have hf : e.finish c = .ok e.out := by simp [Enc.finish, h3, Enc.endGo]
    simp only [ok_bind, hf, pure_eq]

/-! ## Examples -/

/-- `{ "inner": [ { 'c': 1, 5: 2 } ] }`, a map with a number as key in a list in a struct. -/
def badKeyValue : SVal :=
  .struct [(⟨[0x69, 0x6e, 0x6e, 0x65, 0x72], by decide⟩, .seq (some 1) [.map [
    (.char ⟨[0x63], by decide⟩, .prim (.int .u8 1)), (.prim (.int .u8 5), .prim (.int .u8 2))]])]

example : badKeyValue.isScalar = false ∧ badKeyValue.badKey = some .int ∧ badKeyValue.Every Scalar.Survives (fun _ => True) ∧
    (badKeyValue.tree ⟨fun _ => 0, fun _ => 0, fun _ => 0, fun _ => 0, fun _ => 0, fun _ => 0⟩).weight ≤ SizedValue.maxWide := by
  refine ⟨rfl, rfl, ?_, by decide⟩
  simp [badKeyValue, SVal.Every, SVal.EveryOf, SVal.EveryEntry, SVal.EveryField, Prim.scalar, IntTy.scalar, Scalar.Survives]

/-- **The error for keys is not always the documented one**: in `(5000i64, { 5: 2 })` the number comes first, and overflows
the stack. -/
theorem C39_refuted (c : Cfg) (sk : Option SharedKeys) :
    let x : SVal := .tuple [.prim (.int .i64 5000), .map [(.prim (.int .u8 5), .prim (.int .u8 2))]]
    x.badKey = some .int ∧ Ser.toBytes c sk x = .diverge := by
  refine ⟨rfl, ?_⟩
  unfold Ser.toBytes
  simp only [Ser.value, Ser.values]
  have hb : ({ Enc.new with sk } : Enc).beginArray 2 = .ok ({ Enc.new with stack := [.arr []], sk }, .ok ()) := rfl
  have hd : ({ Enc.new with stack := [.arr []], sk } : Enc).writeValue c (Prim.int .i64 5000).scalar = .diverge :=
    C03_write_value_diverges c _ _ (by simp) (by decide)
  show (Ser.andThen (Ser.call (({ Enc.new with sk } : Enc).beginArray 2)) _ >>= _) = _
  rw [hb]
  simp only [Ser.call, Ser.andThen, ok_bind]
  rw [hd]
  rfl

end Fleece.Props
