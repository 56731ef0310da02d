import Verif.Props.C20Large
import Verif.Props.C24
import Verif.Props.C22

/-!
# C48 `Encoder::new_to_vec` appends a document to a buffer

Full claim: the bytes in the buffer stay, and what is appended is a document that reads as it would if the buffer had been
empty. The first half is proved without conditions. The second is false of the code for every buffer with an odd number of
bytes (`C48_refuted`: `[true]` becomes the number 256; `C48_refuted_string`: `["ab"]` is rejected). For even numbers of bytes
it is proved as far as C20 is.
-/

namespace Fleece.Props
open Fleece Res

/-- **C48, nothing is lost.** Whatever the encoder was given and whatever is called, in any order, with or without success: its
buffer only grows, and `finish` returns an extension of it. -/
theorem C48_keeps (c : Cfg) (e e' : Enc) (ops : List Op) (rs : List (Except EncodeError Unit)) (out : List UInt8)
    (h : e.run c ops = .ok (e', rs)) (hf : e'.finish c = .ok out) : e.out <+: e'.out ∧ e'.out <+: out :=
  ⟨(C22_run_append_only c ops e e' rs h).1, (C22_finish c e' out hf).choose_spec.2.2.2.1⟩

/-- In particular the bytes given to `new_to_vec`. -/
theorem C48_prefix (c : Cfg) (sk : Option SharedKeys) (pre : List UInt8) (e : Enc) (ops : List Op)
    (rs : List (Except EncodeError Unit)) (out : List UInt8) (h : ({ Enc.newToVec pre with sk } : Enc).run c ops = .ok (e, rs))
    (hf : e.finish c = .ok out) : pre <+: out :=
  have := C48_keeps c _ e ops rs out h hf
  this.1.trans this.2

/-! ## Buffers with an even number of bytes -/

theorem toVec_wf {sk : Option SharedKeys} {pre : List UInt8} (he : pre.length % 2 = 0) (h : ∀ s, sk = some s → s.WF) :
    ({ Enc.newToVec pre with sk } : Enc).WF :=
  ⟨he, by simp [Enc.newToVec], by simp [Enc.newToVec], h⟩

theorem toVec_phi (sk : Option SharedKeys) (pre : List UInt8) : ({ Enc.newToVec pre with sk } : Enc).phi = pre.length := rfl

theorem toVec_nested (sk : Option SharedKeys) (pre : List UInt8) : ({ Enc.newToVec pre with sk } : Enc).Nested := by
  intro a b els r h
  cases a <;> cases h

theorem toVec_sim (F : FloatOps) (P : List UInt8 → Prop) (sk : Option SharedKeys) (pre : List UInt8) :
    Sim F P { Enc.newToVec pre with sk } {} :=
  ⟨⟨rfl, rfl⟩, .nil, by intro t h; cases h⟩

/-- **C48, exact.** As `C20_exact_partial`. -/
theorem C48_exact_partial (c : Cfg) (F : FloatOps) (sk scope : Option SharedKeys) (hsk : ∀ s, sk = some s → s.WF)
    (pre : List UInt8) (even : pre.length % 2 = 0) (ops : List Op) (hsize : pre.length + Op.total ops ≤ SizedValue.maxWide) (e : Enc)
    (rs : List (Except EncodeError Unit)) (h : ({ Enc.newToVec pre with sk } : Enc).run c ops = .ok (e, rs))
    (hok : RunOK c { Enc.newToVec pre with sk } ops) (hfin : FinishOK c e.stack.length e) (hsc : ScopeLe e.sk scope) (t : Tree)
    (ht : (Build.run F {} ops).1.finish = some t) :
    ∃ out, e.finish c = .ok out ∧ Decodes F scope out t := by
  have hphi := toVec_phi sk pre
  obtain ⟨hw, hp, _⟩ := Enc.run_inv ops (toVec_wf even hsk) (by omega) h
  obtain ⟨hs, hn⟩ := Sim.run (F := F) (P := fun _ => True) ops (toVec_wf even hsk) (toVec_nested sk pre) (by omega)
    (toVec_sim F _ sk pre) hok (RunKeys.trivial _ _ _) h
  exact hs.decodes hw hn (by omega) hfin ht hsc

/-- The same for lookups, without shared keys, as `C24_exact_partial`. -/
theorem C48_lookup_partial (c : Cfg) (F : FloatOps) (pre : List UInt8) (even : pre.length % 2 = 0) (ops : List Op)
    (hsize : pre.length + Op.total ops ≤ SizedValue.maxWide) (e : Enc) (rs : List (Except EncodeError Unit))
    (h : (Enc.newToVec pre).run c ops = .ok (e, rs)) (hok : RunOK c (Enc.newToVec pre) ops) (hfin : FinishOK c e.stack.length e)
    (t : Tree) (ht : (Build.run F {} ops).1.finish = some t) :
    ∃ out, e.finish c = .ok out ∧ Shows F none (fun _ => True) out t := by
  have hphi := toVec_phi none pre
  have hw0 : (Enc.newToVec pre).WF := toVec_wf (sk := none) even (by simp)
  obtain ⟨hw, hp, _, hsk⟩ := Enc.run_inv ops hw0 (by rw [show (Enc.newToVec pre).phi = pre.length from rfl]; omega) h
  obtain ⟨hs, hn⟩ := Sim.run (F := F) (P := fun _ => True) ops hw0 (toVec_nested none pre)
    (by rw [show (Enc.newToVec pre).phi = pre.length from rfl]; omega) (toVec_sim F _ none pre) hok (RunKeys.trivial _ _ _) h
  have hnone : e.sk = none := by
    cases he : e.sk with
    | none => rfl
    | some sk => rw [he] at hsk; exact hsk.elim
  rw [show (Enc.newToVec pre).phi = pre.length from rfl] at hp
  obtain ⟨out, h1, h2⟩ := hs.shows hw hn (by omega) hfin ht (scope := none) (by rw [hnone]; exact .refl _) (by simp)
  exact ⟨out, h1, h2.weaken fun k _ sk hsk => by cases hsk⟩

theorem toVec_results (c : Cfg) (F : FloatOps) (sk : Option SharedKeys) (hsk : ∀ s, sk = some s → s.WF) (pre : List UInt8)
    (even : pre.length % 2 = 0) (ops : List Op) (hsize : pre.length + Op.total ops ≤ SizedValue.maxWide)
    (hacc : ∀ op ∈ ops, op.Accepted) (hall : AllOk F {} ops) :
    ∃ e rs, ({ Enc.newToVec pre with sk } : Enc).run c ops = .ok (e, rs) ∧ ∀ r ∈ rs, r = .ok () := by
  have hphi := toVec_phi sk pre
  obtain ⟨e, rs, h⟩ := Enc.run_ok (c := c) ops (toVec_wf even hsk) (by omega) hacc
  refine ⟨e, rs, h, ?_⟩
  have hor := hall.orderly ops (by simp)
  have hnd : ∀ (ops : List Op) (b : Build), Orderly F b ops → NoDiscard F b ops := by
    intro ops
    induction ops with
    | nil => intros; trivial
    | cons op ops ih => intro b hb; exact ⟨hb.1, ih _ hb.2.2⟩
  rw [(results_go c F ops (toVec_wf even hsk) (by omega) (b := {}) ⟨rfl, rfl⟩ (hnd _ _ hor) h).1]
  exact hall

/-- **C48, small documents after few bytes.** -/
theorem C48_small_partial (c : Cfg) (F : FloatOps) (sk : Option SharedKeys) (hsk : ∀ s, sk = some s → s.WF) (pre : List UInt8)
    (even : pre.length % 2 = 0) (ops : List Op) (hsize : pre.length + Op.total ops ≤ SizedValue.maxNarrow)
    (hplain : ∀ op ∈ ops, op.Plain sk.isSome) (hcap : ∀ n, Op.beginArray n ∈ ops → n * 4 < 2 ^ 63) (hall : AllOk F {} ops)
    (t : Tree) (ht : (Build.run F {} ops).1.finish = some t) :
    ∃ e rs out, ({ Enc.newToVec pre with sk } : Enc).run c ops = .ok (e, rs) ∧ (∀ r ∈ rs, r = .ok ()) ∧
      e.finish c = .ok out ∧ pre <+: out ∧ ∀ scope, ScopeLe e.sk scope → Decodes F scope out t := by
  have hmn : SizedValue.maxNarrow ≤ SizedValue.maxWide := by decide
  have hphi := toVec_phi sk pre
  have hacc : ∀ op ∈ ops, op.Accepted := by
    intro op hop
    have := hplain op hop
    cases op with
    | beginArray n => exact hcap n hop
    | beginDict => trivial
    | key k => simp only [Op.Accepted]; try exact this.2.1
    | value x => exact this.1
    | endArray => trivial
    | endDict => trivial
  obtain ⟨e, rs, h, hrs⟩ := toVec_results c F sk hsk pre even ops (by omega) hacc hall
  obtain ⟨hw, hp, _⟩ := Enc.run_inv ops (toVec_wf even hsk) (by omega) h
  obtain ⟨hok, hc⟩ := plain_run ops (toVec_wf even hsk) (by omega) ⟨rfl, rfl⟩ (by intro coll hm; cases hm) hplain
    (hall.orderly ops (by simp)) h
  have hfin := clean_finish (c := c) e.stack.length hw hc (by omega)
  obtain ⟨out, h1, _⟩ := C48_exact_partial c F sk e.sk hsk pre even ops (by omega) e rs h hok hfin (.refl _) t ht
  refine ⟨e, rs, out, h, hrs, h1, C48_prefix c sk pre e ops rs out h h1, fun scope hsc => ?_⟩
  obtain ⟨out', h1', h2'⟩ := C48_exact_partial c F sk scope hsk pre even ops (by omega) e rs h hok hfin hsc t ht
  rw [h1] at h1'; cases h1'
  exact h2'

/-- **C48, documents up to 1 GiB.** As `C20_large_partial`; the buffer may be large too. -/
theorem C48_large_partial (c : Cfg) (F : FloatOps) (sk : Option SharedKeys) (hsk : ∀ s, sk = some s → s.WF) (pre : List UInt8)
    (even : pre.length % 2 = 0) (ops : List Op) (hsize : pre.length + Op.total ops ≤ SizedValue.maxWide)
    (hsound : ∀ op ∈ ops, op.Sound sk.isSome) (hall : AllOk F {} ops)
    (hdang : ∀ kvs k rest, (Build.run F {} ops).1.stack ≠ .dict kvs (some k) :: rest) (t : Tree)
    (ht : (Build.run F {} ops).1.finish = some t) (hroom : t.Roomy sk.isSome) :
    ∃ e rs out, ({ Enc.newToVec pre with sk } : Enc).run c ops = .ok (e, rs) ∧ (∀ r ∈ rs, r = .ok ()) ∧
      e.finish c = .ok out ∧ pre <+: out ∧ ∀ scope, ScopeLe e.sk scope → Decodes F scope out t := by
  have hphi := toVec_phi sk pre
  obtain ⟨e, rs, h, hrs⟩ := toVec_results c F sk hsk pre even ops hsize (fun op hop => sound_accepted (hsound op hop)) hall
  obtain ⟨hok, hfin⟩ := roomy_ok_from c F { Enc.newToVec pre with sk } (toVec_wf even hsk) ⟨rfl, rfl⟩ rfl ops (by omega) hsound hall hdang t ht
    hroom e rs h
  obtain ⟨out, h1, _⟩ := C48_exact_partial c F sk e.sk hsk pre even ops (by omega) e rs h hok hfin (.refl _) t ht
  refine ⟨e, rs, out, h, hrs, h1, C48_prefix c sk pre e ops rs out h h1, fun scope hsc => ?_⟩
  obtain ⟨out', h1', h2'⟩ := C48_exact_partial c F sk scope hsk pre even ops (by omega) e rs h hok hfin hsc t ht
  rw [h1] at h1'; cases h1'
  exact h2'

/-- The hypotheses are met by the document of C20's example after two bytes, … -/
example (F : FloatOps) : ∃ e rs out, (Enc.newToVec [0xFF, 0xFE]).run exampleCfg exampleOps = .ok (e, rs) ∧
    e.finish exampleCfg = .ok out ∧ [0xFF, 0xFE] <+: out ∧
    Decodes F e.sk out (.dict [([0x63, 0x64], .arr [.int 1, .str [0x61, 0x62], .dict []]), ([0x61, 0x62], .bool true)]) := by
  obtain ⟨e, rs, out, h1, _, h3, h4, h5⟩ := C48_small_partial exampleCfg F none (by simp) [0xFF, 0xFE] rfl exampleOps (by decide)
    (by
      intro op hop
      simp only [exampleOps, List.mem_cons, List.not_mem_nil, or_false] at hop
      rcases hop with rfl | rfl | rfl | rfl | rfl | rfl | rfl | rfl | rfl | rfl <;>
        simp [Op.Plain, Scalar.Survives, Scalar.Tiny, sab, scd, ShortRange] <;> decide)
    (by simp [exampleOps])
    (by
      intro r hr
      simp [exampleOps, Build.run, Build.next, Build.step, Build.open, Build.put, Build.close] at hr
      exact hr) _ rfl
  exact ⟨e, rs, out, h1, h3, h4, h5 _ (.refl _)⟩

/-! ## Buffers with an odd number of bytes -/

/-- The calls for `[true]`. -/
def yesOps : List Op := [.beginArray 0, .value (.bool true), .endArray]

theorem odd_bytes (c : Cfg) (pre : List UInt8) (hodd : pre.length % 2 = 1) (hsize : pre.length + 5 < 2 ^ 32) :
    ∃ e, (Enc.newToVec pre).run c yesOps = .ok (e, [.ok (), .ok (), .ok ()]) ∧
      e.finish c = .ok ((pre ++ [0x60, 1, 0, 0x38, 0]) ++ [0x80, 2]) := by
  have hl : (pre ++ [0x60, 1, 0] : List UInt8).length = pre.length + 3 := by simp
  have hw : ∀ e : Enc, e.out = pre → e.write c (.arr 1) false true =
      .ok ({ e with out := pre ++ [0x60, 1, 0] }, pre.length % 2 ^ 32) := by
    intro e he
    rw [show Item.arr 1 = if false then Item.dict 1 else Item.arr 1 from rfl, Enc.write_header c e (by decide) false false, he]
    have : (padEven (pre ++ headerBytes (if false = true then 0x70 else 0x60) 1 false) : List UInt8) = pre ++ [0x60, 1, 0] := by
      rw [show headerBytes (if false = true then 0x70 else 0x60) 1 false = ([0x60, 1] : List UInt8) by decide]
      unfold padEven
      rw [if_pos (by simp; omega)]
      simp
    rw [this]
  have hfix : ∀ s : SizedValue, s.type ≠ .pointer →
      Enc.fixArray c.dbg false ((pre.length + 3) % 2 ^ 32) [s] = .ok [s] := by
    intro s hs
    unfold Enc.fixArray Enc.fixArray
    rw [Enc.fixSlot, if_neg hs]
    simp only [ok_bind, pure_eq, u32Add]
    rw [if_pos (by simp [Enc.slotWidth]; omega)]
    rfl
  obtain ⟨s, hs, hty, hsb⟩ : ∃ s, Scalar.toSized (.bool true) = some s ∧ s.type ≠ .pointer ∧ slotBytes false s = [0x38, 0] :=
    ⟨_, rfl, by decide, by decide⟩
  let e1 : Enc := { Enc.newToVec pre with stack := [.arr [s]] }
  have hend : e1.endArray c = .ok ({ e1 with stack := [], out := (pre ++ [0x60, 1, 0, 0x38, 0]) ++ [0x80, 2], closed := true }, .ok ()) := by
    unfold Enc.endArray
    simp only [e1]
    rw [show Enc.arrayWide c.dbg (Enc.newToVec pre).out.length [s] = .ok false by simp [Enc.arrayWide, hty]]
    simp only [ok_bind, List.length_singleton]
    rw [hw _ rfl]
    simp only [ok_bind, hl]
    rw [hfix s hty]
    simp only [ok_bind]
    rw [Enc.writeSlots_eq c false [s] _ (by simp; omega)]
    simp only [ok_bind, List.map_cons, List.map_nil, hsb]
    unfold Enc.finishedCollection
    simp only [u32Sub]
    rw [if_pos (by simp; omega)]
    simp only [ok_bind]
    rw [show ((pre ++ [0x60, 1, 0] ++ [[0x38, 0]].flatten : List UInt8).length % 2 ^ 32 - pre.length % 2 ^ 32) = 5 by simp; omega]
    rw [if_pos (by decide), show SizedValue.newPointer 5 = some ⟨0x80, 0, 0, 5⟩ by decide]
    simp only []
    rw [Enc.write_sized c _ (by simp; omega)]
    simp only [ok_bind, Enc.done]
    rw [show slotBytes false ⟨0x80, 0, 0, 5⟩ = [0x80, 2] by decide]
    simp
  refine ⟨{ e1 with stack := [], out := (pre ++ [0x60, 1, 0, 0x38, 0]) ++ [0x80, 2], closed := true }, ?_, ?_⟩
  · have h1 : (Enc.newToVec pre).step c (.beginArray 0) = .ok ({ Enc.newToVec pre with stack := [.arr []] }, .ok ()) := rfl
    have h2 : ({ Enc.newToVec pre with stack := [.arr []] } : Enc).step c (.value (.bool true)) = .ok (e1, .ok ()) := by
      simp only [Enc.step, Enc.writeValue, hs]; rfl
    have h3 : e1.step c .endArray = .ok (_, .ok ()) := hend
    simp only [yesOps, Enc.run, h1, h2, h3, ok_bind, pure_eq]
  · simp only [Enc.finish, Enc.endGo, List.length_nil, List.isEmpty_nil, if_true, ok_bind, pure_eq]

/-- **C48 fails for every buffer with an odd number of bytes**: `[true]` written after it reads as the number 256, wherever the
buffer lies in memory, in both builds. Every call succeeds. -/
theorem C48_refuted (c : Cfg) (F : FloatOps) (scope : Option SharedKeys) (pre : List UInt8) (hodd : pre.length % 2 = 1)
    (hsize : pre.length + 5 < 2 ^ 32) :
    (Build.run F {} yesOps).1.finish = some (.arr [.bool true]) ∧
    ∃ e out, (Enc.newToVec pre).run c yesOps = .ok (e, [.ok (), .ok (), .ok ()]) ∧ e.finish c = .ok out ∧
      Decodes F scope out (.int 256) := by
  refine ⟨rfl, ?_⟩
  obtain ⟨e, h1, h2⟩ := odd_bytes c pre hodd hsize
  refine ⟨e, _, h1, h2, ?_⟩
  have hrep : Rep (pre ++ [0x60, 1, 0, 0x38, 0] : List UInt8) F (fun _ => True) scope none (pre.length + 1)
      (pre.length + 1 + [(1 : UInt8), 0, 0x38, 0].length) (.int 256) := by
    refine .scalar (bs := [1, 0, 0x38, 0]) (ty := .short) ⟨pre ++ [0x60], [], by simp, by simp⟩ ?_
    have := short_bytes (F := F) (b0 := 1) (b1 := 0) (tl := [0x38, 0]) (by decide)
    rwa [show short12 ((1 : UInt8).toNat * 256 + (0 : UInt8).toNat) = 256 by decide] at this
  have hl : (pre ++ [0x60, 1, 0, 0x38, 0] : List UInt8).length = pre.length + 5 := by simp
  intro m hm hbase
  obtain ⟨g1, _, g3⟩ := Rep.document (m := m) (by rw [hm]; exact hbase) hrep
    (by rw [hm, hl, show pre.length + 5 - (pre.length + 1) = 4 by omega]; rfl) (by omega) (by omega)
    (by rw [hl, show pre.length + 5 - (pre.length + 1) = 4 by omega]; decide)
  refine ⟨_, _, g1, .refl _, fun fuel hf => g3.read fuel ?_⟩
  simp at hf ⊢
  omega

/-- `["ab"]` after one byte: every call succeeds and `from_bytes` rejects the result: the array's slot points at the
text of the string instead of its header, which reads as an array of 354 elements. -/
theorem C48_refuted_string : ∃ e, (Enc.newToVec [0]).run exampleCfg
      [.beginArray 0, .value (.str ⟨[0x61, 0x62], by decide⟩), .endArray] = .ok (e, [.ok (), .ok (), .ok ()]) ∧
    e.finish exampleCfg = .ok [0, 0x42, 0x61, 0x62, 0x60, 1, 0x80, 2, 0x80, 2] ∧
    ∃ err, fromBytes ⟨[0, 0x42, 0x61, 0x62, 0x60, 1, 0x80, 2, 0x80, 2], 0, false⟩ = .err err := by
  exact ⟨_, rfl, rfl, .arrayOutOfBounds 354 2 2, by decide +kernel⟩

/-- … and those of the refutation by a buffer of one byte, or of 4095. -/
example (c : Cfg) (F : FloatOps) : ∃ e out, (Enc.newToVec (List.replicate 4095 0)).run c yesOps = .ok (e, [.ok (), .ok (), .ok ()]) ∧
    e.finish c = .ok out ∧ Decodes F none out (.int 256) :=
  (C48_refuted c F none _ (by rw [List.length_replicate]) (by rw [List.length_replicate]; decide)).2

end Fleece.Props
