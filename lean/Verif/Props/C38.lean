import Verif.Proofs.SerOps
import Verif.Proofs.DeOk
import Verif.Props.C30
import Verif.Props.C39

/-!
# C38 Serde round trip

Full claim: every value of every type with a derived or built-in implementation (`HasTy`). It is false of the code
(`C38_refuted`) for unit structs, newtype structs, `Some` of a value that is written as null, names and strings of less than
two bytes in small collections, and for signed numbers outside -2048..2047 (C03). The theorems prove it of all other values
up to 16 KiB; `depth` is the recursion depth needed. Documents without shared keys are read outside any scope; with shared
keys inside the scope that `to_bytes_with_shared_keys` returns. Missing: documents above 16 KiB (narrow pointers, C21), and
types with other implementations.
-/

namespace Fleece.Props
open Fleece Res

/-- The document shows the value: deserializing gives it back. -/
theorem de_shows {F : FloatOps} {N : NumOps} {scope : Option SharedKeys} {types : List Ty} {probe : List UInt8 → Prop}
    {ty : Ty} {x : SVal} {out : List UInt8} (hty : HasTy types ty x) (hret : x.Returns F)
    (he : x.Every (fun _ => True) fun k => k.bytes ≠ [] ∧ probe k.bytes) (hs : Shows F scope probe out (x.tree F))
    (m : Mem) (hm : m.data = out) (hb : m.base + out.length < 2 ^ 64) :
    ∃ depth, ∀ fuel, depth ≤ fuel → Ty.fromBytes ⟨m, F, N, scope, types⟩ fuel ty = .ok x := by
  obtain ⟨v, t, h1, h2, h3⟩ := hs m hm hb
  obtain ⟨d, hd⟩ := de_ok (X := ⟨m, F, N, scope, types⟩) hty hret he h3 h2
  obtain ⟨vt, h4, h5⟩ := h3.direct
  refine ⟨d, fun fuel hf => ?_⟩
  unfold Ty.fromBytes
  simp only [h1, dread_ok, ok_bind, new_ok (X := ⟨m, F, N, scope, types⟩) h4 h5, hd fuel hf]

theorem ser_bytes {c : Cfg} {F : FloatOps} {sk : Option SharedKeys} (hsk : ∀ s, sk = some s → s.WF) {x : SVal}
    (hx : x.isScalar = false) (he : x.Every Scalar.Survives fun _ => True) (hsize : (x.tree F).weight ≤ SizedValue.maxWide)
    (hbad : x.badKey = none) {e : Enc} {rs : List (Except EncodeError Unit)} {out : List UInt8}
    (h : ({ Enc.new with sk } : Enc).run c (x.script.map SStep.toOp) = .ok (e, rs)) (hf : e.finish c = .ok out) :
    Ser.toBytes c sk x = .ok (.ok (out, e.sk)) := by
  obtain ⟨e', rs', h1, h2, h3⟩ := ser_run c F sk hsk x hx he hsize
  rw [h] at h1
  cases h1
  have := Ser.runScript_run c x.script h h2
  rw [badKey_script, hbad] at this
  unfold Ser.toBytes
  rw [Ser.value_script]
  simp only [this, ok_bind, hf, pure_eq]

/-- The calls made for a collection are documented to succeed, and to give its document. -/
theorem ser_build {F : FloatOps} {x : SVal} (hx : x.isScalar = false) (he : x.Every Scalar.Survives fun _ => True) :
    AllOk F {} (x.script.map SStep.toOp) ∧ (Build.run F {} (x.script.map SStep.toOp)).1.finish = some (x.tree F) := by
  have hs := sval_spells F _ x he
  obtain ⟨b, hb⟩ := tree_collection F x hx
  have hrun := hs.build hb
  refine ⟨?_, ?_⟩
  · unfold AllOk
    rw [hrun]
    exact fun r hr => (List.mem_replicate.mp hr).2
  · rw [hrun]
    generalize x.tree F = t at hb
    cases t <;> cases hb <;> rfl

theorem script_plain {x : SVal} {shared : Bool} (he : x.Every Scalar.Plain (RStr.PlainKey shared)) :
    ∀ op ∈ x.script.map SStep.toOp, op.Plain shared := by
  intro op hop
  obtain ⟨s, hs, rfl⟩ := List.mem_map.mp hop
  have := script_in (S := Scalar.Plain) (by simp [Scalar.Plain, Scalar.Survives, Scalar.Tiny])
    (by simp [Scalar.Plain, Scalar.Survives, Scalar.Tiny]) x he s hs
  unfold SStep.In at this
  cases h : s.toOp <;> rw [h] at this <;> first | exact this | trivial

/-- The serializer writes a document that shows the value. -/
theorem ser_shows_small (c : Cfg) (F : FloatOps) (x : SVal) (hbad : x.badKey = none) (hx : x.isScalar = false)
    (he : x.Every Scalar.Plain (RStr.PlainKey false)) (hsize : (x.tree F).weight ≤ SizedValue.maxNarrow) :
    ∃ out, Ser.toBytes c none x = .ok (.ok (out, none)) ∧ Shows F none (fun _ => True) out (x.tree F) := by
  have hmn : SizedValue.maxNarrow = 0x3fff := rfl
  have hmw : SizedValue.maxWide = 0x3fffffff := rfl
  have he' : x.Every Scalar.Survives fun _ => True := every_mono (fun _ h => h.1) (fun _ _ => trivial) x he
  have hsp := sval_spells F _ x he'
  have htot := hsp.total
  obtain ⟨hall, hfin⟩ := ser_build (F := F) hx he'
  obtain ⟨e, rs, out, h1, h2, h3⟩ := C24_small_partial c F (x.script.map SStep.toOp) (by omega) (script_plain he)
    (fun n hn => hsp.accepted (by omega) _ hn) hall _ hfin
  have hphi := newWith_phi none
  obtain ⟨_, _, _, hsk⟩ := Enc.run_inv (x.script.map SStep.toOp) (newWith_wf (sk := none) (by simp)) (by omega) h1
  have hnone : e.sk = none := by
    cases hs : e.sk with
    | none => rfl
    | some s => rw [hs] at hsk; exact hsk.elim
  refine ⟨out, ?_, h3⟩
  have := ser_bytes (F := F) (sk := none) (by simp) hx he' (by omega) hbad h1 h2
  rw [hnone] at this
  exact this

/-- The same with shared keys. -/
theorem ser_shows_shared (c : Cfg) (F : FloatOps) (x : SVal) (hbad : x.badKey = none) (hx : x.isScalar = false)
    (he : x.Every Scalar.Plain fun k => k.PlainKey true ∧ Sound c.chars k.bytes)
    (hsize : (x.tree F).weight ≤ SizedValue.maxNarrow) :
    ∃ out sk, Ser.toBytes c (some .new) x = .ok (.ok (out, some sk)) ∧
      (sk.entries.length < 2048 → Shows F (some sk) (Sound c.chars) out (x.tree F)) := by
  have hmn : SizedValue.maxNarrow = 0x3fff := rfl
  have hmw : SizedValue.maxWide = 0x3fffffff := rfl
  have he' : x.Every Scalar.Survives fun _ => True := every_mono (fun _ h => h.1) (fun _ _ => trivial) x he
  have hsp := sval_spells F _ x he'
  have htot := hsp.total
  obtain ⟨hall, hfin⟩ := ser_build (F := F) hx he'
  obtain ⟨e, rs, out, last, h1, h2, h4, h5, h6, _, h3⟩ := C30_small_partial c F .new SharedKeys.new_wf (SharedKeys.new_tidy _)
    (x.script.map SStep.toOp) (by omega) (by
      intro op hop
      obtain ⟨s, hs, rfl⟩ := List.mem_map.mp hop
      have := script_in (S := fun _ => True) trivial trivial x (every_mono (fun _ _ => trivial) (fun _ h => h) x he) s hs
      unfold SStep.In at this
      cases h : s.toOp <;> rw [h] at this <;> first | trivial | skip
      exact ⟨this.1.1, this.1.2.2 rfl, this.2⟩)
    (script_plain (every_mono (fun _ h => h) (fun _ h => h.1) x he))
    (fun n hn => hsp.accepted (by omega) _ hn) hall _ hfin
  refine ⟨out, last, ?_, fun hroom => h3 hroom last (SharedKeys.Le.refl _) h5 h6⟩
  have := ser_bytes (F := F) (sk := some .new) (by rintro s ⟨⟩; exact SharedKeys.new_wf) hx he' (by omega) hbad h1 h2
  rw [h4] at this
  exact this

theorem plainKey_ne {shared : Bool} {k : RStr} (h : k.PlainKey shared) : k.bytes ≠ [] := by
  intro hc
  have := h.1
  rw [hc] at this
  simp at this

/-- **C38, without shared keys.** -/
theorem C38_small_partial (c : Cfg) (F : FloatOps) (N : NumOps) (types : List Ty) (ty : Ty) (x : SVal) (hty : HasTy types ty x)
    (hx : x.isScalar = false) (hret : x.Returns F) (he : x.Every Scalar.Plain (RStr.PlainKey false))
    (hsize : (x.tree F).weight ≤ SizedValue.maxNarrow) :
    ∃ out, Ser.toBytes c none x = .ok (.ok (out, none)) ∧
      ∀ m : Mem, m.data = out → m.base + out.length < 2 ^ 64 →
        ∃ depth, ∀ fuel, depth ≤ fuel → Ty.fromBytes ⟨m, F, N, none, types⟩ fuel ty = .ok x := by
  obtain ⟨out, h1, h2⟩ := ser_shows_small c F x (hasTy_noBadKey hty) hx he hsize
  exact ⟨out, h1, de_shows hty hret (every_mono (fun _ _ => trivial) (fun k hk => ⟨plainKey_ne hk, trivial⟩) x he) h2⟩

/-- **C38, with shared keys.** -/
theorem C38_shared_partial (c : Cfg) (F : FloatOps) (N : NumOps) (types : List Ty) (ty : Ty) (x : SVal) (hty : HasTy types ty x)
    (hx : x.isScalar = false) (hret : x.Returns F)
    (he : x.Every Scalar.Plain fun k => k.PlainKey true ∧ Sound c.chars k.bytes)
    (hsize : (x.tree F).weight ≤ SizedValue.maxNarrow) :
    ∃ out sk, Ser.toBytes c (some .new) x = .ok (.ok (out, some sk)) ∧
      (sk.entries.length < 2048 → ∀ m : Mem, m.data = out → m.base + out.length < 2 ^ 64 →
        ∃ depth, ∀ fuel, depth ≤ fuel → Ty.fromBytes ⟨m, F, N, some sk, types⟩ fuel ty = .ok x) := by
  obtain ⟨out, sk, h1, h2⟩ := ser_shows_shared c F x (hasTy_noBadKey hty) hx he hsize
  exact ⟨out, sk, h1, fun hroom =>
    de_shows hty hret (every_mono (fun _ _ => trivial) (fun k hk => ⟨plainKey_ne hk.1, hk.2⟩) x he) (h2 hroom)⟩

/-! ## Example -/

/-- `name` -/ def sName : RStr := ⟨[0x6e, 0x61, 0x6d, 0x65], by decide⟩
/-- `role` -/ def sRole : RStr := ⟨[0x72, 0x6f, 0x6c, 0x65], by decide⟩
/-- `tags` -/ def sTags : RStr := ⟨[0x74, 0x61, 0x67, 0x73], by decide⟩
/-- `next` -/ def sNext : RStr := ⟨[0x6e, 0x65, 0x78, 0x74], by decide⟩
/-- `Admin` -/ def sAdmin : RStr := ⟨[0x41, 0x64, 0x6d, 0x69, 0x6e], by decide⟩
/-- `Other` -/ def sOther : RStr := ⟨[0x4f, 0x74, 0x68, 0x65, 0x72], by decide⟩

/-- `struct Person { name: String, role: Role, tags: BTreeMap<String, (u8, bool)>, next: Option<Box<Person>> }` with
`enum Role { Admin, Other { role: f64 } }`. -/
def personTypes : List Ty :=
  [.struct [(sName, .string), (sRole, .enum [(sAdmin, .unit), (sOther, .struct [(sRole, .f64)])]),
    (sTags, .map (.tuple [.int .u8, .bool])), (sNext, .option (.named 0))]]

def person : SVal :=
  .struct [(sName, .prim (.str sTags)), (sRole, .structVariant sOther [(sRole, .prim (.f64 0))]),
    (sTags, .map [(.prim (.str sName), .tuple [.prim (.int .u8 255), .prim (.bool true)])]),
    (sNext, .some (.struct [(sName, .prim (.str sAdmin)), (sRole, .unitVariant sAdmin), (sTags, .map []), (sNext, .none)]))]

theorem person_typed : HasTy personTypes (.named 0) person := by
  have inner : HasTy personTypes (.named 0)
      (.struct [(sName, .prim (.str sAdmin)), (sRole, .unitVariant sAdmin), (sTags, .map []), (sNext, .none)]) := by
    refine .named rfl (.struct rfl (by decide) ?_)
    intro i f x hf hx
    match i with
    | 0 => cases hf; cases hx; exact .string _
    | 1 => cases hf; cases hx; exact .unitVariant (i := 0) (by decide) rfl
    | 2 => cases hf; cases hx; exact .map (kvs := []) .nil (by simp)
    | 3 => cases hf; cases hx; exact .none _
    | n + 4 => cases hf
  refine .named rfl (.struct rfl (by decide) ?_)
  intro i f x hf hx
  match i with
  | 0 => cases hf; cases hx; exact .string _
  | 1 =>
    cases hf; cases hx
    refine .structVariant (i := 1) (by decide) rfl rfl (by decide) ?_
    intro i f x hf hx
    match i with
    | 0 => cases hf; cases hx; exact .f64 _
    | n + 1 => cases hf
  | 2 =>
    cases hf; cases hx
    refine .map (kvs := [(sName, .tuple [.prim (.int .u8 255), .prim (.bool true)])]) (by simp) ?_
    intro e he
    simp only [List.mem_singleton] at he
    subst he
    refine .tuple rfl ?_
    intro i t x ht hx
    match i with
    | 0 => cases ht; cases hx; exact .int (holds_iff.mpr (by decide))
    | 1 => cases ht; cases hx; exact .bool _
    | n + 2 => cases ht
  | 3 => cases hf; cases hx; exact .some inner
  | n + 4 => cases hf

example (F : FloatOps) (N : NumOps) (hF : ∀ b, F.widen b = 0 → F.widen (F.narrow 0) = 0) :
    ∃ out, Ser.toBytes exampleCfg none person = .ok (.ok (out, none)) ∧
      ∀ m : Mem, m.data = out → m.base + out.length < 2 ^ 64 →
        ∃ depth, ∀ fuel, depth ≤ fuel → Ty.fromBytes ⟨m, F, N, none, personTypes⟩ fuel (.named 0) = .ok person := by
  refine C38_small_partial _ F N _ _ _ person_typed rfl ?_ ?_ ?_
  · simpa [person, SVal.Returns, SVal.ReturnsFields, SVal.ReturnsEntries, SVal.ReturnsAll, SVal.tree] using hF
  · simp [person, SVal.Every, SVal.EveryField, SVal.EveryEntry, SVal.EveryOf, Scalar.Plain, RStr.PlainKey, Prim.scalar,
      IntTy.scalar, Scalar.Survives, Scalar.Tiny, SVal.keyText, SVal.text, SVal.bare, sName, sRole, sTags, sNext, sAdmin, sOther]
  · simp [person, SVal.tree, SVal.fieldTrees, SVal.entryTrees, SVal.trees, Tree.weight, Tree.weights, Tree.entryWeights, sName,
      sRole, sTags, sNext, sAdmin, sOther, SVal.keyText, SVal.text, SVal.bare, Prim.scalar, IntTy.scalar, Scalar.tree, SizedValue.maxNarrow]

/-! ## Refutation -/

/-- `a` -/ def sa : RStr := ⟨[0x61], by decide⟩
/-- `A` -/ def sA : RStr := ⟨[0x41], by decide⟩

/-- The deserializer of bytes at address 0, outside any scope. -/
def plainCtx (F : FloatOps) (N : NumOps) (out : List UInt8) : DeCtx := ⟨⟨out, 0, true⟩, F, N, none, []⟩

/-- **C38 is false of the code.** Each of these values has the type given and is serialized without an error; a unit struct in
a tuple is then rejected; `(Some(None),)` comes back as `(None,)` and `N(vec![vec![]])` as `N(vec![])`; the structs with a field
`a` and the enum with a variant `A` are rejected. -/
theorem C38_refuted (F : FloatOps) (N : NumOps) :
    (∃ out, Ser.toBytes exampleCfg none (.tuple [.unitStruct]) = .ok (.ok (out, none)) ∧
      HasTy [] (.tuple [.unitStruct]) (.tuple [.unitStruct]) ∧
      ∀ fuel, Ty.fromBytes (plainCtx F N out) (fuel + 2) (.tuple [.unitStruct]) = .err .message) ∧
    (∃ out, Ser.toBytes exampleCfg none (.tuple [.some .none]) = .ok (.ok (out, none)) ∧
      HasTy [] (.tuple [.option (.option .bool)]) (.tuple [.some .none]) ∧
      ∀ fuel, Ty.fromBytes (plainCtx F N out) (fuel + 2) (.tuple [.option (.option .bool)]) = .ok (.tuple [.none])) ∧
    (∃ out, Ser.toBytes exampleCfg none (.newtypeStruct (.seq (some 1) [.seq (some 0) []])) = .ok (.ok (out, none)) ∧
      HasTy [] (.newtypeStruct (.seq (.seq .bool))) (.newtypeStruct (.seq (some 1) [.seq (some 0) []])) ∧
      ∀ fuel, Ty.fromBytes (plainCtx F N out) (fuel + 2) (.newtypeStruct (.seq (.seq .bool))) =
        .ok (.newtypeStruct (.seq (some 0) []))) ∧
    (∃ out, Ser.toBytes exampleCfg none (.struct [(sa, .prim (.bool true))]) = .ok (.ok (out, none)) ∧
      HasTy [] (.struct [(sa, .bool)]) (.struct [(sa, .prim (.bool true))]) ∧
      ∀ fuel, ∃ e, Ty.fromBytes (plainCtx F N out) (fuel + 2) (.struct [(sa, .bool)]) = .err e) ∧
    (∃ out, Ser.toBytes exampleCfg none (.unitVariant sA) = .ok (.ok (out, none)) ∧
      HasTy [] (.enum [(sA, .unit)]) (.unitVariant sA) ∧
      ∀ fuel, ∃ e, Ty.fromBytes (plainCtx F N out) (fuel + 2) (.enum [(sA, .unit)]) = .err e) := by
  have a1 : fromBytes ⟨[96, 1, 48, 0, 128, 2], 0, true⟩ = .ok ⟨0, 4⟩ := by decide +kernel
  have a2 : Val.type ⟨[96, 1, 48, 0, 128, 2], 0, true⟩ ⟨0, 4⟩ = .ok .array := by decide +kernel
  have a3 : Val.iter ⟨[96, 1, 48, 0, 128, 2], 0, true⟩ ⟨0, 4⟩ = .ok ⟨some ⟨2, 2⟩, 2, 0, 1⟩ := by decide +kernel
  have a4 : Iter.step ⟨[96, 1, 48, 0, 128, 2], 0, true⟩ ⟨some ⟨2, 2⟩, 2, 0, 1⟩ =
      .ok (some ⟨2, 2⟩, ⟨none, 2, 1, 1⟩) := by decide +kernel
  have a5 : Val.type ⟨[96, 1, 48, 0, 128, 2], 0, true⟩ ⟨2, 2⟩ = .ok .null := by decide +kernel
  refine ⟨⟨[96, 1, 48, 0, 128, 2], rfl, ?_, fun fuel => ?_⟩, ⟨[96, 1, 48, 0, 128, 2], rfl, ?_, fun fuel => ?_⟩,
    ⟨[96, 0, 96, 1, 128, 2, 128, 2], rfl, ?_, fun fuel => ?_⟩, ⟨[112, 1, 1, 97, 56, 0, 128, 3], rfl, ?_, fun fuel => ⟨.cannotDecodeSharedKeys, ?_⟩⟩,
    ⟨[96, 1, 1, 65, 128, 2], rfl, ?_, fun fuel => ⟨.message, ?_⟩⟩⟩
  · refine .tuple rfl ?_
    intro i t x ht hx
    match i with
    | 0 => cases ht; cases hx; exact .unitStruct
    | n + 1 => cases ht
  · simp [Ty.fromBytes, plainCtx, a1, dread_ok, De.new, a2, Ty.de, De.any, a3, De.each, De.next, a4, a5, ok_bind, pure_eq]
  · refine .tuple rfl ?_
    intro i t x ht hx
    match i with
    | 0 => cases ht; cases hx; exact .some (.none _)
    | n + 1 => cases ht
  · simp [Ty.fromBytes, plainCtx, a1, dread_ok, De.new, a2, Ty.de, De.any, a3, De.each, De.next, a4, a5, ok_bind, pure_eq]
  · exact .newtypeStruct (.seq (xs := [.seq (some 0) []]) (by
      intro x hx
      simp only [List.mem_singleton] at hx
      subst hx
      exact .seq (xs := []) (by simp)))
  · have h1 : fromBytes ⟨[96, 0, 96, 1, 128, 2, 128, 2], 0, true⟩ = .ok ⟨2, 4⟩ := by decide +kernel
    have h2 : Val.type ⟨[96, 0, 96, 1, 128, 2, 128, 2], 0, true⟩ ⟨2, 4⟩ = .ok .array := by decide +kernel
    have h3 : Val.iter ⟨[96, 0, 96, 1, 128, 2, 128, 2], 0, true⟩ ⟨2, 4⟩ = .ok ⟨some ⟨4, 2⟩, 2, 0, 1⟩ := by decide +kernel
    have h4 : Iter.step ⟨[96, 0, 96, 1, 128, 2, 128, 2], 0, true⟩ ⟨some ⟨4, 2⟩, 2, 0, 1⟩ =
        .ok (some ⟨0, 4⟩, ⟨none, 2, 1, 1⟩) := by decide +kernel
    have h5 : Val.type ⟨[96, 0, 96, 1, 128, 2, 128, 2], 0, true⟩ ⟨0, 4⟩ = .ok .array := by decide +kernel
    have h6 : Val.asArray ⟨[96, 0, 96, 1, 128, 2, 128, 2], 0, true⟩ ⟨0, 4⟩ = .ok (some ⟨0, 4⟩) := by decide +kernel
    have h7 : (do
        let it ← Val.iter ⟨[96, 0, 96, 1, 128, 2, 128, 2], 0, true⟩ ⟨0, 4⟩
        let p ← it.step ⟨[96, 0, 96, 1, 128, 2, 128, 2], 0, true⟩
        pure p.1) = .ok none := by decide +kernel
    obtain ⟨it, h8, h9⟩ := bind_eq_ok.mp h7
    obtain ⟨⟨o, it'⟩, h10, h11⟩ := bind_eq_ok.mp h9
    cases h11
    simp [Ty.fromBytes, plainCtx, h1, dread_ok, De.new, h2, Ty.de, De.any, h3, De.each, De.next, h4, h5, De.seq, h6, h8, De.all,
      h10, ok_bind, pure_eq]
  · refine .struct rfl (by decide) ?_
    intro i t x ht hx
    match i with
    | 0 => cases ht; cases hx; exact .bool _
    | n + 1 => cases ht
  · have h1 : fromBytes ⟨[112, 1, 1, 97, 56, 0, 128, 3], 0, true⟩ = .ok ⟨0, 6⟩ := by decide +kernel
    have h2 : Val.type ⟨[112, 1, 1, 97, 56, 0, 128, 3], 0, true⟩ ⟨0, 6⟩ = .ok .dict := by decide +kernel
    have h3 : Val.asDict ⟨[112, 1, 1, 97, 56, 0, 128, 3], 0, true⟩ ⟨0, 6⟩ = .ok (some ⟨0, 6⟩) := by decide +kernel
    have h4 : Val.dictIter ⟨[112, 1, 1, 97, 56, 0, 128, 3], 0, true⟩ ⟨0, 6⟩ = .ok ⟨some ⟨2, 2⟩, 2, 0, 2⟩ := by decide +kernel
    have h5 : Iter.step ⟨[112, 1, 1, 97, 56, 0, 128, 3], 0, true⟩ ⟨some ⟨2, 2⟩, 2, 0, 2⟩ =
        .ok (some ⟨2, 2⟩, ⟨some ⟨4, 2⟩, 2, 1, 2⟩) := by decide +kernel
    have h6 : Val.type ⟨[112, 1, 1, 97, 56, 0, 128, 3], 0, true⟩ ⟨2, 2⟩ = .ok .short := by decide +kernel
    have h7 : Val.getShort ⟨[112, 1, 1, 97, 56, 0, 128, 3], 0, true⟩ ⟨2, 2⟩ = .ok 0x161 := by decide +kernel
    have hid : De.ident (plainCtx F N [112, 1, 1, 97, 56, 0, 128, 3]) [sa] ⟨⟨2, 2⟩, true⟩ = .err .cannotDecodeSharedKeys := by
      simp only [De.ident, De.any, plainCtx, h6, dread_ok, ok_bind, if_true, Val.toUnsignedShort, h7, Option.bind_none]
      rfl
    have hn := next_ok (X := plainCtx F N [112, 1, 1, 97, 56, 0, 128, 3]) h5 ⟨_, h6, by simp⟩ true
    have hf : ∀ f, De.fields (plainCtx F N [112, 1, 1, 97, 56, 0, 128, 3]) (fuel + 1) f [(sa, .bool)] (2 + 1) ⟨some ⟨2, 2⟩, 2, 0, 2⟩ [none] = .err .cannotDecodeSharedKeys := by
      intro f
      unfold De.fields
      simp only [hn, ok_bind, List.map_cons, List.map_nil, hid]
      rfl
    have hnew := new_ok (X := plainCtx F N [112, 1, 1, 97, 56, 0, 128, 3]) (v := ⟨0, 6⟩) h2 (by simp) false false
    have hm : De.map (plainCtx F N [112, 1, 1, 97, 56, 0, 128, 3]) ⟨⟨0, 6⟩, false⟩ = .ok ⟨some ⟨2, 2⟩, 2, 0, 2⟩ := by
      simp only [De.map, plainCtx, h3, h4, dread_ok, ok_bind]
    unfold Ty.fromBytes
    rw [show fromBytes (plainCtx F N [112, 1, 1, 97, 56, 0, 128, 3]).m = _ from h1]
    simp only [dread_ok, ok_bind, hnew, Ty.de, hm, De.struct, List.map_cons, List.map_nil]
    rw [hf]
    rfl
  · exact .unitVariant (i := 0) (by decide) rfl
  · have h1 : fromBytes ⟨[96, 1, 1, 65, 128, 2], 0, true⟩ = .ok ⟨0, 4⟩ := by decide +kernel
    have h2 : Val.type ⟨[96, 1, 1, 65, 128, 2], 0, true⟩ ⟨0, 4⟩ = .ok .array := by decide +kernel
    have h3 : Val.get ⟨[96, 1, 1, 65, 128, 2], 0, true⟩ ⟨0, 4⟩ 0 = .ok (some ⟨2, 2⟩) := by decide +kernel
    have h4 : Val.isWide ⟨[96, 1, 1, 65, 128, 2], 0, true⟩ ⟨0, 4⟩ = .ok false := by decide +kernel
    have h5 : Val.type ⟨[96, 1, 1, 65, 128, 2], 0, true⟩ ⟨2, 2⟩ = .ok .short := by decide +kernel
    have h6 : Val.shortInt ⟨[96, 1, 1, 65, 128, 2], 0, true⟩ ⟨2, 2⟩ = .ok 0x141 := by decide +kernel
    have ha : Val.asArray ⟨[96, 1, 1, 65, 128, 2], 0, true⟩ ⟨0, 4⟩ = .ok (some ⟨0, 4⟩) := by decide +kernel
    have hid : De.ident (plainCtx F N [96, 1, 1, 65, 128, 2]) [sA] ⟨⟨2, 2⟩, false⟩ = .err .message := by
      simp only [De.ident, De.any, plainCtx, h5, dread_ok, ok_bind, Bool.false_eq_true, if_false, Val.toShort, h6, pure_eq]
    have hnew := new_ok (X := plainCtx F N [96, 1, 1, 65, 128, 2]) (v := ⟨0, 4⟩) h2 (by simp) false false
    have h7 : Val.iter ⟨[96, 1, 1, 65, 128, 2], 0, true⟩ ⟨0, 4⟩ = .ok ⟨some ⟨2, 2⟩, 2, 0, 1⟩ := by decide +kernel
    have h8 : Iter.step ⟨[96, 1, 1, 65, 128, 2], 0, true⟩ ⟨some ⟨2, 2⟩, 2, 0, 1⟩ = .ok (some ⟨2, 2⟩, ⟨none, 2, 1, 1⟩) := by
      decide +kernel
    have h9 : Iter.step ⟨[96, 1, 1, 65, 128, 2], 0, true⟩ ⟨none, 2, 1, 1⟩ = .ok (none, ⟨none, 2, 1, 1⟩) := by decide +kernel
    have hf : De.format (plainCtx F N [96, 1, 1, 65, 128, 2]) (fuel + 1) ⟨0, 4⟩ = .ok () := by
      simp only [De.format, plainCtx, Val.debugArray, h7, ok_bind, Iter.debugItems, h8, Val.debug, Val.debugField, h5, Val.toShort, h6, pure_eq,
        h9, dread_ok]
    have hp := part_ok (X := plainCtx F N [96, 1, 1, 65, 128, 2]) (v := ⟨0, 4⟩) (u := ⟨2, 2⟩) (i := 0) ⟨_, h2, by simp⟩
      ⟨_, h5, by simp⟩ hf h3
    unfold Ty.fromBytes
    rw [show fromBytes (plainCtx F N [96, 1, 1, 65, 128, 2]).m = _ from h1]
    simp only [dread_ok, ok_bind, hnew, Ty.de, De.enum, show Val.asArray (plainCtx F N [96, 1, 1, 65, 128, 2]).m ⟨0, 4⟩ = _ from ha,
      hp, List.map_cons, List.map_nil, hid]
    rfl

end Fleece.Props
