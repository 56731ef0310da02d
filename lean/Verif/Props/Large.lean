import Verif.Props.C20Large
import Verif.Props.C21
import Verif.Props.C26
import Verif.Props.C30
import Verif.Props.C36
import Verif.Props.C37
import Verif.Props.C38
import Verif.Props.C43
import Verif.Props.C44
import Verif.Props.C47

/-!
# Documents up to 1 GiB

What C20_large_partial means for reading (C21, C24, C26, C30), scopes (C36), copies (C37), serde (C38, C43), `fleece!` (C44)
and owned values (C47). The condition is everywhere that the document is roomy (Spec/Layout.lean).
-/

namespace Fleece.Props
open Fleece Res

/-- **C21, documents up to 1 GiB.** -/
theorem C21_large_partial (c : Cfg) (F : FloatOps) (sk : Option SharedKeys) (hsk : ∀ s, sk = some s → s.WF)
    (ops : List Op) (hsize : Op.total ops ≤ SizedValue.maxWide) (hsound : ∀ op ∈ ops, op.Sound sk.isSome)
    (hall : AllOk F {} ops) (hdang : ∀ kvs k rest, (Build.run F {} ops).1.stack ≠ .dict kvs (some k) :: rest) (t : Tree)
    (ht : (Build.run F {} ops).1.finish = some t) (hroom : t.Roomy sk.isSome) :
    ∃ e rs out, ({ Enc.new with sk } : Enc).run c ops = .ok (e, rs) ∧ e.finish c = .ok out ∧ Accepted out := by
  obtain ⟨e, rs, out, h1, _, h3, h4⟩ := C20_large_partial c F sk hsk ops hsize hsound hall hdang t ht hroom
  exact ⟨e, rs, out, h1, h3, accepted_of_decodes (h4 e.sk (.refl _))⟩

/-- **C24, documents up to 1 GiB.** -/
theorem C24_large_partial (c : Cfg) (F : FloatOps) (ops : List Op) (hsize : Op.total ops ≤ SizedValue.maxWide)
    (hsound : ∀ op ∈ ops, op.Sound false) (hall : AllOk F {} ops)
    (hdang : ∀ kvs k rest, (Build.run F {} ops).1.stack ≠ .dict kvs (some k) :: rest) (t : Tree)
    (ht : (Build.run F {} ops).1.finish = some t) (hroom : t.Roomy false) :
    ∃ e rs out, Enc.new.run c ops = .ok (e, rs) ∧ e.finish c = .ok out ∧ Shows F none (fun _ => True) out t := by
  obtain ⟨e, rs, out, h1, _, h3, _⟩ := C20_large_partial c F none (by simp) ops hsize hsound hall hdang t ht hroom
  obtain ⟨g1, g2⟩ := roomy_ok c F none (by simp) ops hsize hsound hall hdang t ht hroom e rs h1
  obtain ⟨out', k1, k2⟩ := C24_exact_partial c F ops hsize e rs h1 g1 g2 t ht
  exact ⟨e, rs, out', h1, k1, k2⟩

/-- **C26, documents up to 1 GiB.** -/
theorem C26_large_partial (c : Cfg) (F : FloatOps) (ops : List Op) (hsize : Op.total ops ≤ SizedValue.maxWide)
    (hsound : ∀ op ∈ ops, op.Sound false) (hall : AllOk F {} ops)
    (hdang : ∀ kvs k rest, (Build.run F {} ops).1.stack ≠ .dict kvs (some k) :: rest) (t : Tree)
    (ht : (Build.run F {} ops).1.finish = some t) (hroom : t.Roomy false) :
    ∃ e rs out, Enc.new.run c ops = .ok (e, rs) ∧ e.finish c = .ok out ∧
      ∀ m : Mem, m.data = out → m.base + out.length < 2 ^ 64 → ∃ v, fromBytes m = .ok v ∧
      (∀ xs, t = .arr xs → v.arrayLen m = .ok xs.length) ∧ (∀ kvs, t = .dict kvs → v.dictLen m = .ok kvs.length) := by
  obtain ⟨e, rs, out, h1, _, h3, _⟩ := C20_large_partial c F none (by simp) ops hsize hsound hall hdang t ht hroom
  obtain ⟨g1, g2⟩ := roomy_ok c F none (by simp) ops hsize hsound hall hdang t ht hroom e rs h1
  obtain ⟨out', k1, k2⟩ := C26_len_partial c F ops hsize e rs h1 g1 g2 t ht
  exact ⟨e, rs, out', h1, k1, k2⟩

/-- **C30, documents up to 1 GiB.** -/
theorem C30_large_partial (c : Cfg) (F : FloatOps) (sk : SharedKeys) (hsk : sk.WF) (htidy : sk.Tidy c.chars)
    (ops : List Op) (hsize : Op.total ops ≤ SizedValue.maxWide) (hgood : ∀ op ∈ ops, op.GoodKey c.chars)
    (hsound : ∀ op ∈ ops, op.Sound true) (hall : AllOk F {} ops)
    (hdang : ∀ kvs k rest, (Build.run F {} ops).1.stack ≠ .dict kvs (some k) :: rest) (t : Tree)
    (ht : (Build.run F {} ops).1.finish = some t) (hroom : t.Roomy true) :
    ∃ e rs out last, ({ Enc.new with sk := some sk } : Enc).run c ops = .ok (e, rs) ∧ e.finish c = .ok out ∧
      e.sk = some last ∧ last.WF ∧ last.Tidy c.chars ∧ sk.Le last ∧
      (last.entries.length < 2048 → ∀ sk', last.Le sk' → sk'.WF → sk'.Tidy c.chars →
        Shows F (some sk') (Sound c.chars) out t) := by
  have hsk0 : ∀ s, (some sk : Option SharedKeys) = some s → s.WF := by rintro s ⟨⟩; exact hsk
  obtain ⟨e, rs, out, h1, _, h3, _⟩ := C20_large_partial c F (some sk) hsk0 ops hsize hsound hall hdang t ht hroom
  obtain ⟨g1, g2⟩ := roomy_ok c F (some sk) hsk0 ops hsize hsound hall hdang t ht hroom e rs h1
  have hphi := newWith_phi (some sk)
  have hwf := newWith_wf hsk0
  obtain ⟨hw, hp, _, hskle⟩ := Enc.run_inv ops hwf (by omega) h1
  cases hl : e.sk with
  | none => rw [hl] at hskle; exact hskle.elim
  | some last =>
    rw [hl] at hskle
    refine ⟨e, rs, out, last, h1, h3, hl, hw.sk last hl,
      run_tidy ops hwf (by omega) hgood (by rintro s ⟨⟩; exact htidy) h1 last hl, hskle, ?_⟩
    intro hfull sk' hle hsk' htidy'
    obtain ⟨out', h4, h5⟩ := C30_exact_partial c F sk hsk ops hsize hgood e rs h1 g1 g2 last sk' hl hfull hle hsk' htidy' t ht
    rw [h3] at h4; cases h4
    exact h5

/-- **C36, `finish_scoped` of documents up to 1 GiB.** -/
theorem C36_finish_large_partial (r : Registry) (hr : r.poisoned = false) (base : Nat) (c : Cfg) (F : FloatOps)
    (sk : Option SharedKeys) (hsk : ∀ s, sk = some s → s.WF) (ops : List Op) (hsize : Op.total ops ≤ SizedValue.maxWide)
    (hsound : ∀ op ∈ ops, op.Sound sk.isSome) (hall : AllOk F {} ops)
    (hdang : ∀ kvs k rest, (Build.run F {} ops).1.stack ≠ .dict kvs (some k) :: rest) (t : Tree)
    (ht : (Build.run F {} ops).1.finish = some t) (hroom : t.Roomy sk.isSome) :
    ∃ e rs, ({ Enc.new with sk } : Enc).run c ops = .ok (e, rs) ∧
      ((∀ out, e.finish c = .ok out → base + out.length < 2 ^ 64) →
        ∃ out id s, e.finish c = .ok out ∧ (r.finishScoped c e base).2 = .ok id ∧
          (r.finishScoped c e base).1.scopes[id]? = some s ∧ s.root.isSome = true ∧ s.buf.data = out ∧
          ∀ a, base ≤ a → a < base + out.length → (r.finishScoped c e base).1.containing a = .ok (some id)) := by
  obtain ⟨e, rs, out, h1, _, h3, _⟩ := C20_large_partial c F sk hsk ops hsize hsound hall hdang t ht hroom
  obtain ⟨g1, g2⟩ := roomy_ok c F sk hsk ops hsize hsound hall hdang t ht hroom e rs h1
  exact ⟨e, rs, h1, C36_finish_partial r hr base c F sk hsk ops hsize e rs h1 g1 g2 (by rw [ht]; simp)⟩

/-- **C47, `finish_value`, documents up to 1 GiB.** -/
theorem C47_finish_value_large_partial (c : Cfg) (F : FloatOps) (ops : List Op) (hsize : Op.total ops ≤ SizedValue.maxWide)
    (hsound : ∀ op ∈ ops, op.Sound false) (hall : AllOk F {} ops)
    (hdang : ∀ kvs k rest, (Build.run F {} ops).1.stack ≠ .dict kvs (some k) :: rest) (t : Tree)
    (ht : (Build.run F {} ops).1.finish = some t) (hroom : t.Roomy false) :
    ∃ e rs out, Enc.new.run c ops = .ok (e, rs) ∧ e.finish c = .ok out ∧ ∀ base, base + out.length < 2 ^ 64 →
      ∃ v, e.finishValue c base = .ok ⟨⟨out, base, c.dbg⟩, v⟩ ∧ Holds F ⟨⟨out, base, c.dbg⟩, v⟩ t := by
  obtain ⟨e, rs, out, h1, h2, h3⟩ := C24_large_partial c F ops hsize hsound hall hdang t ht hroom
  exact ⟨e, rs, out, h1, h2, finishValue_shows h2 h3⟩

/-! ## Copies -/

/-- Every key among the calls is a key of the tree. -/
theorem spells_keyed {F : FloatOps} {K : List UInt8 → Prop} {t : Tree} {ops : List Op} (h : Spells F t ops) (hk : t.Keyed K) :
    ∀ k, Op.key k ∈ ops → K k.bytes := by
  induction h with
  | scalar keep => intro k hk; simp at hk
  | @arr xs parts n cap len each ih =>
    intro k hmem
    cases hk with
    | leaf na _ => exact absurd rfl (na _)
    | arr of =>
      simp only [List.mem_cons, List.mem_append, List.not_mem_nil, or_false, reduceCtorEq, false_or, List.mem_flatten] at hmem
      obtain ⟨p, hp, hkp⟩ := hmem
      obtain ⟨i, hi, rfl⟩ := List.mem_iff_getElem.mp hp
      have hx : i < xs.length := by omega
      exact ih i xs[i] parts[i] (List.getElem?_eq_getElem hx) (List.getElem?_eq_getElem hi) (of _ (List.getElem_mem hx)) k hkp
  | @dict kvs parts len keys each ih =>
    intro k hmem
    cases hk with
    | leaf _ nd => exact absurd rfl (nd _)
    | dict key of =>
      simp only [List.mem_cons, List.mem_append, List.not_mem_nil, or_false, reduceCtorEq, false_or, List.mem_flatten,
        List.mem_map] at hmem
      obtain ⟨_, ⟨p, hp, rfl⟩, hkp⟩ := hmem
      obtain ⟨i, hi, rfl⟩ := List.mem_iff_getElem.mp hp
      have hx : i < kvs.length := by omega
      have h1 : kvs[i]? = some kvs[i] := List.getElem?_eq_getElem hx
      have h2 : parts[i]? = some parts[i] := List.getElem?_eq_getElem hi
      rcases List.mem_cons.mp hkp with h | h
      · cases h
        rw [keys i _ _ h1 h2]
        exact key _ (List.getElem_mem hx)
      · exact ih i _ _ h1 h2 (of _ (List.getElem_mem hx)) k h

/-- A call whose values and keys the encoder keeps in roomy documents. -/
def _root_.Fleece.Call.Sound (F : FloatOps) (tree : Source → Tree) (shared : Bool) : Call → Prop
  | .op o => o.Sound shared
  | .fleece b => b.Good F (fun k => validUtf8 k = true) (tree b) ∧ (tree b).Keyed fun k => shared = true → k.length ≠ 16

theorem total_mem {ops : List Op} {op : Op} (h : op ∈ ops) : op.weight ≤ Op.total ops := by
  induction ops with
  | nil => simp at h
  | cons o ops ih =>
    rw [total_cons]
    rcases List.mem_cons.mp h with rfl | h
    · omega
    · have := ih h; omega

theorem spells_sound {F : FloatOps} {shared : Bool} {t : Tree} {ops : List Op} (h : Spells F t ops) (hw : t.weight < 2 ^ 60)
    (hk : t.Keyed fun k => shared = true → k.length ≠ 16) : ∀ op ∈ ops, op.Sound shared := by
  intro op hop
  have h1 := h.accepted hw op hop
  have h2 := total_mem hop
  rw [h.total] at h2
  cases op with
  | value x => exact h1
  | key k =>
    refine ⟨?_, spells_keyed h hk k hop⟩
    simp only [Op.weight] at h2
    omega
  | beginArray n => exact h1
  | _ => trivial

/-- **C37, documents up to 1 GiB.** -/
theorem C37_large_partial (c : Cfg) (F : FloatOps) (sk : Option SharedKeys) (hsk : ∀ s, sk = some s → s.WF)
    (tree : Source → Tree) (calls : List Call) (hsize : Call.total tree calls ≤ SizedValue.maxWide)
    (hsound : ∀ x ∈ calls, x.Sound F tree sk.isSome) (hall : ∀ r ∈ (Build.calls F tree {} calls).2, r = .ok ())
    (hdang : ∀ kvs k rest, (Build.calls F tree {} calls).1.stack ≠ .dict kvs (some k) :: rest) (t : Tree)
    (ht : (Build.calls F tree {} calls).1.finish = some t) (hroom : t.Roomy sk.isSome) :
    ∃ e rs out, ({ Enc.new with sk } : Enc).calls c F calls = .ok (e, rs) ∧ rs.length = calls.length ∧
      (∀ r ∈ rs, r = .ok ()) ∧ e.finish c = .ok out ∧ ∀ scope, ScopeLe e.sk scope → Decodes F scope out t := by
  have hmw : SizedValue.maxWide = 0x3fffffff := rfl
  obtain ⟨ops, h1, h2, h3, h4⟩ := calls_expand_as c F tree (fun op => op.Sound sk.isSome) calls (by
    intro x hx
    have := hsound x hx
    cases x with
    | op o => exact this
    | fleece b => exact ⟨this.1, fun ops h hw => spells_sound h hw this.2⟩) (by omega)
  have hrun := h3 {} hall
  obtain ⟨e, rs, out, g1, g2, g3, g4⟩ := C20_large_partial c F sk hsk ops (by omega) h2
    (by intro r hr; rw [hrun] at hr; exact (List.mem_replicate.mp hr).2) (by rw [hrun]; exact hdang) t (by rw [hrun]; exact ht)
    hroom
  obtain ⟨rs', k1, k2, k3⟩ := h4 _ _ _ g1 g2
  exact ⟨e, rs', out, k1, k2, k3, g3, g4⟩

/-! ## Serde -/

/-- Keys the encoder keeps in roomy documents. -/
def RStr.SoundKey (shared : Bool) (k : RStr) : Prop :=
  k.bytes.length < 2 ^ 63 ∧ (shared = true → k.bytes.length ≠ 16)

/-- Calls that spell a collection leave nothing open. -/
theorem spells_closed {F : FloatOps} {t : Tree} {ops : List Op} (h : Spells F t ops) (hc : (∃ xs, t = .arr xs) ∨ ∃ kvs, t = .dict kvs) :
    Build.run F {} ops = ({ stack := [], root := some t }, List.replicate ops.length (.ok ())) := by
  rcases hc with ⟨xs, rfl⟩ | ⟨kvs, rfl⟩
  · exact h.build (b := {}) rfl
  · exact h.build (b := {}) rfl

theorem accept_collection {t : Tree} {b : Build} (h : Build.accept {} t = .ok b) : (∃ xs, t = .arr xs) ∨ ∃ kvs, t = .dict kvs := by
  cases t with
  | arr xs => exact .inl ⟨xs, rfl⟩
  | dict kvs => exact .inr ⟨kvs, rfl⟩
  | _ => cases h

theorem script_sound {F : FloatOps} {x : SVal} {shared : Bool} (he : x.Every Scalar.Survives (RStr.SoundKey shared))
    (hsize : (x.tree F).weight < 2 ^ 60) : ∀ op ∈ x.script.map SStep.toOp, op.Sound shared := by
  have he' : x.Every Scalar.Survives fun _ => True := every_mono (fun _ h => h) (fun _ _ => trivial) x he
  have hsp := sval_spells F _ x he'
  intro op hop
  have hacc := hsp.accepted hsize op hop
  obtain ⟨s, hs, rfl⟩ := List.mem_map.mp hop
  have := script_in (S := Scalar.Survives) (by simp [Scalar.Survives]) (by simp [Scalar.Survives]) x he s hs
  unfold SStep.In at this
  cases h : s.toOp <;> rw [h] at this hacc <;> first | exact this | exact hacc | trivial

theorem ser_shows_large (c : Cfg) (F : FloatOps) (x : SVal) (hbad : x.badKey = none) (hx : x.isScalar = false)
    (he : x.Every Scalar.Survives (RStr.SoundKey false)) (hsize : (x.tree F).weight ≤ SizedValue.maxWide)
    (hroom : (x.tree F).Roomy false) :
    ∃ out, Ser.toBytes c none x = .ok (.ok (out, none)) ∧ Shows F none (fun _ => True) out (x.tree F) := by
  have hmw : SizedValue.maxWide = 0x3fffffff := rfl
  have he' : x.Every Scalar.Survives fun _ => True := every_mono (fun _ h => h) (fun _ _ => trivial) x he
  have hsp := sval_spells F _ x he'
  have htot := hsp.total
  obtain ⟨hall, hfin⟩ := ser_build (F := F) hx he'
  obtain ⟨b, hb⟩ := tree_collection F x hx
  have hrun := spells_closed hsp (accept_collection hb)
  obtain ⟨e, rs, out, h1, h2, h3⟩ := C24_large_partial c F (x.script.map SStep.toOp) (by omega) (script_sound (F := F) he (by omega))
    hall (by intro kvs k rest; rw [hrun]; simp) _ hfin hroom
  have hphi := newWith_phi none
  obtain ⟨_, _, _, hsk⟩ := Enc.run_inv (x.script.map SStep.toOp) (newWith_wf (sk := none) (by simp)) (by omega) h1
  have hnone : e.sk = none := by
    cases hs : e.sk with
    | none => rfl
    | some s => rw [hs] at hsk; exact hsk.elim
  refine ⟨out, ?_, h3⟩
  have := ser_bytes (F := F) (sk := none) (by simp) hx he' (by omega) hbad h1 h2
  rw [hnone] at this
  exact this

theorem ser_shows_large_shared (c : Cfg) (F : FloatOps) (x : SVal) (hbad : x.badKey = none) (hx : x.isScalar = false)
    (he : x.Every Scalar.Survives fun k => k.PlainKey true ∧ Sound c.chars k.bytes)
    (hsize : (x.tree F).weight ≤ SizedValue.maxWide) (hroom : (x.tree F).Roomy true) :
    ∃ out sk, Ser.toBytes c (some .new) x = .ok (.ok (out, some sk)) ∧
      (sk.entries.length < 2048 → Shows F (some sk) (Sound c.chars) out (x.tree F)) := by
  have hmw : SizedValue.maxWide = 0x3fffffff := rfl
  have he' : x.Every Scalar.Survives fun _ => True := every_mono (fun _ h => h) (fun _ _ => trivial) x he
  have hsp := sval_spells F _ x he'
  have htot := hsp.total
  obtain ⟨hall, hfin⟩ := ser_build (F := F) hx he'
  obtain ⟨b, hb⟩ := tree_collection F x hx
  have hrun := spells_closed hsp (accept_collection hb)
  obtain ⟨e, rs, out, last, h1, h2, h4, h5, h6, _, h3⟩ := C30_large_partial c F .new SharedKeys.new_wf (SharedKeys.new_tidy _)
    (x.script.map SStep.toOp) (by omega) (by
      intro op hop
      obtain ⟨s, hs, rfl⟩ := List.mem_map.mp hop
      have := script_in (S := fun _ => True) trivial trivial x (every_mono (fun _ _ => trivial) (fun _ h => h) x he) s hs
      unfold SStep.In at this
      cases h : s.toOp <;> rw [h] at this <;> first | trivial | skip
      exact ⟨this.1.1, this.1.2.2 rfl, this.2⟩)
    (script_sound (F := F) (every_mono (fun _ h => h) (fun _ h => ⟨h.1.2.1, h.1.2.2⟩) x he) (by omega))
    hall (by intro kvs k rest; rw [hrun]; simp) _ hfin hroom
  refine ⟨out, last, ?_, fun hroom => h3 hroom last (SharedKeys.Le.refl _) h5 h6⟩
  have := ser_bytes (F := F) (sk := some .new) (by rintro s ⟨⟩; exact SharedKeys.new_wf) hx he' (by omega) hbad h1 h2
  rw [h4] at this
  exact this

/-- **C38, without shared keys, up to 1 GiB.** -/
theorem C38_large_partial (c : Cfg) (F : FloatOps) (N : NumOps) (types : List Ty) (ty : Ty) (x : SVal) (hty : HasTy types ty x)
    (hx : x.isScalar = false) (hret : x.Returns F)
    (he : x.Every Scalar.Survives fun k => RStr.SoundKey false k ∧ k.bytes ≠ [])
    (hsize : (x.tree F).weight ≤ SizedValue.maxWide) (hroom : (x.tree F).Roomy false) :
    ∃ out, Ser.toBytes c none x = .ok (.ok (out, none)) ∧
      ∀ m : Mem, m.data = out → m.base + out.length < 2 ^ 64 →
        ∃ depth, ∀ fuel, depth ≤ fuel → Ty.fromBytes ⟨m, F, N, none, types⟩ fuel ty = .ok x := by
  obtain ⟨out, h1, h2⟩ := ser_shows_large c F x (hasTy_noBadKey hty) hx (every_mono (fun _ h => h) (fun _ h => h.1) x he) hsize hroom
  exact ⟨out, h1, de_shows hty hret (every_mono (fun _ _ => trivial) (fun k hk => ⟨hk.2, trivial⟩) x he) h2⟩

/-- **C38, with shared keys, up to 1 GiB.** -/
theorem C38_large_shared_partial (c : Cfg) (F : FloatOps) (N : NumOps) (types : List Ty) (ty : Ty) (x : SVal) (hty : HasTy types ty x)
    (hx : x.isScalar = false) (hret : x.Returns F)
    (he : x.Every Scalar.Survives fun k => k.PlainKey true ∧ Sound c.chars k.bytes)
    (hsize : (x.tree F).weight ≤ SizedValue.maxWide) (hroom : (x.tree F).Roomy true) :
    ∃ out sk, Ser.toBytes c (some .new) x = .ok (.ok (out, some sk)) ∧
      (sk.entries.length < 2048 → ∀ m : Mem, m.data = out → m.base + out.length < 2 ^ 64 →
        ∃ depth, ∀ fuel, depth ≤ fuel → Ty.fromBytes ⟨m, F, N, some sk, types⟩ fuel ty = .ok x) := by
  obtain ⟨out, sk, h1, h2⟩ := ser_shows_large_shared c F x (hasTy_noBadKey hty) hx he hsize hroom
  exact ⟨out, sk, h1, fun hroom =>
    de_shows hty hret (every_mono (fun _ _ => trivial) (fun k hk => ⟨plainKey_ne hk.1, hk.2⟩) x he) (h2 hroom)⟩

/-- **C43, types that change, up to 1 GiB.** -/
theorem C43_evolves_large_partial (c : Cfg) (F : FloatOps) (N : NumOps) (types : List Ty) (fs gs : List (RStr × Ty))
    (xs zs : List (RStr × SVal)) (hty : HasTy types (.struct fs) (.struct xs)) (hret : (SVal.struct xs).Returns F)
    (he : (SVal.struct xs).Every Scalar.Survives fun k => RStr.SoundKey false k ∧ k.bytes ≠ [])
    (hsize : ((SVal.struct xs).tree F).weight ≤ SizedValue.maxWide) (hroom : ((SVal.struct xs).tree F).Roomy false)
    (distinct : (gs.map (·.1)).Nodup) (names : zs.map (·.1) = gs.map (·.1))
    (each : ∀ (i : Nat) (g : RStr × Ty) (z : RStr × SVal), gs[i]? = some g → zs[i]? = some z →
      (∃ j : Nat, fs[j]? = some g ∧ xs[j]? = some (g.1, z.2)) ∨
      g.1 ∉ fs.map (·.1) ∧ (∃ t, g.2 = .option t) ∧ z.2 = .none) :
    ∃ out, Ser.toBytes c none (.struct xs) = .ok (.ok (out, none)) ∧
      ∀ m : Mem, m.data = out → m.base + out.length < 2 ^ 64 →
        ∃ depth, ∀ fuel, depth ≤ fuel → Ty.fromBytes ⟨m, F, N, none, types⟩ fuel (.struct gs) = .ok (.struct zs) := by
  obtain ⟨out, h1, h2⟩ := ser_shows_large c F (.struct xs) (hasTy_noBadKey hty) rfl
    (every_mono (fun _ h => h) (fun _ h => h.1) _ he) hsize hroom
  refine ⟨out, h1, C43_reads F N none types (fun _ => True) (.struct gs) _ _ out h2 ?_ ?_⟩
  · exact tree_keyed _ (every_mono (fun _ _ => trivial) (fun k hk => hk.2) _ he)
  · exact evolves_fits F N types fs gs xs zs hty hret (every_mono (fun _ _ => trivial) (fun _ _ => trivial) _ he) distinct names each

/-! ## The macro -/

/-- **C44, up to 1 GiB.** -/
theorem C44_large_partial (c : Cfg) (F : FloatOps) (l : Lit) (hc : l.Compiles)
    (he : l.Every Scalar.Survives (RStr.SoundKey false)) (hsize : (l.tree F).weight ≤ SizedValue.maxWide)
    (hroom : (l.tree F).Roomy false) :
    ∃ out, ∀ base, base + out.length < 2 ^ 64 →
      ∃ v, l.fleece c base = .ok ⟨⟨out, base, c.dbg⟩, v⟩ ∧ Holds F ⟨⟨out, base, c.dbg⟩, v⟩ (l.tree F) := by
  have hmw : SizedValue.maxWide = 0x3fffffff := rfl
  have he' := Lit.every_mono (K' := fun _ => True) (fun _ h => h) (fun _ _ => trivial) l he
  obtain ⟨e, rs, h1, h2, hall, hfin⟩ := lit_run c F l hc.1 he' (by omega)
  have hs := l.spells F _ he'
  have ht := hs.total
  have hcoll : (∃ xs, l.tree F = .arr xs) ∨ ∃ kvs, l.tree F = .dict kvs := by
    cases l with
    | val x => exact absurd rfl (hc.1 x)
    | arr xs => exact .inl ⟨_, by rw [Lit.tree]⟩
    | dict kvs => exact .inr ⟨_, by rw [Lit.tree]⟩
  have hrun := spells_closed hs hcoll
  obtain ⟨e', rs', out, g1, _, g2⟩ := C47_finish_value_large_partial c F l.ops (by omega) (fun op hop => by
      have h1 := Lit.ops_in l he op hop
      have h2 := hs.accepted (by omega) op hop
      unfold Op.In at h1
      cases op <;> first | exact h1 | exact h2 | trivial) hall (by intro kvs k rest; rw [hrun]; simp) _ hfin hroom
  rw [h1] at g1
  cases g1
  refine ⟨out, fun base hb => ?_⟩
  obtain ⟨v, k1, k2⟩ := g2 base hb
  refine ⟨v, ?_, k2⟩
  obtain ⟨_, t', hsame, hm⟩ := k2
  unfold Lit.fleece
  simp only [Lit.write_ops, Enc.runMust_run _ h1 h2, ok_bind, k1]
  cases l with
  | val x => exact absurd rfl (hc.1 x)
  | arr xs =>
    simp only [Lit.tree] at hsame
    have hty : v.type ⟨out, base, c.dbg⟩ = .ok .array := by
      cases hsame <;> exact (matches_type hm).1 ⟨_, rfl⟩
    simp only [Alloced.toArray, hty, ok_bind, pure_eq, if_true, unwrap, someUnchecked]
  | dict kvs =>
    simp only [Lit.tree] at hsame
    have hty : v.type ⟨out, base, c.dbg⟩ = .ok .dict := by
      cases hsame <;> exact (matches_type hm).2 ⟨_, rfl⟩
    simp only [Alloced.toDict, hty, ok_bind, pure_eq, if_true, unwrap, someUnchecked]

/-! ## An example -/

theorem roomy_strings (sh : Bool) (n : Nat) (h : 10000 ≤ n) : (Tree.arr (List.replicate n (.str [0x61, 0x62]))).Roomy sh := by
  refine .arr (.inl ⟨0, .str [0x61, 0x62], by rw [List.getElem?_replicate, if_pos (by omega)], by simp [Tree.Apart], ?_⟩) ?_
  · rw [List.drop_replicate, lows_replicate]
    show 0x3fff < 2 + (n - 1) * 2
    omega
  · intro x hx; rw [List.eq_of_mem_replicate hx]; exact .leaf (by simp) (by simp)

theorem weights_replicate (x : Tree) (n : Nat) : Tree.weights (List.replicate n x) = n * x.weight := by
  induction n with
  | zero => simp [Tree.weights]
  | succ n ih => rw [List.replicate_succ]; simp only [Tree.weights, ih, Nat.succ_mul]; omega

theorem trees_replicate (F : FloatOps) (x : SVal) (n : Nat) : SVal.trees F (List.replicate n x) = List.replicate n (x.tree F) := by
  induction n with
  | zero => simp [SVal.trees]
  | succ n ih => rw [List.replicate_succ]; simp only [SVal.trees, ih, List.replicate_succ]

/-- A `Vec<String>` of ten thousand up to forty million strings comes back. -/
theorem C38_large_vec (c : Cfg) (F : FloatOps) (N : NumOps) (n : Nat) (h1 : 10000 ≤ n) (h2 : n ≤ 40000000) :
    ∃ out, Ser.toBytes c none (.seq (some n) (List.replicate n (.prim (.str sab)))) = .ok (.ok (out, none)) ∧
      ∀ m : Mem, m.data = out → m.base + out.length < 2 ^ 64 → ∃ depth, ∀ fuel, depth ≤ fuel →
        Ty.fromBytes ⟨m, F, N, none, []⟩ fuel (.seq .string) = .ok (.seq (some n) (List.replicate n (.prim (.str sab)))) := by
  have htree : (SVal.seq (some n) (List.replicate n (.prim (.str sab)))).tree F = .arr (List.replicate n (.str [0x61, 0x62])) := by
    rw [SVal.tree, trees_replicate]; rfl
  have hmw : SizedValue.maxWide = 0x3fffffff := rfl
  refine C38_large_partial c F N [] (.seq .string) _ ?_ rfl ?_ ?_ ?_ ?_
  · have := HasTy.seq (types := []) (t := .string) (xs := List.replicate n (.prim (.str sab)))
      (fun x hx => by rw [List.eq_of_mem_replicate hx]; exact .string sab)
    rwa [List.length_replicate] at this
  · rw [SVal.Returns]
    clear htree h1 h2
    induction n with
    | zero => trivial
    | succ n ih => exact ⟨trivial, ih⟩
  · rw [SVal.Every]
    refine ⟨fun k hk => by cases hk; right; omega, ?_⟩
    clear htree h1 h2
    induction n with
    | zero => trivial
    | succ n ih => exact ⟨by simp [SVal.Every, Prim.scalar, Scalar.Survives, sab], ih⟩
  · rw [htree, Tree.weight, weights_replicate]
    have : (Tree.str [0x61, 0x62]).weight = 26 := rfl
    rw [this]; omega
  · rw [htree]; exact roomy_strings false n h1

end Fleece.Props
