import Verif.Props.C77Large
import Verif.Props.C30

/-!
# C77, lookup

`C77_refuted_lookup` needs a key written while the encoder had no table. If it has one from the start, and each that is given
goes on from the one in use, `get` finds what was written, with the conditions of C30.
-/

namespace Fleece.Props
open Fleece Res

theorem scopeLe_trans {a b d : Option SharedKeys} (h1 : ScopeLe a b) (h2 : ScopeLe b d) : ScopeLe a d := by
  intro sk hsk
  obtain ⟨sk1, hb, hle⟩ := h1 sk hsk
  obtain ⟨sk2, hd, hle'⟩ := h2 sk1 hb
  exact ⟨sk2, hd, List.IsPrefix.trans hle hle'⟩

/-- The encoder's last table goes on from its first. -/
theorem acts_grows (c : Cfg) (as : List Act) : ∀ {e e' : Enc} {rs : List (Except EncodeError Unit)}, e.WF →
    e.phi + Op.total (calls as) ≤ SizedValue.maxWide → Growing c e as → e.acts c as = .ok (e', rs) → ScopeLe e.sk e'.sk := by
  have hmw : SizedValue.maxWide < 2 ^ 32 := by decide
  induction as with
  | nil => intro e e' rs _ _ _ h; cases h; exact .refl _
  | cons a as ih =>
    intro e e' rs hw hp hg h
    cases a with
    | keys sk =>
      obtain ⟨g1, g2, g3⟩ := hg
      exact scopeLe_trans (scopeLe_of g2) (ih (e := e.setSharedKeys sk) (set_wf hw g1) hp g3 h)
    | call op =>
      simp only [calls] at hp
      rw [Op.total_cons] at hp
      unfold Enc.acts at h
      obtain ⟨⟨e1, r⟩, h1, h⟩ := bind_eq_ok.mp h
      obtain ⟨⟨e2, rs'⟩, h2, h⟩ := bind_eq_ok.mp h
      cases h
      have ht := Enc.step_trans hw (by omega) (by omega) h1
      obtain ⟨hw1, hp1⟩ := ht.inv hw (by omega) (by omega)
      exact scopeLe_trans (SkLe.scope (ht.grows hw (by omega)).2) (ih hw1 (by omega) (hg _ _ h1) h2)

/-- It is made of sound keys. -/
theorem acts_tidy (c : Cfg) (as : List Act) : ∀ {e e' : Enc} {rs : List (Except EncodeError Unit)}, e.WF →
    e.phi + Op.total (calls as) ≤ SizedValue.maxWide → (∀ op ∈ calls as, op.GoodKey c.chars) →
    (∀ s, Act.keys s ∈ as → s.WF ∧ s.Tidy c.chars) → (∀ s, e.sk = some s → s.Tidy c.chars) → e.acts c as = .ok (e', rs) →
    e'.WF ∧ ∀ s, e'.sk = some s → s.Tidy c.chars := by
  have hmw : SizedValue.maxWide < 2 ^ 32 := by decide
  induction as with
  | nil => intro e e' rs hw _ _ _ ht h; cases h; exact ⟨hw, ht⟩
  | cons a as ih =>
    intro e e' rs hw hp hg hk ht h
    cases a with
    | keys sk =>
      exact ih (e := e.setSharedKeys sk) (set_wf hw (hk sk (by simp)).1) hp hg (fun s hs => hk s (List.mem_cons_of_mem _ hs))
        (by rintro s ⟨⟩; exact (hk _ (by simp)).2) h
    | call op =>
      simp only [calls] at hp hg
      rw [Op.total_cons] at hp
      unfold Enc.acts at h
      obtain ⟨⟨e1, r⟩, h1, h⟩ := bind_eq_ok.mp h
      obtain ⟨⟨e2, rs'⟩, h2, h⟩ := bind_eq_ok.mp h
      cases h
      have htr := Enc.step_trans hw (by omega) (by omega) h1
      obtain ⟨hw1, hp1⟩ := htr.inv hw (by omega) (by omega)
      exact ih hw1 (by omega) (fun o ho => hg o (List.mem_cons_of_mem _ ho)) (fun s hs => hk s (List.mem_cons_of_mem _ hs))
        (htr.tidy (hg op (by simp)) ht) h2

/-- Keys kept as strings are in no later table. -/
theorem acts_keys {c : Cfg} {sk' : SharedKeys} (ht : sk'.Tidy c.chars) (as : List Act) :
    ∀ {e e' : Enc} {rs : List (Except EncodeError Unit)} {last : SharedKeys}, e.WF → e.sk.isSome = true →
    e.phi + Op.total (calls as) ≤ SizedValue.maxWide → (∀ op ∈ calls as, op.GoodKey c.chars) → Growing c e as →
    e.acts c as = .ok (e', rs) → e'.sk = some last → last.entries.length < 2048 →
    ActsKeys c (fun s => sk'.encode s = none) e as := by
  have hmw : SizedValue.maxWide < 2 ^ 32 := by decide
  induction as with
  | nil => intros; trivial
  | cons a as ih =>
    intro e e' rs last hw hsome hp hgk hg h hl hroom
    have hgrow := acts_grows c (a :: as) hw hp hg h
    cases a with
    | keys sk =>
      obtain ⟨g1, g2, g3⟩ := hg
      exact ih (e := e.setSharedKeys sk) (set_wf hw g1) rfl hp hgk g3 h hl hroom
    | call op =>
      simp only [calls] at hp hgk
      rw [Op.total_cons] at hp
      unfold Enc.acts at h
      obtain ⟨⟨e1, r⟩, h1, h⟩ := bind_eq_ok.mp h
      obtain ⟨⟨e2, rs'⟩, h2, h⟩ := bind_eq_ok.mp h
      cases h
      have htr := Enc.step_trans hw (by omega) (by omega) h1
      obtain ⟨hw1, hp1⟩ := htr.inv hw (by omega) (by omega)
      refine ⟨?_, ?_⟩
      · intro k hop hkept
        have hk := hgk op (by simp)
        subst hop
        obtain ⟨sk, hsk⟩ := Option.isSome_iff_exists.mp hsome
        obtain ⟨x, hx, hle⟩ := hgrow sk hsk
        rw [hl] at hx; cases hx
        have := List.IsPrefix.length_le hle
        exact hkept.unknown hsk (hw.sk sk hsk) (by omega) hk.1 hk.2.2 ht
      · intro e3 r3 hstep
        rw [h1] at hstep; cases hstep
        exact ih hw1 (by rw [(htr.sk_isSome hw (by omega)).isSome]; exact hsome) (by omega)
          (fun o ho => hgk o (List.mem_cons_of_mem _ ho)) (hg _ _ h1) h2 hl hroom

/-- **C77, lookup, if the encoder has a table from the start and each that is given goes on from the one in use.** Documents up
to 16383 bytes; keys and tables as in C30, and the table not full in the end. Every dict of the document is found by `get`
under every later table. Missing from the full claim: the other tables and keys, for which it is false. -/
theorem C77_lookup_partial (c : Cfg) (F : FloatOps) (sk : SharedKeys) (hsk : sk.WF) (htidy : sk.Tidy c.chars) (as : List Act)
    (hsize : Op.total (calls as) ≤ SizedValue.maxNarrow) (hgood : ∀ op ∈ calls as, op.GoodKey c.chars)
    (hplain : ∀ op ∈ calls as, op.Plain true) (hcap : ∀ n, Op.beginArray n ∈ calls as → n * 4 < 2 ^ 63)
    (htables : ∀ s, Act.keys s ∈ as → s.WF ∧ s.Tidy c.chars) (hall : AllOk F {} (calls as))
    (hg : Growing c { Enc.new with sk := some sk } as) (t : Tree) (ht : (Build.run F {} (calls as)).1.finish = some t) :
    ∃ e rs out last, ({ Enc.new with sk := some sk } : Enc).acts c as = .ok (e, rs) ∧ (∀ r ∈ rs, r = .ok ()) ∧
      e.finish c = .ok out ∧ e.sk = some last ∧ last.WF ∧ last.Tidy c.chars ∧ sk.Le last ∧
      (last.entries.length < 2048 → ∀ sk', last.Le sk' → sk'.WF → sk'.Tidy c.chars →
        Shows F (some sk') (Sound c.chars) out t) := by
  have hmn : SizedValue.maxNarrow ≤ SizedValue.maxWide := by decide
  have hsk0 : ∀ s, (some sk : Option SharedKeys) = some s → s.WF := by rintro s ⟨⟩; exact hsk
  have hphi := newWith_phi (some sk)
  have hwf := newWith_wf hsk0
  have hacc : ∀ op ∈ calls as, op.Accepted := by
    intro op hop
    have := hplain op hop
    cases op with
    | beginArray n => exact hcap n hop
    | beginDict => trivial
    | key k => simp only [Op.Accepted]; try exact this.2.1
    | value x => exact this.1
    | endArray => trivial
    | endDict => trivial
  have hor := hall.orderly _ (by simp)
  obtain ⟨e, rs, h⟩ := acts_ok c as hwf (by omega) hacc (fun s hs => (htables s hs).1)
  obtain ⟨g1, g2⟩ := C77_growing_partial c F (some sk) hsk0 as hsize hplain hor hg e rs h
  obtain ⟨out, g3, _⟩ := g2 t ht
  obtain ⟨hw, hti⟩ := acts_tidy c as hwf (by omega) hgood htables (by rintro s ⟨⟩; exact htidy) h
  obtain ⟨last, hl, hle⟩ := acts_grows c as hwf (by omega) hg h sk rfl
  refine ⟨e, rs, out, last, h, by rw [g1]; exact hall, g3, hl, hw.sk last hl, hti last hl, hle, ?_⟩
  intro hroom sk' hle' hsk' htidy'
  have hkeys := acts_keys htidy' as hwf rfl (by omega) hgood hg h hl hroom
  obtain ⟨h1, h2, h3, h4, h5, _⟩ := acts_go c F as hwf (newWith_nested _) (newWith_clean _) (by omega) (Sim.new F _) hplain hor
    hg hkeys h
  obtain ⟨out', k1, k2⟩ := h1.shows h2 h3 (by omega) (clean_finish _ h2 h4 h5) ht (scope := some sk')
    (by rw [hl]; rintro s ⟨⟩; exact ⟨sk', rfl, hle'⟩)
    (by rintro s ⟨⟩; exact ⟨hsk', fun x hx => (htidy' x hx).1, fun _ h => h⟩)
  rw [g3] at k1; cases k1
  exact k2.weaken fun k hk => hk.probe htidy'

/-- **C77, lookup, documents up to 1 GiB.** The same of documents that are roomy even if all their keys were shared. -/
theorem C77_lookup_large_partial (c : Cfg) (F : FloatOps) (sk : SharedKeys) (hsk : sk.WF) (htidy : sk.Tidy c.chars)
    (as : List Act) (hsize : Op.total (calls as) ≤ SizedValue.maxWide) (hgood : ∀ op ∈ calls as, op.GoodKey c.chars)
    (hsound : ∀ op ∈ calls as, op.Sound true) (htables : ∀ s, Act.keys s ∈ as → s.WF ∧ s.Tidy c.chars)
    (hall : AllOk F {} (calls as))
    (hdang : ∀ kvs k rest, (Build.run F {} (calls as)).1.stack ≠ .dict kvs (some k) :: rest)
    (hg : Growing c { Enc.new with sk := some sk } as) (t : Tree) (ht : (Build.run F {} (calls as)).1.finish = some t)
    (hroomy : t.Roomy true) :
    ∃ e rs out last, ({ Enc.new with sk := some sk } : Enc).acts c as = .ok (e, rs) ∧ (∀ r ∈ rs, r = .ok ()) ∧
      e.finish c = .ok out ∧ e.sk = some last ∧ last.WF ∧ last.Tidy c.chars ∧ sk.Le last ∧
      (last.entries.length < 2048 → ∀ sk', last.Le sk' → sk'.WF → sk'.Tidy c.chars →
        Shows F (some sk') (Sound c.chars) out t) := by
  have hsk0 : ∀ s, (some sk : Option SharedKeys) = some s → s.WF := by rintro s ⟨⟩; exact hsk
  have hphi := newWith_phi (some sk)
  have hwf := newWith_wf hsk0
  obtain ⟨e, rs, out, h, hrs, hout, _⟩ := C77_large_partial c F (some sk) hsk0 as hsize hsound (fun s hs => (htables s hs).1) hall
    hdang hg t ht hroomy
  obtain ⟨hw, hti⟩ := acts_tidy c as hwf (by omega) hgood htables (by rintro s ⟨⟩; exact htidy) h
  obtain ⟨last, hl, hle⟩ := acts_grows c as hwf (by omega) hg h sk rfl
  refine ⟨e, rs, out, last, h, hrs, hout, hl, hw.sk last hl, hti last hl, hle, ?_⟩
  intro hroom sk' hle' hsk' htidy'
  have hkeys := acts_keys htidy' as hwf rfl (by omega) hgood hg h hl hroom
  obtain ⟨h1, h2, h3, h4, hf, _⟩ := large_end c F (some sk) hsk0 as hsize hsound hall hdang hg hkeys t ht hroomy e rs h
  obtain ⟨out', k1, k2⟩ := h1.shows h2 h3 h4 hf ht (scope := some sk')
    (by rw [hl]; rintro s ⟨⟩; exact ⟨sk', rfl, hle'⟩)
    (by rintro s ⟨⟩; exact ⟨hsk', fun x hx => (htidy' x hx).1, fun _ h => h⟩)
  rw [hout] at k1; cases k1
  exact k2.weaken fun k hk => hk.probe htidy'

/-! ## Tables given later -/

/-- The keys written before any table is given. -/
def textKeys : List Act → List (List UInt8)
  | [] => []
  | .call (.key k) :: as => k.bytes :: textKeys as
  | .call _ :: as => textKeys as
  | .keys _ :: _ => []

theorem textKeys_tail {op : Op} {as : List Act} {k : List UInt8} (h : k ∈ textKeys as) : k ∈ textKeys (.call op :: as) := by
  cases op <;> first | exact h | exact List.mem_cons_of_mem _ h

theorem acts_keys_late {c : Cfg} {sk' : SharedKeys} (ht : sk'.Tidy c.chars) (as : List Act) :
    ∀ {e e' : Enc} {rs : List (Except EncodeError Unit)} {last : SharedKeys}, e.WF → e.sk = none →
    e.phi + Op.total (calls as) ≤ SizedValue.maxWide → (∀ op ∈ calls as, op.GoodKey c.chars) → Growing c e as →
    e.acts c as = .ok (e', rs) → e'.sk = some last → last.entries.length < 2048 → (∀ k ∈ textKeys as, sk'.encode k = none) →
    ActsKeys c (fun s => sk'.encode s = none) e as := by
  have hmw : SizedValue.maxWide < 2 ^ 32 := by decide
  induction as with
  | nil => intros; trivial
  | cons a as ih =>
    intro e e' rs last hw hnone hp hgk hg h hl hroom htext
    cases a with
    | keys sk =>
      obtain ⟨g1, g2, g3⟩ := hg
      exact acts_keys ht as (e := e.setSharedKeys sk) (set_wf hw g1) rfl hp hgk g3 h hl hroom
    | call op =>
      simp only [calls] at hp hgk
      rw [Op.total_cons] at hp
      unfold Enc.acts at h
      obtain ⟨⟨e1, r⟩, h1, h⟩ := bind_eq_ok.mp h
      obtain ⟨⟨e2, rs'⟩, h2, h⟩ := bind_eq_ok.mp h
      cases h
      have htr := Enc.step_trans hw (by omega) (by omega) h1
      obtain ⟨hw1, hp1⟩ := htr.inv hw (by omega) (by omega)
      refine ⟨?_, ?_⟩
      · intro k hop _
        subst hop
        exact htext k.bytes (by simp [textKeys])
      · intro e3 r3 hstep
        rw [h1] at hstep; cases hstep
        have hsome := (htr.sk_isSome hw (by omega)).isSome
        rw [hnone] at hsome
        exact ih hw1 (Option.isNone_iff_eq_none.mp (by simpa using hsome)) (by omega)
          (fun o ho => hgk o (List.mem_cons_of_mem _ ho)) (hg _ _ h1) h2 hl hroom (fun k hk => htext k (textKeys_tail hk))

/-- **C77, lookup, if the encoder has no table at first.** As `C77_lookup_partial`: every dict of the document is found by `get`
under every later table that has none of the keys written before the first one was given. (If it has one of them,
`C77_refuted_lookup` shows what may happen.) -/
theorem C77_lookup_late_partial (c : Cfg) (F : FloatOps) (as : List Act)
    (hsize : Op.total (calls as) ≤ SizedValue.maxNarrow) (hgood : ∀ op ∈ calls as, op.GoodKey c.chars)
    (hplain : ∀ op ∈ calls as, op.Plain true) (hall : AllOk F {} (calls as)) (hg : Growing c Enc.new as) (t : Tree)
    (ht : (Build.run F {} (calls as)).1.finish = some t) (e : Enc) (rs : List (Except EncodeError Unit))
    (h : Enc.new.acts c as = .ok (e, rs)) (last : SharedKeys) (hl : e.sk = some last) (hroom : last.entries.length < 2048)
    (sk' : SharedKeys) (hle : last.Le sk') (hsk' : sk'.WF) (htidy' : sk'.Tidy c.chars)
    (htext : ∀ k ∈ textKeys as, sk'.encode k = none) :
    ∃ out, e.finish c = .ok out ∧ Shows F (some sk') (Sound c.chars) out t := by
  have hmn : SizedValue.maxNarrow ≤ SizedValue.maxWide := by decide
  have hphi := newWith_phi none
  have hwf : ({ Enc.new with sk := none } : Enc).WF := newWith_wf (by simp)
  have hkeys := acts_keys_late htidy' as hwf rfl (by omega) hgood hg h hl hroom htext
  obtain ⟨h1, h2, h3, h4, h5, _⟩ := acts_go c F as hwf (newWith_nested none) (newWith_clean none) (by omega) (Sim.new F none)
    hplain (hall.orderly _ (by simp)) hg hkeys h
  obtain ⟨out, k1, k2⟩ := h1.shows h2 h3 (by omega) (clean_finish _ h2 h4 h5) ht (scope := some sk')
    (by rw [hl]; rintro s ⟨⟩; exact ⟨sk', rfl, hle⟩)
    (by rintro s ⟨⟩; exact ⟨hsk', fun x hx => (htidy' x hx).1, fun _ h => h⟩)
  exact ⟨out, k1, k2.weaken fun k hk => hk.probe htidy'⟩

/-- **C77, lookup, if the encoder has no table at first, documents up to 1 GiB.** -/
theorem C77_lookup_late_large_partial (c : Cfg) (F : FloatOps) (as : List Act)
    (hsize : Op.total (calls as) ≤ SizedValue.maxWide) (hgood : ∀ op ∈ calls as, op.GoodKey c.chars)
    (hsound : ∀ op ∈ calls as, op.Sound true) (hall : AllOk F {} (calls as))
    (hdang : ∀ kvs k rest, (Build.run F {} (calls as)).1.stack ≠ .dict kvs (some k) :: rest) (hg : Growing c Enc.new as)
    (t : Tree) (ht : (Build.run F {} (calls as)).1.finish = some t) (hroomy : t.Roomy true) (e : Enc)
    (rs : List (Except EncodeError Unit)) (h : Enc.new.acts c as = .ok (e, rs)) (last : SharedKeys) (hl : e.sk = some last)
    (hroom : last.entries.length < 2048) (sk' : SharedKeys) (hle : last.Le sk') (hsk' : sk'.WF) (htidy' : sk'.Tidy c.chars)
    (htext : ∀ k ∈ textKeys as, sk'.encode k = none) :
    ∃ out, e.finish c = .ok out ∧ Shows F (some sk') (Sound c.chars) out t := by
  have hphi := newWith_phi none
  have hwf : ({ Enc.new with sk := none } : Enc).WF := newWith_wf (by simp)
  have hkeys := acts_keys_late htidy' as hwf rfl (by omega) hgood hg h hl hroom htext
  obtain ⟨h1, h2, h3, h4, hf, _⟩ := large_end c F none (by simp) as hsize hsound hall hdang hg hkeys t ht hroomy e rs h
  obtain ⟨out, k1, k2⟩ := h1.shows h2 h3 h4 hf ht (scope := some sk')
    (by rw [hl]; rintro s ⟨⟩; exact ⟨sk', rfl, hle⟩)
    (by rintro s ⟨⟩; exact ⟨hsk', fun x hx => (htidy' x hx).1, fun _ h => h⟩)
  exact ⟨out, k1, k2.weaken fun k hk => hk.probe htidy'⟩

/-! ## A concrete case -/

/-- `{"aa": null, "bb": null}`: `"aa"` gets the code 0 of a new table, `"bb"` has the code 1 in the one that is given then. -/
def twoTables : List Act :=
  [.call .beginDict, .call (.key saa), .keys aabb, .call (.value .null), .call (.key sbb), .call (.value .null), .call .endDict]

theorem twoTables_growing : Growing exampleCfg { Enc.new with sk := some .new } twoTables := by
  intro e1 r1 h1 e2 r2 h2
  refine ⟨aabb_wf, ?_, fun _ _ _ _ _ _ _ _ _ _ _ _ => trivial⟩
  have hk : Eligible exampleCfg saa := ⟨by decide, by decide, by decide +kernel⟩
  cases h1
  cases (step_key hk).symm.trans h2
  intro old h
  cases h
  exact ⟨[([0x62, 0x62], 1)], rfl⟩

theorem aabb_tidy : aabb.Tidy exampleCfg.chars := by
  have : ∀ e ∈ aabb.entries, e.1 = [0x61, 0x61] ∨ e.1 = [0x62, 0x62] := by decide
  intro e he
  rcases this e he with h | h <;> rw [h] <;> decide +kernel

/-- The hypotheses of `C77_lookup_partial` hold of it, and its table is not full in the end. -/
example (F : FloatOps) : ∃ e rs out, ({ Enc.new with sk := some .new } : Enc).acts exampleCfg twoTables = .ok (e, rs) ∧
    e.finish exampleCfg = .ok out ∧
    Shows F e.sk (Sound exampleCfg.chars) out (.dict [([0x61, 0x61], .null), ([0x62, 0x62], .null)]) := by
  have hs1 : Sound exampleCfg.chars saa.bytes := sound_short _ (by decide) (by decide)
  have hs2 : Sound exampleCfg.chars sbb.bytes := sound_short _ (by decide) (by decide)
  obtain ⟨e, rs, out, last, h1, _, h2, h3, h4, h5, _, h6⟩ := C77_lookup_partial exampleCfg F .new SharedKeys.new_wf
    (SharedKeys.new_tidy _) twoTables (by decide) (by
      intro op hop
      simp only [twoTables, calls, List.mem_cons, List.not_mem_nil, or_false] at hop
      rcases hop with rfl | rfl | rfl | rfl | rfl | rfl <;>
        first | trivial | exact ⟨by decide, by decide, by assumption⟩) (by
      intro op hop
      simp only [twoTables, calls, List.mem_cons, List.not_mem_nil, or_false] at hop
      rcases hop with rfl | rfl | rfl | rfl | rfl | rfl <;> simp [Op.Plain, Scalar.Survives, Scalar.Tiny, saa, sbb]) (by
      intro n hn
      simp [twoTables, calls] at hn) (by
      intro s hs
      simp only [twoTables, List.mem_cons, reduceCtorEq, Act.keys.injEq, List.not_mem_nil, or_false, false_or] at hs
      rw [hs]; exact ⟨aabb_wf, aabb_tidy⟩) (by
      intro r hr
      simp [twoTables, calls, Build.run, Build.next, Build.step, Build.open, Build.put, Build.close] at hr
      exact hr) twoTables_growing _ rfl
  have hlast : last.entries.length < 2048 := by
    cases h1
    cases h3
    decide +kernel
  exact ⟨e, rs, out, h1, h2, by rw [h3]; exact h6 hlast last (List.prefix_refl _) h4 h5⟩

/-- A table given after `"aa"` has been written, which does not have it. -/
def lateTable : List Act :=
  [.call .beginDict, .call (.key saa), .call (.value .null), .keys .new, .call (.key sbb), .call (.value .null), .call .endDict]

/-- The hypotheses of `C77_lookup_late_partial` hold of it. -/
example (F : FloatOps) : ∃ e rs out, Enc.new.acts exampleCfg lateTable = .ok (e, rs) ∧ e.finish exampleCfg = .ok out ∧
    Shows F e.sk (Sound exampleCfg.chars) out (.dict [([0x61, 0x61], .null), ([0x62, 0x62], .null)]) := by
  have hs1 : Sound exampleCfg.chars saa.bytes := sound_short _ (by decide) (by decide)
  have hs2 : Sound exampleCfg.chars sbb.bytes := sound_short _ (by decide) (by decide)
  have hg : Growing exampleCfg Enc.new lateTable :=
    growing_once exampleCfg [.beginDict, .key saa, .value .null] [.key sbb, .value .null, .endDict] SharedKeys.new_wf (by decide)
  have hti : (⟨[([0x62, 0x62], 0)]⟩ : SharedKeys).Tidy exampleCfg.chars := by
    intro e he; rw [List.mem_singleton.mp he]; decide +kernel
  have hplain : ∀ op ∈ calls lateTable, op.Plain true := by
    intro op hop
    simp only [lateTable, calls, List.mem_cons, List.not_mem_nil, or_false] at hop
    rcases hop with rfl | rfl | rfl | rfl | rfl | rfl <;> simp [Op.Plain, Scalar.Survives, Scalar.Tiny, saa, sbb]
  have hrun : ∃ e rs, Enc.new.acts exampleCfg lateTable = .ok (e, rs) ∧ e.sk = some ⟨[([0x62, 0x62], 0)]⟩ := ⟨_, _, rfl, rfl⟩
  obtain ⟨e, rs, h, hl⟩ := hrun
  have hw := (acts_tidy exampleCfg lateTable (e := { Enc.new with sk := none }) (newWith_wf (by simp)) (by decide) (by
      intro op hop
      simp only [lateTable, calls, List.mem_cons, List.not_mem_nil, or_false] at hop
      rcases hop with rfl | rfl | rfl | rfl | rfl | rfl <;>
        first | trivial | exact ⟨by decide, by decide, by assumption⟩) (by
      intro s hs
      simp only [lateTable, List.mem_cons, reduceCtorEq, Act.keys.injEq, List.not_mem_nil, or_false, false_or] at hs
      rw [hs]; exact ⟨SharedKeys.new_wf, SharedKeys.new_tidy _⟩) (by simp) h).1.sk _ hl
  obtain ⟨out, h1, h2⟩ := C77_lookup_late_partial exampleCfg F lateTable (by decide) (by
      intro op hop
      simp only [lateTable, calls, List.mem_cons, List.not_mem_nil, or_false] at hop
      rcases hop with rfl | rfl | rfl | rfl | rfl | rfl <;>
        first | trivial | exact ⟨by decide, by decide, by assumption⟩) hplain (by
      intro r hr
      simp [lateTable, calls, Build.run, Build.next, Build.step, Build.open, Build.put, Build.close] at hr
      exact hr) hg _ rfl e rs h _ hl (by decide) _ (List.prefix_refl _) hw hti (by decide +kernel)
  exact ⟨e, rs, out, h, h1, by rw [hl]; exact h2⟩

end Fleece.Props
