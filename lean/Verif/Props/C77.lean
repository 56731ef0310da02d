import Verif.Props.C20
import Verif.Props.C72
import Verif.Props.C59

/-!
# C77 Shared keys can be given to the encoder at any time

Full claim: `set_shared_keys` may be called at any time, and any number of times, between the other calls; the bytes of
`finish` decode, under the table the encoder has at the end, to the document the other calls describe, and `get` finds its
keys. It is false: a table that does not go on from the one in use loses keys already written (`C77_refuted_lost`), or turns
them into others (`C77_refuted_renamed`), and keys written before a table that has them is given are not found by `get`
(`C77_refuted_lookup`). If each table goes on from the one in use, the document decodes (`C77_growing_partial`); if it also has one
from the start, `get` finds its keys (`C77_lookup_partial`, Props/C77Lookup.lean).
-/

namespace Fleece.Props
open Fleece Res

/-- The calls, without `set_shared_keys`. -/
def calls : List Act → List Op
  | [] => []
  | .call op :: as => op :: calls as
  | .keys _ :: as => calls as

/-- Each table that is given has all entries of the one in use at that moment, under the same codes. (If none is in use, any
table will do.) -/
def Growing (c : Cfg) : Enc → List Act → Prop
  | _, [] => True
  | e, .call op :: as => ∀ e' r, e.step c op = .ok (e', r) → Growing c e' as
  | e, .keys sk :: as => sk.WF ∧ (∀ old, e.sk = some old → old.entries <+: sk.entries) ∧ Growing c (e.setSharedKeys sk) as

/-- Keys kept as strings satisfy `P`. -/
def ActsKeys (c : Cfg) (P : List UInt8 → Prop) : Enc → List Act → Prop
  | _, [] => True
  | e, .call op :: as => StepKeys c P e op ∧ ∀ e' r, e.step c op = .ok (e', r) → ActsKeys c P e' as
  | e, .keys sk :: as => ActsKeys c P (e.setSharedKeys sk) as

theorem ActsKeys.trivial (c : Cfg) (as : List Act) : ∀ e, ActsKeys c (fun _ => True) e as := by
  induction as with
  | nil => intro e; exact True.intro
  | cons a as ih =>
    intro e
    cases a with
    | call op => exact ⟨fun _ _ _ => True.intro, fun e' _ _ => ih e'⟩
    | keys sk => exact ih _

theorem scopeLe_of {e : Enc} {sk : SharedKeys} (h : ∀ old, e.sk = some old → old.entries <+: sk.entries) :
    ScopeLe e.sk (some sk) := fun old ho => ⟨sk, rfl, h old ho⟩

theorem set_wf {e : Enc} {sk : SharedKeys} (hw : e.WF) (hsk : sk.WF) : (e.setSharedKeys sk).WF :=
  ⟨hw.even, hw.bounded, hw.closed, by intro s hs; cases hs; exact hsk⟩

theorem set_sim {F : FloatOps} {P : List UInt8 → Prop} {e : Enc} {b : Build} {sk : SharedKeys} (h : Sim F P e b)
    (hs : ScopeLe e.sk (some sk)) : Sim F P (e.setSharedKeys sk) b := by
  refine ⟨⟨h.shape.stack, h.shape.closed⟩, Sim.stack_mono h.stack (List.prefix_refl _) hs, ?_⟩
  intro t ht
  obtain ⟨pre, p, en, t', h1, h2, h3, h4⟩ := h.root t ht
  exact ⟨pre, p, en, t', h1, h2, h3.mono (List.prefix_refl _) hs, h4⟩

theorem Plain.weaken {op : Op} {b : Bool} (h : op.Plain true) : op.Plain b := by
  cases op with
  | key k => exact ⟨h.1, h.2.1, fun _ => h.2.2 rfl⟩
  | value x => exact h
  | _ => trivial

/-- One call keeps everything the proof is about. -/
theorem acts_go (c : Cfg) (F : FloatOps) {P : List UInt8 → Prop} (as : List Act) : ∀ {e e' : Enc} {b : Build} {rs : List (Except EncodeError Unit)},
    e.WF → e.Nested → e.Clean → e.phi + Op.total (calls as) ≤ SizedValue.maxNarrow → Sim F P e b →
    (∀ op ∈ calls as, op.Plain true) → Orderly F b (calls as) → Growing c e as → ActsKeys c P e as →
    e.acts c as = .ok (e', rs) →
    Sim F P e' (b.run F (calls as)).1 ∧ e'.WF ∧ e'.Nested ∧ e'.Clean ∧ e'.phi ≤ SizedValue.maxNarrow ∧
      rs = (b.run F (calls as)).2 := by
  have hmn : SizedValue.maxNarrow ≤ SizedValue.maxWide := by decide
  have hmw : SizedValue.maxWide < 2 ^ 32 := by decide
  induction as with
  | nil => intro e e' b rs hw hn hc hp hs _ _ _ _ h; cases h; exact ⟨hs, hw, hn, hc, by simpa [calls, Op.total] using hp, rfl⟩
  | cons a as ih =>
    intro e e' b rs hw hn hc hp hs hpl hor hg hk h
    cases a with
    | keys sk =>
      obtain ⟨g1, g2, g3⟩ := hg
      exact ih (e := e.setSharedKeys sk) (set_wf hw g1) hn hc hp (set_sim hs (scopeLe_of g2)) hpl hor g3 hk h
    | call op =>
      simp only [calls] at hp hpl hor ⊢
      rw [Op.total_cons] at hp
      unfold Enc.acts at h
      obtain ⟨⟨e1, r⟩, h1, h⟩ := bind_eq_ok.mp h
      obtain ⟨⟨e2, rs'⟩, h2, h⟩ := bind_eq_ok.mp h
      cases h
      have ht := Enc.step_trans hw (by omega) (by omega) h1
      obtain ⟨hw1, hp1⟩ := ht.inv hw (by omega) (by omega)
      obtain ⟨hor1, hor2, hor3⟩ := hor
      obtain ⟨hok, hc1⟩ := plain_step (F := F) hw (by omega) (by omega) hs.shape hc (Plain.weaken (hpl op (by simp))) hor1 hor2 h1
      have hs1 := Sim.step hw hn (by omega) (by omega) hs hok hk.1 h1
      have hr := (ht.shape hw F hs.shape).1
      obtain ⟨i1, i2, i3, i4, i5, i6⟩ := ih hw1 (ht.nested hn) hc1 (by omega) hs1
        (fun op hop => hpl op (List.mem_cons_of_mem _ hop)) hor3 (hg _ _ h1) (hk.2 _ _ h1) h2
      refine ⟨i1, i2, i3, i4, i5, ?_⟩
      rw [i6, ← hr]
      rfl

theorem acts_ok (c : Cfg) (as : List Act) : ∀ {e : Enc}, e.WF → e.phi + Op.total (calls as) ≤ SizedValue.maxWide →
    (∀ op ∈ calls as, op.Accepted) → (∀ sk, Act.keys sk ∈ as → sk.WF) → ∃ e' rs, e.acts c as = .ok (e', rs) := by
  have hmw : SizedValue.maxWide < 2 ^ 32 := by decide
  induction as with
  | nil => intro e _ _ _ _; exact ⟨_, _, rfl⟩
  | cons a as ih =>
    intro e hw hp ha hk
    cases a with
    | keys sk =>
      exact ih (e := e.setSharedKeys sk) (set_wf hw (hk sk (by simp))) hp ha (fun s hs => hk s (List.mem_cons_of_mem _ hs))
    | call op =>
      simp only [calls] at hp ha
      rw [Op.total_cons] at hp
      obtain ⟨e1, rs1, h1⟩ := Enc.run_ok (c := c) [op] hw (by simp [Op.total] at hp ⊢; omega) (fun o ho => by
        rw [List.mem_singleton.mp ho]; exact ha op (by simp))
      obtain ⟨e2, r, rs2, h2, h3, _⟩ := Enc.run_cons h1
      have ht := Enc.step_trans hw (by omega) (by omega) h2
      obtain ⟨hw1, hp1⟩ := ht.inv hw (by omega) (by omega)
      obtain ⟨e', rs, h4⟩ := ih hw1 (by omega) (fun o ho => ha o (List.mem_cons_of_mem _ ho))
        (fun s hs => hk s (List.mem_cons_of_mem _ hs))
      exact ⟨e', r :: rs, by simp only [Enc.acts, h2, ok_bind, h4]; rfl⟩

/-- **C77, if each table goes on from the one in use.** Documents up to 16383 bytes (weighed as in C20), scalars and keys this
version can write. The results of the calls are the documented ones, `finish` returns, and its bytes decode to the document
under the encoder's last table, or any that goes on from it. Missing from the full claim: the other tables, for which it is
false; what C20 lacks. -/
theorem C77_growing_partial (c : Cfg) (F : FloatOps) (sk : Option SharedKeys) (hsk : ∀ s, sk = some s → s.WF) (as : List Act)
    (hsize : Op.total (calls as) ≤ SizedValue.maxNarrow) (hplain : ∀ op ∈ calls as, op.Plain true)
    (hor : Orderly F {} (calls as)) (hg : Growing c { Enc.new with sk } as) (e : Enc) (rs : List (Except EncodeError Unit))
    (h : ({ Enc.new with sk } : Enc).acts c as = .ok (e, rs)) :
    rs = (Build.run F {} (calls as)).2 ∧
    ∀ t, (Build.run F {} (calls as)).1.finish = some t →
      ∃ out, e.finish c = .ok out ∧ ∀ scope, ScopeLe e.sk scope → Decodes F scope out t := by
  have hmn : SizedValue.maxNarrow ≤ SizedValue.maxWide := by decide
  have hphi := newWith_phi sk
  obtain ⟨h1, h2, h3, h4, h5, h6⟩ := acts_go c F as (newWith_wf hsk) (newWith_nested sk) (newWith_clean sk) (by omega)
    (Sim.new F sk) hplain hor hg (.trivial c as _) h
  refine ⟨h6, fun t ht => ?_⟩
  have hfin := clean_finish (c := c) e.stack.length h2 h4 h5
  obtain ⟨out, g1, _⟩ := h1.decodes h2 h3 (by omega) hfin ht (.refl _)
  refine ⟨out, g1, fun scope hsc => ?_⟩
  obtain ⟨out', g1', g2⟩ := h1.decodes h2 h3 (by omega) hfin ht hsc
  rw [g1] at g1'; cases g1'
  exact g2

theorem acts_calls (c : Cfg) (as : List Act) (ops : List Op) : ∀ e, Growing c e (ops.map .call ++ as) ↔
    ∀ e' rs, e.run c ops = .ok (e', rs) → Growing c e' as := by
  induction ops with
  | nil => intro e; exact ⟨fun h e' rs he => by cases he; exact h, fun h => h _ _ rfl⟩
  | cons op ops ih =>
    intro e
    simp only [List.map_cons, List.cons_append, Growing]
    refine ⟨fun h e' rs he => ?_, fun h e' r he => ?_⟩
    · obtain ⟨e1, r, rs', h1, h2, _⟩ := Enc.run_cons he
      exact (ih e1).mp (h e1 r h1) _ _ h2
    · refine (ih e').mpr fun e2 rs h2 => h e2 (r :: rs) ?_
      simp only [Enc.run, he, ok_bind, h2]
      rfl

theorem growing_ops (c : Cfg) (ops : List Op) : ∀ e, Growing c e (ops.map .call) := by
  intro e
  have := (acts_calls c [] ops e).mpr (fun _ _ _ => trivial)
  simpa using this

theorem calls_append (as bs : List Act) : calls (as ++ bs) = calls as ++ calls bs := by
  induction as with
  | nil => rfl
  | cons a as ih => cases a <;> simp [calls, ih]

theorem calls_map (ops : List Op) : calls (ops.map .call) = ops := by
  induction ops with
  | nil => rfl
  | cons op ops ih => simp [calls, ih]

theorem total_le (ops ops' : List Op) : Op.total ops ≤ Op.total (ops ++ ops') := by
  induction ops with
  | nil => simp [Op.total]
  | cons op ops ih => rw [List.cons_append, Op.total_cons, Op.total_cons]; omega

theorem growing_once (c : Cfg) (ops ops' : List Op) {sk : SharedKeys} (hsk : sk.WF) (hsize : Op.total ops ≤ SizedValue.maxWide) :
    Growing c { Enc.new with sk := none } (ops.map .call ++ .keys sk :: ops'.map .call) := by
  rw [acts_calls]
  intro e' rs' he
  refine ⟨hsk, fun old hold => ?_, growing_ops c ops' _⟩
  have := (Enc.run_inv ops (newWith_wf (by simp)) (by rw [newWith_phi]; omega) he).2.2.2
  rw [hold] at this
  cases this

/-- **C77, once.** An encoder made without shared keys can be given any table at any point of a small document: the calls
before and after are accepted, and the bytes of `finish` decode to the whole document under the encoder's table. The keys
before that point are in it as texts. -/
theorem C77_once_partial (c : Cfg) (F : FloatOps) (sk : SharedKeys) (hsk : sk.WF) (ops ops' : List Op)
    (hsize : Op.total (ops ++ ops') ≤ SizedValue.maxNarrow) (hplain : ∀ op ∈ ops ++ ops', op.Plain true)
    (hcap : ∀ n, Op.beginArray n ∈ ops ++ ops' → n * 4 < 2 ^ 63) (hall : AllOk F {} (ops ++ ops')) (t : Tree)
    (ht : (Build.run F {} (ops ++ ops')).1.finish = some t) :
    ∃ e rs out, Enc.new.acts c (ops.map .call ++ .keys sk :: ops'.map .call) = .ok (e, rs) ∧ (∀ r ∈ rs, r = .ok ()) ∧
      e.finish c = .ok out ∧ ∀ scope, ScopeLe e.sk scope → Decodes F scope out t := by
  have hmn : SizedValue.maxNarrow ≤ SizedValue.maxWide := by decide
  have hcalls : calls (ops.map .call ++ .keys sk :: ops'.map .call) = ops ++ ops' := by
    rw [calls_append, calls_map]
    simp only [calls]
    rw [calls_map]
  have hwf0 : ({ Enc.new with sk := none } : Enc).WF := newWith_wf (by simp)
  have hphi := newWith_phi none
  have hacc : ∀ op ∈ ops ++ ops', op.Accepted := by
    intro op hop
    have := hplain op hop
    cases op with
    | beginArray n => exact hcap n hop
    | beginDict => trivial
    | key k => simp only [Op.Accepted]; try exact this.2.1
    | value x => exact this.1
    | endArray => trivial
    | endDict => trivial
  obtain ⟨e, rs, h⟩ := acts_ok c (ops.map .call ++ .keys sk :: ops'.map .call) hwf0 (by rw [hcalls]; omega)
    (by rw [hcalls]; exact hacc) (by
      intro s hs
      simp only [List.mem_append, List.mem_map, List.mem_cons, reduceCtorEq, and_false, exists_false, false_or, or_false,
        Act.keys.injEq] at hs
      rw [hs]; exact hsk)
  have hg := growing_once c ops ops' hsk (Nat.le_trans (total_le ops ops') (by omega))
  have hor := hall.orderly _ (by simp)
  obtain ⟨g1, g2⟩ := C77_growing_partial c F none (by simp) _ (by rw [hcalls]; exact hsize) (by rw [hcalls]; exact hplain)
    (by rw [hcalls]; exact hor) hg e rs h
  rw [hcalls] at g1 g2
  obtain ⟨out, g3, g4⟩ := g2 t ht
  exact ⟨e, rs, out, h, by rw [g1]; exact hall, g3, g4⟩

/-! ## The full claim is false -/

/-- A key that every table with room gives a code. -/
def Eligible (c : Cfg) (k : RStr) : Prop := 2 ≤ k.bytes.length ∧ k.bytes.length ≤ 15 ∧ SharedKeys.canEncode c.chars k.bytes = true

/-- A table with one key. -/
def oneKey (k : RStr) : SharedKeys := ⟨[(k.bytes, 0)]⟩

theorem insert_new {c : Cfg} {k : RStr} (h : Eligible c k) : SharedKeys.new.encodeAndInsert c.chars k.bytes = (oneKey k, some 0) := by
  obtain ⟨h1, h2, h3⟩ := h
  have hz := SharedKeys.zstr_eq (key := k.bytes) (by omega) (SharedKeys.canEncode_no_nul h3)
  unfold SharedKeys.encodeAndInsert SharedKeys.canAdd
  rw [h3, hz]
  have : decide (k.bytes.length ≤ SharedKeys.maxKeyLen) = true := decide_eq_true (by have : SharedKeys.maxKeyLen = 16 := rfl; omega)
  rw [this]
  rfl

/-- `{k: null}`, not yet closed, with the table `sk` given in the end. -/
def keyThen (k : RStr) (sk : SharedKeys) : List Act :=
  [.keys .new, .call .beginDict, .call (.key k), .call (.value .null), .keys sk]

/-- `{k: null}`, not yet closed, `k` having the code 0. -/
def openDict (sk : SharedKeys) : Enc :=
  { out := [], stack := [.dict [⟨.shared 0, ⟨0x30, 0, 0, 0⟩⟩] none], sk := some sk, closed := false }

/-- What the calls leave does not depend on the key, but for the table. -/
theorem step_key {c : Cfg} {k : RStr} (h : Eligible c k) :
    ({ stack := [.dict [] none], sk := some .new } : Enc).step c (.key k) =
      .ok ({ stack := [.dict [] (some (.shared 0))], sk := some (oneKey k) }, .ok ()) := by
  have h1 : dataSized 0x40 k.bytes = none := dataSized_none.mpr h.1
  simp only [Enc.step, Enc.writeKey, h1, Enc.writeKeyLong, insert_new h]
  rfl

theorem keyThen_state {c : Cfg} {k : RStr} (h : Eligible c k) (sk : SharedKeys) :
    Enc.new.acts c (keyThen k sk) = .ok (openDict sk, [.ok (), .ok (), .ok ()]) := by
  have h1 : (Enc.new.setSharedKeys .new).step c .beginDict = .ok ({ stack := [.dict [] none], sk := some .new }, .ok ()) := rfl
  have h2 : ({ stack := [.dict [] (some (.shared 0))], sk := some (oneKey k) } : Enc).step c (.value .null) =
      .ok (openDict (oneKey k), .ok ()) := rfl
  simp only [keyThen, Enc.acts, h1, ok_bind, step_key h, h2]
  rfl

theorem run_state {c : Cfg} {k : RStr} (h : Eligible c k) :
    ({ Enc.new with sk := some .new } : Enc).run c [.beginDict, .key k, .value .null] =
      .ok (openDict (oneKey k), [.ok (), .ok (), .ok ()]) := by
  have h1 : ({ Enc.new with sk := some .new } : Enc).step c .beginDict = .ok ({ stack := [.dict [] none], sk := some .new }, .ok ()) := rfl
  have h2 : ({ stack := [.dict [] (some (.shared 0))], sk := some (oneKey k) } : Enc).step c (.value .null) =
      .ok (openDict (oneKey k), .ok ()) := rfl
  simp only [Enc.run, h1, ok_bind, step_key h, h2]
  rfl

theorem sort_one (c : Cfg) (x : DictElem) : c.sort.run [x] = [x] := List.perm_singleton.mp (c.sort.perm [x])

theorem openDict_finish (c : Cfg) (sk : SharedKeys) :
    (openDict sk).finish c = .ok [0x70, 0x01, 0x00, 0x00, 0x30, 0x00, 0x80, 0x03] := by
  obtain ⟨dbg, U, sorter⟩ := c
  have h : sorter.run [⟨.shared 0, ⟨0x30, 0, 0, 0⟩⟩] = [⟨.shared 0, ⟨0x30, 0, 0, 0⟩⟩] := sort_one ⟨dbg, U, sorter⟩ _
  have w1 : ∀ dbg, (Item.dict 1).writeTo dbg 2 false = .ok (some [0x70, 0x01]) := by decide +kernel
  have w2 : ∀ dbg, (Item.sized ⟨0, 0, 0, 0⟩).writeTo dbg 2 false = .ok (some [0, 0]) := by decide +kernel
  have w3 : ∀ dbg, (Item.sized ⟨0x30, 0, 0, 0⟩).writeTo dbg 2 false = .ok (some [0x30, 0]) := by
    decide +kernel
  have w4 : ∀ dbg, (Item.sized ⟨0x80, 0, 0, 6⟩).writeTo dbg 2 false = .ok (some [0x80, 3]) := by
    decide +kernel
  have s1 : (Item.dict 1).size = 2 := by decide +kernel
  have s2 : (Item.sized ⟨0, 0, 0, 0⟩).size = 2 := by decide +kernel
  have s3 : (Item.sized ⟨0x30, 0, 0, 0⟩).size = 2 := by decide +kernel
  have s4 : (Item.sized ⟨0x80, 0, 0, 6⟩).size = 2 := by decide +kernel
  have k1 : Enc.keySlot (.shared 0) = .ok (some ⟨0, 0, 0, 0⟩) := by decide +kernel
  have f1 : ∀ dbg, Enc.dictWide dbg 0 0 [⟨.shared 0, ⟨0x30, 0, 0, 0⟩⟩] = .ok false := by decide +kernel
  have f2 : ∀ dbg, Enc.fixDict dbg false 2 [⟨.shared 0, ⟨0x30, 0, 0, 0⟩⟩] = .ok [⟨.shared 0, ⟨0x30, 0, 0, 0⟩⟩] := by decide +kernel
  have f3 : ∀ dbg, (u32Sub dbg 6 0 : Exec Nat) = .ok 6 := by decide +kernel
  have p1 : SizedValue.newPointer 6 = some ⟨0x80, 0, 0, 6⟩ := by decide +kernel
  have e1 : ∀ sk, Enc.write ⟨dbg, U, sorter⟩ { sk } (.dict 1) false true = .ok ({ out := [0x70, 1], sk }, 0) := by
    intro sk; simp [Enc.write, w1, s1]
  have e2 : ∀ sk, Enc.write ⟨dbg, U, sorter⟩ { out := [0x70, 1], sk } (.sized ⟨0, 0, 0, 0⟩) false false =
      .ok ({ out := [0x70, 1, 0, 0], sk }, 2) := by
    intro sk; simp [Enc.write, w2, s2]
  have e3 : ∀ sk, Enc.write ⟨dbg, U, sorter⟩ { out := [0x70, 1, 0, 0], sk } (.sized ⟨0x30, 0, 0, 0⟩) false false =
      .ok ({ out := [0x70, 1, 0, 0, 0x30, 0], sk }, 4) := by
    intro sk; simp [Enc.write, w3, s3]
  have e4 : ∀ sk, Enc.write ⟨dbg, U, sorter⟩ { out := [0x70, 1, 0, 0, 0x30, 0], sk } (.sized ⟨0x80, 0, 0, 6⟩) false false =
      .ok ({ out := [0x70, 1, 0, 0, 0x30, 0, 0x80, 3], sk }, 6) := by
    intro sk; simp [Enc.write, w4, s4]
  have hm : (6 : Nat) ≤ SizedValue.maxNarrow := by decide
  simp [Enc.finish, openDict, Enc.endGo, Enc.endDict, h, f1, e1, f2, Enc.writePairs, k1, e2, e3, Enc.done, Enc.finishedCollection,
    f3, hm, p1, e4]

theorem keyThen_says (F : FloatOps) (k : RStr) (sk : SharedKeys) :
    AllOk F {} (calls (keyThen k sk)) ∧ (Build.run F {} (calls (keyThen k sk))).1.finish = some (.dict [(k.bytes, .null)]) := by
  refine ⟨?_, rfl⟩
  intro r hr
  simp [keyThen, calls, Build.run, Build.next, Build.step, Build.open, Build.put] at hr
  exact hr

set_option maxRecDepth 20000 in
/-- **C77 is false of the code: keys get lost.** Of every key that is given a code. If an empty table is set after the key has
been written, all calls succeed, and the entry is not in the document that is read, under the encoder's table: it has none. -/
theorem C77_refuted_lost (c : Cfg) (k : RStr) (hk : Eligible c k) :
    ∃ (e : Enc) (out : List UInt8) (v : Val), Enc.new.acts c (keyThen k .new) = .ok (e, [.ok (), .ok (), .ok ()]) ∧
      e.sk = some .new ∧ e.finish c = .ok out ∧ fromBytes ⟨out, 0, true⟩ = .ok v ∧
      ∀ F, AllOk F {} (calls (keyThen k .new)) ∧
        (Build.run F {} (calls (keyThen k .new))).1.finish = some (.dict [(k.bytes, .null)]) ∧
        readTree ⟨out, 0, true⟩ F e.sk out.length v = .ok (.dict []) :=
  ⟨_, _, ⟨0, 6⟩, keyThen_state hk _, rfl, openDict_finish c _, by decide +kernel, fun F =>
    ⟨(keyThen_says F k _).1, (keyThen_says F k _).2, rfl⟩⟩

/-- **C77 is false of the code: keys are renamed.** Of any two keys that are given codes. If a table in which the code belongs
to another key is set after the key has been written, the document has that other key. -/
theorem C77_refuted_renamed (c : Cfg) (F : FloatOps) (k k' : RStr) (hk : Eligible c k) (hk' : Eligible c k')
    (hne : k.bytes ≠ k'.bytes) :
    ∃ (e : Enc) (out : List UInt8), Enc.new.acts c (keyThen k (oneKey k')) = .ok (e, [.ok (), .ok (), .ok ()]) ∧
      e.finish c = .ok out ∧ AllOk F {} (calls (keyThen k (oneKey k'))) ∧
      (Build.run F {} (calls (keyThen k (oneKey k')))).1.finish = some (.dict [(k.bytes, .null)]) ∧
      Decodes F e.sk out (.dict [(k'.bytes, .null)]) ∧ ¬ Decodes F e.sk out (.dict [(k.bytes, .null)]) := by
  have hl := hk'.2.1
  have hd : Decodes F (openDict (oneKey k')).sk [0x70, 0x01, 0x00, 0x00, 0x30, 0x00, 0x80, 0x03] (.dict [(k'.bytes, .null)]) := by
    obtain ⟨out, h1, h2⟩ := C20_orderly_partial c F (some .new) (openDict (oneKey k')).sk
      (by intro s hs; cases hs; exact SharedKeys.new_wf) [.beginDict, .key k', .value .null]
      (by
        simp only [Op.total, List.map_cons, List.map_nil, List.sum_cons, List.sum_nil, Op.weight]
        have : SizedValue.maxNarrow = 16383 := rfl
        omega)
      (by
        intro op hop
        simp only [List.mem_cons, List.not_mem_nil, or_false] at hop
        rcases hop with rfl | rfl | rfl
        · trivial
        · exact ⟨hk'.1, by omega, fun _ => by omega⟩
        · simp [Op.Plain, Scalar.Survives, Scalar.Tiny])
      (AllOk.orderly _ (by simp) (keyThen_says F k' .new).1) _ _ (run_state hk') (.refl _) _ rfl
    rw [openDict_finish] at h1
    cases h1
    exact h2
  refine ⟨_, _, keyThen_state hk _, openDict_finish c _, (keyThen_says F k _).1, (keyThen_says F k _).2, hd, fun h => ?_⟩
  have hsame := Props.Decodes.unique (by decide) hd h
  obtain ⟨mid, lvs, g1, g2, g3, _⟩ := Same.entries hsame
  cases g1
  cases List.singleton_perm.mp g2
  simp at g3
  exact hne g3.symm

/-- Strings and a table for examples. -/
def saa : RStr := ⟨[0x61, 0x61], by decide⟩
def sbb : RStr := ⟨[0x62, 0x62], by decide⟩
def aabb : SharedKeys := ⟨[([0x61, 0x61], 0), ([0x62, 0x62], 1)]⟩

def aaOps : List Op := [.beginDict, .key saa, .value (.bool false)]
def bbOps : List Op := [.key sbb, .value (.bool true), .endDict]
def aabbActs : List Act := aaOps.map .call ++ .keys aabb :: bbOps.map .call

/-- The encoder after these. -/
def aabbEnd : Enc :=
  { out := [0x42, 0x61, 0x61, 0, 0x70, 2, 0, 1, 0x38, 0, 0x80, 5, 0x34, 0, 0x80, 5], sk := some aabb, stack := [], closed := true }

deriving instance DecidableEq for Enc

theorem aabb_run : Enc.new.acts exampleCfg aabbActs = .ok (aabbEnd, [.ok (), .ok (), .ok (), .ok (), .ok (), .ok ()]) := by
  decide +kernel

theorem aabb_wf : aabb.WF := by
  refine ⟨?_, by decide, by decide⟩
  intro i k c h
  match i, h with
  | 0, h => cases h; rfl
  | 1, h => cases h; rfl

/-- **C77 is false of the code: keys are not found.** The encoder has no shared keys; `"aa"` is written, then a table is given
in which `"aa"` and `"bb"` are, and `"bb"` is written. The bytes are those of `C72_refuted_table`: they decode to the
document, but `get("aa")` finds nothing. -/
theorem C77_refuted_lookup : ∃ (as : List Act) (e : Enc) (out : List UInt8) (v : Val), Growing exampleCfg Enc.new as ∧
    Enc.new.acts exampleCfg as = .ok (e, [.ok (), .ok (), .ok (), .ok (), .ok (), .ok ()]) ∧ e.finish exampleCfg = .ok out ∧
    fromBytes ⟨out, 0, true⟩ = .ok v ∧ v.dictGet ⟨out, 0, true⟩ e.sk [0x61, 0x61] = .ok none ∧
    ∀ F, (Build.run F {} (calls as)).1.finish = some (.dict [([0x61, 0x61], .bool false), ([0x62, 0x62], .bool true)]) ∧
      Decodes F e.sk out (.dict [([0x61, 0x61], .bool false), ([0x62, 0x62], .bool true)]) := by
  have hsize : Op.total (aaOps ++ bbOps) ≤ SizedValue.maxNarrow := by decide
  have hmn : SizedValue.maxNarrow ≤ SizedValue.maxWide := by decide
  have hg : Growing exampleCfg Enc.new aabbActs := growing_once exampleCfg aaOps bbOps aabb_wf (by
    have := total_le aaOps bbOps; omega)
  have hplain : ∀ op ∈ aaOps ++ bbOps, op.Plain true := by
    intro op hop
    simp only [aaOps, bbOps, List.cons_append, List.nil_append, List.mem_cons, List.not_mem_nil, or_false] at hop
    rcases hop with rfl | rfl | rfl | rfl | rfl | rfl <;> simp [Op.Plain, Scalar.Survives, Scalar.Tiny, saa, sbb]
  have hall : ∀ F, AllOk F {} (aaOps ++ bbOps) := by
    intro F r hr
    simp [aaOps, bbOps, Build.run, Build.next, Build.step, Build.open, Build.put, Build.close] at hr
    exact hr
  refine ⟨aabbActs, aabbEnd, aabbEnd.out, ⟨4, 10⟩, hg, aabb_run, rfl, by decide +kernel, by decide +kernel, fun F => ⟨rfl, ?_⟩⟩
  obtain ⟨_, h⟩ := C77_growing_partial exampleCfg F none (by simp) aabbActs hsize hplain ((hall F).orderly _ (by simp)) hg _ _ aabb_run
  obtain ⟨out, h1, h2⟩ := h _ rfl
  cases h1
  exact h2 _ (.refl _)

/-! ## Concrete cases -/

/-- Tables that go on from one another, in the middle of a dict: `"aa"` gets the code 0 from the first, `"bb"` has the code 1 in
the second. -/
example : Growing exampleCfg Enc.new [.keys .new, .call .beginDict, .call (.key saa), .keys aabb, .call (.value .null),
    .call (.key sbb)] := by
  refine ⟨SharedKeys.new_wf, ?_, ?_⟩
  · intro old h; cases h
  intro e1 r1 h1 e2 r2 h2
  refine ⟨aabb_wf, ?_, fun _ _ _ _ _ _ => trivial⟩
  have hk : Eligible exampleCfg saa := ⟨by decide, by decide, by decide +kernel⟩
  cases h1
  cases (step_key hk).symm.trans h2
  intro old h
  cases h
  exact ⟨[([0x62, 0x62], 1)], rfl⟩

/-- The hypotheses of `C77_once_partial` hold of `aaOps` and `bbOps`. -/
example (F : FloatOps) : Op.total (aaOps ++ bbOps) ≤ SizedValue.maxNarrow ∧ (∀ op ∈ aaOps ++ bbOps, op.Plain true) ∧
    AllOk F {} (aaOps ++ bbOps) ∧
    (Build.run F {} (aaOps ++ bbOps)).1.finish = some (.dict [([0x61, 0x61], .bool false), ([0x62, 0x62], .bool true)]) := by
  refine ⟨by decide, ?_, ?_, rfl⟩
  · intro op hop
    simp only [aaOps, bbOps, List.cons_append, List.nil_append, List.mem_cons, List.not_mem_nil, or_false] at hop
    rcases hop with rfl | rfl | rfl | rfl | rfl | rfl <;> simp [Op.Plain, Scalar.Survives, Scalar.Tiny, saa, sbb]
  · intro r hr
    simp [aaOps, bbOps, Build.run, Build.next, Build.step, Build.open, Build.put, Build.close] at hr
    exact hr

/-- Two keys for `C77_refuted_lost` and `C77_refuted_renamed`. -/
example : Eligible exampleCfg saa ∧ Eligible exampleCfg sbb ∧ saa.bytes ≠ sbb.bytes :=
  ⟨⟨by decide, by decide, by decide +kernel⟩, ⟨by decide, by decide, by decide +kernel⟩, by decide⟩

end Fleece.Props
