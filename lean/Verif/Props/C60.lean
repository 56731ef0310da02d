import Verif.Proofs.Broken
import Verif.Proofs.Lost
import Verif.Proofs.Texts
import Verif.Props.C59

/-!
# C60 Which small documents survive, and what becomes of the others

C20 says that documents up to 16 KiB without strings and data below two bytes survive. Here is the converse: such a string
or data anywhere in the document destroys it, because the encoder puts it into a two-byte slot, where it turns into the
number 0 or 256 + its byte, or, if it is data of one byte, makes the document invalid. A key of fewer than two bytes turns
into a number too, where the iterator stops without shared keys, or which it takes for a code with them. Shared keys have at
most 15 bytes, but keys of 16 are stored as if they fitted. Full claim: every small document decodes to what was written. What
is proved: it does exactly if it has no such values and keys, and what becomes of the others.
-/

namespace Fleece.Props
open Fleece Res

theorem Op.narrowed_texts (op : Op) : op.narrowed.texts ≤ op.texts := by
  cases op with
  | value x =>
    cases x with
    | str s =>
      simp only [Op.narrowed, Scalar.narrowed]
      split <;> simp [Op.texts]
    | data d => cases d <;> simp [Op.narrowed, Scalar.narrowed, Op.texts]
    | _ => exact Nat.le_refl _
  | _ => exact Nat.le_refl _

theorem Op.narrowed_tiny {shared : Bool} {op : Op} (hn : op.Narrowable shared) (ht : op.TinyValue) :
    op.narrowed.texts < op.texts := by
  cases op with
  | value x =>
    cases x with
    | str s =>
      obtain ⟨bs, hbs⟩ := s
      simp only [Op.narrowed, Scalar.narrowed]
      match bs, hbs, ht with
      | [], _, _ => simp [Op.texts]
      | [b], _, _ => simp [Op.texts]
      | _ :: _ :: _, _, h => simp [Op.TinyValue, Scalar.Tiny] at h
    | data d =>
      have := hn.2 d rfl
      match d, this, ht with
      | [], _, _ => decide
      | [b], h, _ => simp at h
      | _ :: _ :: _, _, h => simp [Op.TinyValue, Scalar.Tiny] at h
    | _ => exact absurd ht (by simp [Op.TinyValue, Scalar.Tiny])
  | _ => exact absurd ht (by simp [Op.TinyValue])

theorem Op.narrowed_all {shared : Bool} (ops : List Op) (hn : ∀ op ∈ ops, op.Narrowable shared) :
    Op.textsAll (ops.map Op.narrowed) ≤ Op.textsAll ops ∧
      ((∃ op ∈ ops, op.TinyValue) → Op.textsAll (ops.map Op.narrowed) < Op.textsAll ops) := by
  induction ops with
  | nil => exact ⟨Nat.le_refl _, by rintro ⟨_, h, _⟩; cases h⟩
  | cons op ops ih =>
    obtain ⟨h1, h2⟩ := ih fun x hx => hn x (List.mem_cons_of_mem _ hx)
    have hop := Op.narrowed_texts op
    simp only [Op.textsAll, List.map_cons, List.sum_cons] at h1 h2 ⊢
    refine ⟨by omega, ?_⟩
    rintro ⟨x, hx, ht⟩
    rcases List.mem_cons.mp hx with rfl | hx
    · have := Op.narrowed_tiny (hn _ (by simp)) ht; omega
    · have := h2 ⟨x, hx, ht⟩; omega

theorem _root_.Fleece.Orderly.noDiscard {F : FloatOps} (ops : List Op) : ∀ {b : Build}, Orderly F b ops → NoDiscard F b ops := by
  induction ops with
  | nil => intros; trivial
  | cons op ops ih => intro b hb; exact ⟨hb.1, ih hb.2.2⟩

/-- **C60, what tiny values turn into.** Calls that may be rejected, but that build a document `t` of up to 16 KiB. The
output decodes to the document that the same calls build with each string and data of at most one byte replaced by a
number (`Op.narrowed`). Missing: keys below two bytes; data of one byte. -/
theorem C60_narrowed_partial (c : Cfg) (F : FloatOps) (sk scope : Option SharedKeys) (hsk : ∀ s, sk = some s → s.WF)
    (ops : List Op) (hsize : Op.total ops ≤ SizedValue.maxNarrow) (hnar : ∀ op ∈ ops, op.Narrowable sk.isSome)
    (hor : Orderly F {} ops) (e : Enc) (rs : List (Except EncodeError Unit))
    (h : ({ Enc.new with sk } : Enc).run c ops = .ok (e, rs)) (hsc : ScopeLe e.sk scope) (t : Tree)
    (ht : (Build.run F {} ops).1.finish = some t) :
    ∃ out u, e.finish c = .ok out ∧ (Build.run F {} (ops.map Op.narrowed)).1.finish = some u ∧ Decodes F scope out u := by
  have hmn : SizedValue.maxNarrow ≤ SizedValue.maxWide := by decide
  have hphi := newWith_phi sk
  have hwf := newWith_wf hsk
  obtain ⟨hw, hp, _⟩ := Enc.run_inv ops hwf (by omega) h
  obtain ⟨hs, hn, hc⟩ := Sim.narrow_run (F := F) (P := fun _ => True) (b := {}) (b' := {}) ops hwf (newWith_nested sk) (by omega)
    (Sim.new F sk) (newWith_clean sk) hnar ⟨rfl, rfl⟩ hor (RunKeys.trivial _ _ _) h
  obtain ⟨_, hsh⟩ := results_go c F ops (b := {}) hwf (by omega) ⟨rfl, rfl⟩ hor.noDiscard h
  have hsh' : Shape e (Build.run F {} (ops.map Op.narrowed)).1 := Shape.clear.mp hs.shape
  have h1 := (Enc.closeN_shape (c := c) e.stack.length hw (by omega) hsh).closed
  have h2 := (Enc.closeN_shape (c := c) e.stack.length hw (by omega) hsh').closed
  have hu : ∃ u, (Build.run F {} (ops.map Op.narrowed)).1.finish = some u := by
    unfold Build.finish at ht ⊢
    rw [Build.finishGo_eq, ← hsh.length] at ht
    rw [Build.finishGo_eq, ← hsh'.length]
    rw [h1, ht] at h2
    exact Option.isSome_iff_exists.mp h2.symm
  obtain ⟨u, hu⟩ := hu
  obtain ⟨out, h3, h4⟩ := Sim.narrow_decodes (c := c) hw hn (by omega) hs hc hu hsc
  exact ⟨out, u, h3, hu, h4⟩

/-- **C60, data of one byte.** Calls all documented to succeed, up to 16 KiB, with any keys. If one of them writes data of
one byte, the decoder rejects the output, wherever it is in memory and in either build profile. -/
theorem C60_rejected_partial (c : Cfg) (F : FloatOps) (sk : Option SharedKeys) (hsk : ∀ s, sk = some s → s.WF)
    (ops : List Op) (hsize : Op.total ops ≤ SizedValue.maxNarrow) (hall : AllOk F {} ops) (b : UInt8)
    (hb : Op.value (.data [b]) ∈ ops) (e : Enc) (rs : List (Except EncodeError Unit))
    (h : ({ Enc.new with sk } : Enc).run c ops = .ok (e, rs)) :
    ∃ out, e.finish c = .ok out ∧ ∀ m : Mem, m.data = out → m.base + out.length < 2 ^ 64 → ∀ v, fromBytes m ≠ .ok v := by
  have hmn : SizedValue.maxNarrow ≤ SizedValue.maxWide := by decide
  have hphi := newWith_phi sk
  have hwf := newWith_wf hsk
  have hor := hall.orderly ops (by simp)
  obtain ⟨hw, hp, _⟩ := Enc.run_inv ops hwf (by omega) h
  have hrs : ∀ r ∈ rs, r = .ok () := by
    rw [(results_go c F ops (b := {}) hwf (by omega) ⟨rfl, rfl⟩ hor.noDiscard h).1]; exact hall
  obtain ⟨h1, h2⟩ := Enc.Bad.run ops hwf (newWith_nested sk) (by omega) h hrs
  exact Enc.Bad.finish hw h1 (by omega) (h2 (.inr ⟨b, hb⟩))

/-- **C60.** Calls all documented to succeed, that build a document `t` of up to 16 KiB: the output decodes to `t` exactly
if no string or data written has fewer than two bytes. Missing: keys below two bytes; with shared keys, keys of 16 bytes;
larger documents. -/
theorem C60_partial (c : Cfg) (F : FloatOps) (sk scope : Option SharedKeys) (hsk : ∀ s, sk = some s → s.WF)
    (ops : List Op) (hsize : Op.total ops ≤ SizedValue.maxNarrow) (hwr : ∀ op ∈ ops, op.Writable sk.isSome)
    (hall : AllOk F {} ops) (e : Enc) (rs : List (Except EncodeError Unit))
    (h : ({ Enc.new with sk } : Enc).run c ops = .ok (e, rs)) (hsc : ScopeLe e.sk scope) (t : Tree)
    (ht : (Build.run F {} ops).1.finish = some t) :
    ∃ out, e.finish c = .ok out ∧ (Decodes F scope out t ↔ ∀ op ∈ ops, ¬ op.TinyValue) := by
  have hor := hall.orderly ops (by simp)
  have hmn : SizedValue.maxNarrow ≤ 0x3fffffff := by decide
  have hms : SizedValue.maxNarrow < 2 ^ 64 := by decide
  obtain ⟨out, h1, h5, _⟩ := C58 c sk hsk ops (by rw [← total_eq]; omega) e rs h
  rw [← total_eq] at h5
  have hl : out.length < 2 ^ 64 := by omega
  refine ⟨out, h1, ?_⟩
  by_cases hone : ∃ b, Op.value (.data [b]) ∈ ops
  · obtain ⟨b, hb⟩ := hone
    obtain ⟨out', g1, g2⟩ := C60_rejected_partial c F sk hsk ops hsize hall b hb e rs h
    rw [h1] at g1; cases g1
    constructor
    · intro hd
      obtain ⟨v, _, hv, _⟩ := hd ⟨out, 0, true⟩ rfl (by simpa using hl)
      exact absurd hv (g2 _ rfl (by simpa using hl) v)
    · intro hno
      exact absurd (show Scalar.Tiny (.data [b]) by simp [Scalar.Tiny]) (hno _ hb)
  have hnar : ∀ op ∈ ops, op.Narrowable sk.isSome := by
    intro op hop
    have := hwr op hop
    cases op with
    | value x =>
      refine ⟨this, fun d hd hlen => ?_⟩
      obtain ⟨b, rfl⟩ := List.length_eq_one_iff.mp hlen
      exact hone ⟨b, by rw [← hd]; exact hop⟩
    | key k => exact this
    | _ => trivial
  obtain ⟨out', u, h1', h2, h3⟩ := C60_narrowed_partial c F sk scope hsk ops hsize hnar hor e rs h hsc t ht
  rw [h1] at h1'; cases h1'
  refine ⟨fun hd op hop hty => ?_, fun hno => ?_⟩
  · have hst := (Decodes.unique hl hd h3).texts
    obtain ⟨g1, _, g3⟩ := Build.run_texts (F := F) ops Build.empty_ordered
    obtain ⟨k1, k2, _⟩ := Build.run_texts (F := F) (ops.map Op.narrowed) Build.empty_ordered
    rw [Build.finish_texts g1 ht, Build.finish_texts k1 h2, g3 hall] at hst
    have := (Op.narrowed_all ops hnar).2 ⟨op, hop, hty⟩
    omega
  · have hpl : ∀ op ∈ ops, op.Plain sk.isSome := by
      intro op hop
      have h1 := hwr op hop
      have h2 := hno op hop
      cases op with
      | value x => exact ⟨h1, h2⟩
      | key k => exact h1
      | _ => trivial
    obtain ⟨out', g1, g2⟩ := C20_orderly_partial c F sk scope hsk ops hsize hpl hor e rs h hsc t ht
    rw [h1] at g1; cases g1
    exact g2

/-! ## Keys of any length -/

/-- **C60, what is left.** Calls that may be rejected, but that build a document `t` of up to 16 KiB, with keys, strings and
data of any length, and with or without shared keys. If `t` has no data of one byte, and the shared keys do not run out, the
output decodes to `t.lossyIn`: tiny strings and data are numbers, tiny keys are whatever shared key has that number, keys of
16 bytes stored as codes lose the last, and every dict ends before its first tiny key whose number is no code. Missing:
shared keys that run out; larger documents. -/
theorem C60_shared_lossy_partial (c : Cfg) (F : FloatOps) (sk scope : Option SharedKeys) (hsk : ∀ s, sk = some s → s.WF)
    (ops : List Op) (hsize : Op.total ops ≤ SizedValue.maxNarrow) (hpos : ∀ op ∈ ops, op.Possible) (hor : Orderly F {} ops)
    (e : Enc) (rs : List (Except EncodeError Unit)) (h : ({ Enc.new with sk } : Enc).run c ops = .ok (e, rs))
    (hsc : ScopeLe e.sk scope) (hroom : ∀ s, e.sk = some s → s.entries.length < 2048) (t : Tree)
    (ht : (Build.run F {} ops).1.finish = some t) (hby : ¬ t.Has Tree.ByteNode) :
    ∃ out, e.finish c = .ok out ∧ Decodes F scope out (t.lossyIn (KeyView.of c.chars sk.isSome scope)) := by
  have hmn : SizedValue.maxNarrow ≤ SizedValue.maxWide := by decide
  have hphi := newWith_phi sk
  have hwf := newWith_wf hsk
  obtain ⟨hw, hp, _⟩ := Enc.run_inv ops hwf (by omega) h
  rw [Build.finish_has byteNode_leaf (Build.run_ordered ops Build.empty_ordered) ht] at hby
  obtain ⟨hs, hn⟩ := CutSim.run (F := F) (b := {}) (scope := scope) ops hwf (newWith_nested sk) (by omega)
    ⟨⟨rfl, rfl⟩, .nil, fun t h => by cases h⟩ rfl hsc hroom hpos Build.empty_ordered hby hor h
  exact CutSim.decodes (KeyView.of_fair _ _ _) hw hn (by omega) hs ht

/-- **C60, data of one byte, calls rejected or not.** Calls that build a document `t` of up to 16 KiB, with or without shared
keys. If `t` has data of one byte, the decoder rejects the output. -/
theorem C60_bytes_partial (c : Cfg) (F : FloatOps) (sk : Option SharedKeys) (hsk : ∀ s, sk = some s → s.WF)
    (ops : List Op) (hsize : Op.total ops ≤ SizedValue.maxNarrow) (hor : Orderly F {} ops) (e : Enc)
    (rs : List (Except EncodeError Unit)) (h : ({ Enc.new with sk } : Enc).run c ops = .ok (e, rs)) (t : Tree)
    (ht : (Build.run F {} ops).1.finish = some t) (hby : t.Has Tree.ByteNode) :
    ∃ out, e.finish c = .ok out ∧ ∀ m : Mem, m.data = out → m.base + out.length < 2 ^ 64 → ∀ v, fromBytes m ≠ .ok v := by
  have hmn : SizedValue.maxNarrow ≤ SizedValue.maxWide := by decide
  have hphi := newWith_phi sk
  have hwf := newWith_wf hsk
  obtain ⟨hw, hp, _⟩ := Enc.run_inv ops hwf (by omega) h
  rw [Build.finish_has byteNode_leaf (Build.run_ordered ops Build.empty_ordered) ht] at hby
  obtain ⟨h1, h2⟩ := Enc.Bad.orderly (F := F) (b := {}) ops hwf (newWith_nested sk) (by omega) ⟨rfl, rfl⟩ Build.empty_ordered hor
    (by rintro (⟨_, h, _⟩ | ⟨_, h, _⟩) <;> cases h) h
  exact Enc.Bad.finish hw h1 (by omega) (h2 hby)

/-! ## With shared keys -/

/-- **C60, keys of any length, with or without shared keys.** Calls that may be rejected, but that build a document `t` of up
to 16 KiB, and shared keys that do not run out and have two to 15 bytes: the output decodes to `t` exactly if `t` has no
string, data or key of fewer than two bytes, and no key of 16 bytes that is stored as a code. Missing: larger documents. -/
theorem C60_shared_partial (c : Cfg) (F : FloatOps) (sk scope : Option SharedKeys) (hsk : ∀ s, sk = some s → s.WF)
    (ops : List Op) (hsize : Op.total ops ≤ SizedValue.maxNarrow) (hpos : ∀ op ∈ ops, op.Possible) (hor : Orderly F {} ops)
    (e : Enc) (rs : List (Except EncodeError Unit)) (h : ({ Enc.new with sk } : Enc).run c ops = .ok (e, rs))
    (hsc : ScopeLe e.sk scope) (hroom : ∀ s, e.sk = some s → s.entries.length < 2048)
    (hmid : ∀ s, scope = some s → s.Middling) (t : Tree) (ht : (Build.run F {} ops).1.finish = some t) :
    ∃ out, e.finish c = .ok out ∧ (Decodes F scope out t ↔ ¬ t.Has (Tree.LostNode c.chars sk.isSome)) := by
  have hmn : SizedValue.maxNarrow ≤ 0x3fffffff := by decide
  have hms : SizedValue.maxNarrow < 2 ^ 64 := by decide
  obtain ⟨out, h1, h5, _⟩ := C58 c sk hsk ops (by rw [← total_eq]; omega) e rs h
  rw [← total_eq] at h5
  have hl : out.length < 2 ^ 64 := by omega
  refine ⟨out, h1, ?_⟩
  by_cases hby : t.Has Tree.ByteNode
  · obtain ⟨out', g1, g2⟩ := C60_bytes_partial c F sk hsk ops hsize hor e rs h t ht hby
    rw [h1] at g1; cases g1
    constructor
    · intro hd
      obtain ⟨v, _, hv, _⟩ := hd ⟨out, 0, true⟩ rfl (by simpa using hl)
      exact absurd hv (g2 _ rfl (by simpa using hl) v)
    · intro hno
      refine absurd (hby.imp fun u hu => ?_) hno
      cases u with
      | data d => simp only [Tree.ByteNode] at hu; simp [Tree.LostNode, hu]
      | _ => exact hu.elim
  · obtain ⟨out', g1, g2⟩ := C60_shared_lossy_partial c F sk scope hsk ops hsize hpos hor e rs h hsc hroom t ht hby
    rw [h1] at g1; cases g1
    constructor
    · intro hd hty
      exact Tree.lossyIn_none hmid t hby ((Decodes.unique hl hd g2).has (lostNode_unordered _ _) hty)
    · intro hno
      rw [Tree.lossyIn_self _ _ _ t hno] at g2
      exact g2

/-- **C60, fresh shared keys.** Calls that may be rejected, but that build a document `t` of up to 16 KiB, with new shared keys,
and read with these: the output decodes to `t` exactly if `t` has no string, data or key of fewer than two bytes, and no key
of 16 bytes that is stored as a code. Missing: larger documents. -/
theorem C60_fresh_partial (c : Cfg) (F : FloatOps) (ops : List Op) (hsize : Op.total ops ≤ SizedValue.maxNarrow)
    (hpos : ∀ op ∈ ops, op.Possible) (hor : Orderly F {} ops) (e : Enc) (rs : List (Except EncodeError Unit))
    (h : ({ Enc.new with sk := some SharedKeys.new } : Enc).run c ops = .ok (e, rs)) (t : Tree)
    (ht : (Build.run F {} ops).1.finish = some t) :
    ∃ out, e.finish c = .ok out ∧ (Decodes F e.sk out t ↔ ¬ t.Has (Tree.LostNode c.chars true)) := by
  have hsk0 : ∀ s, (some SharedKeys.new : Option SharedKeys) = some s → s.WF := by rintro s ⟨⟩; exact SharedKeys.new_wf
  have hphi := newWith_phi (some SharedKeys.new)
  have hmn : SizedValue.maxNarrow ≤ SizedValue.maxWide := by decide
  have hlen := Op.total_length ops
  have hm : SizedValue.maxNarrow < 24 * 2048 := by decide
  obtain ⟨sk', g1, g2, g3⟩ := Enc.run_table ops (newWith_wf hsk0) (by omega) h rfl
  have g2 : sk'.entries.length ≤ 0 + ops.length := g2
  exact C60_shared_partial c F _ e.sk hsk0 ops hsize hpos hor e rs h (.refl _) (by rw [g1]; rintro s ⟨⟩; omega)
    (by rw [g1]; rintro s ⟨⟩; exact g3 (fun e he => by cases he)) t ht

/-! ## Without shared keys -/

/-- **C60, what is left.** Calls that may be rejected, but that build a document `t` of up to 16 KiB, with keys, strings and
data of any length, and without shared keys. If `t` has no data of one byte, the output decodes to `t.lossy`: tiny strings
and data are numbers, and every dict ends before its first key of fewer than two bytes. Missing: shared keys; larger
documents. -/
theorem C60_lossy_partial (c : Cfg) (F : FloatOps) (ops : List Op) (hsize : Op.total ops ≤ SizedValue.maxNarrow)
    (hpos : ∀ op ∈ ops, op.Possible) (hor : Orderly F {} ops) (e : Enc) (rs : List (Except EncodeError Unit))
    (h : Enc.new.run c ops = .ok (e, rs)) (t : Tree) (ht : (Build.run F {} ops).1.finish = some t)
    (hby : ¬ t.Has Tree.ByteNode) : ∃ out, e.finish c = .ok out ∧ Decodes F none out t.lossy := by
  have hsk : e.sk = none := by
    have hphi := newWith_phi none
    have := (Enc.run_inv ops (newWith_wf (sk := none) (by simp)) (by
      have : SizedValue.maxNarrow ≤ SizedValue.maxWide := by decide
      omega) h).2.2.2.isSome
    cases hs : e.sk with
    | none => rfl
    | some s => rw [hs] at this; cases this
  rw [← Tree.lossyIn_plain c.chars t]
  exact C60_shared_lossy_partial c F none none (by simp) ops hsize hpos hor e rs h (by rw [hsk]; exact .refl _)
    (by rw [hsk]; simp) t ht hby

/-- **C60, keys of any length.** Calls that may be rejected, but that build a document `t` of up to 16 KiB without shared
keys: the output decodes to `t` exactly if `t` has no string, data or key of fewer than two bytes. Missing: shared keys;
larger documents. -/
theorem C60_keys_partial (c : Cfg) (F : FloatOps) (ops : List Op) (hsize : Op.total ops ≤ SizedValue.maxNarrow)
    (hpos : ∀ op ∈ ops, op.Possible) (hor : Orderly F {} ops) (e : Enc) (rs : List (Except EncodeError Unit))
    (h : Enc.new.run c ops = .ok (e, rs)) (t : Tree) (ht : (Build.run F {} ops).1.finish = some t) :
    ∃ out, e.finish c = .ok out ∧ (Decodes F none out t ↔ ¬ t.Has Tree.TinyNode) := by
  have hmn : SizedValue.maxNarrow ≤ 0x3fffffff := by decide
  have hms : SizedValue.maxNarrow < 2 ^ 64 := by decide
  obtain ⟨out, h1, h5, _⟩ := C58 c none (by simp) ops (by rw [← total_eq]; omega) e rs h
  rw [← total_eq] at h5
  have hl : out.length < 2 ^ 64 := by omega
  refine ⟨out, h1, ?_⟩
  by_cases hby : t.Has Tree.ByteNode
  · obtain ⟨out', g1, g2⟩ := C60_bytes_partial c F none (by simp) ops hsize hor e rs h t ht hby
    rw [h1] at g1; cases g1
    constructor
    · intro hd
      obtain ⟨v, _, hv, _⟩ := hd ⟨out, 0, true⟩ rfl (by simpa using hl)
      exact absurd hv (g2 _ rfl (by simpa using hl) v)
    · intro hno
      exact absurd (hby.imp Tree.byteNode_tiny) hno
  · obtain ⟨out', g1, g2⟩ := C60_lossy_partial c F ops hsize hpos hor e rs h t ht hby
    rw [h1] at g1; cases g1
    constructor
    · intro hd hty
      have hst := (Decodes.unique hl hd g2).load
      have := hty.lossy_lt hby
      omega
    · intro hno
      rw [Tree.lossy_self t hno] at g2
      exact g2

/-! ## A document -/

/-- `{"ab": ["", "a"]}`. -/
def tinyOps : List Op :=
  [.beginDict, .key sab, .beginArray 0, .value (.str ⟨[], by decide⟩), .value (.str ⟨[0x61], by decide⟩), .endArray, .endDict]

theorem tinyOps_ok (F : FloatOps) : AllOk F {} tinyOps := by
  intro r hr
  simp [tinyOps, Build.run, Build.next, Build.step, Build.open, Build.put, Build.close] at hr
  exact hr

theorem tinyOps_narrowable : ∀ op ∈ tinyOps, op.Narrowable false := by
  intro op hop
  simp only [tinyOps, List.mem_cons, List.not_mem_nil, or_false] at hop
  rcases hop with rfl | rfl | rfl | rfl | rfl | rfl | rfl <;> simp [Op.Narrowable, Scalar.Survives, sab]

/-- It decodes to `{"ab": [0, 353]}`, and not to itself. -/
example (F : FloatOps) : ∃ e rs out, Enc.new.run exampleCfg tinyOps = .ok (e, rs) ∧ e.finish exampleCfg = .ok out ∧
    Decodes F none out (.dict [([0x61, 0x62], .arr [.int 0, .int 353])]) ∧
    ¬ Decodes F none out (.dict [([0x61, 0x62], .arr [.str [], .str [0x61]])]) := by
  obtain ⟨e, rs, h⟩ := Enc.run_ok (c := exampleCfg) tinyOps (newWith_wf (sk := none) (by simp)) (by decide) (by
    intro op hop
    have := tinyOps_narrowable op hop
    simp only [tinyOps, List.mem_cons, List.not_mem_nil, or_false] at hop
    rcases hop with rfl | rfl | rfl | rfl | rfl | rfl | rfl <;> simp [Op.Accepted, Scalar.Survives])
  have hsk : e.sk = none := by
    have := (Enc.run_inv tinyOps (newWith_wf (sk := none) (by simp)) (by decide) h).2.2
    cases hs : e.sk with
    | none => rfl
    | some s =>
      exfalso
      have := this.2.isSome
      rw [hs] at this; cases this
  obtain ⟨out, u, h1, h2, h3⟩ := C60_narrowed_partial exampleCfg F none none (by simp) tinyOps (by decide) tinyOps_narrowable
    ((tinyOps_ok F).orderly _ (by simp)) e rs h (by rw [hsk]; exact .refl _) _ rfl
  have hu : u = .dict [([0x61, 0x62], .arr [.int 0, .int 353])] := by cases h2; rfl
  subst hu
  refine ⟨e, rs, out, h, h1, h3, ?_⟩
  obtain ⟨out', g1, g2⟩ := C60_partial exampleCfg F none none (by simp) tinyOps (by decide)
    (fun op hop => by
      have := tinyOps_narrowable op hop
      cases op with
      | value x => exact this.1
      | key k => exact this
      | _ => trivial) (tinyOps_ok F) e rs h (by rw [hsk]; exact .refl _) _ rfl
  rw [h1] at g1; cases g1
  exact fun hd => g2.mp hd (.value (.str ⟨[], by decide⟩)) (by simp [tinyOps]) (by simp [Op.TinyValue, Scalar.Tiny])

/-- Data of one byte, in an array. -/
example : ∃ e rs out, Enc.new.run exampleCfg [.beginArray 0, .value (.data [7]), .endArray] = .ok (e, rs) ∧
    e.finish exampleCfg = .ok out ∧ ∀ v, fromBytes ⟨out, 0, true⟩ ≠ .ok v := by
  obtain ⟨out, h1, h2⟩ := C60_rejected_partial exampleCfg ⟨fun _ => 0, fun _ => 0, fun _ => 0, fun _ => 0, fun _ => 0, fun _ => 0⟩ none (by simp)
    [.beginArray 0, .value (.data [7]), .endArray] (by decide)
    (by
      intro r hr
      simp [Build.run, Build.next, Build.step, Build.open, Build.put, Build.close] at hr
      exact hr) 7 (by simp) _ _ rfl
  obtain ⟨out', g1, g2, _⟩ := C58 exampleCfg none (by simp) [.beginArray 0, .value (.data [7]), .endArray] (by decide) _ _ rfl
  rw [h1] at g1; cases g1
  refine ⟨_, _, out, rfl, h1, h2 ⟨out, 0, true⟩ rfl ?_⟩
  have : 24 * [Op.beginArray 0, .value (.data [7]), .endArray].length +
    ([Op.beginArray 0, .value (.data [7]), .endArray].map textBytes).sum = 73 := by decide
  simp only
  omega

/-- `{"bc": 2, "a": 1, "!!": 3}`. -/
def tinyKeyOps : List Op :=
  [.beginDict, .key ⟨[0x62, 0x63], by decide⟩, .value (.i16 2), .key ⟨[0x61], by decide⟩, .value (.i16 1),
    .key ⟨[0x21, 0x21], by decide⟩, .value (.i16 3), .endDict]

theorem tinyKeyOps_ok (F : FloatOps) : AllOk F {} tinyKeyOps := by
  intro r hr
  simp [tinyKeyOps, Build.run, Build.next, Build.step, Build.open, Build.put, Build.close] at hr
  exact hr

theorem tinyKeyOps_possible : ∀ op ∈ tinyKeyOps, op.Possible := by
  intro op hop
  simp only [tinyKeyOps, List.mem_cons, List.not_mem_nil, or_false] at hop
  rcases hop with rfl | rfl | rfl | rfl | rfl | rfl | rfl | rfl <;> simp [Op.Possible, Scalar.Survives, ShortRange]

/-- It decodes to `{"!!": 3}`: the key `a` and all that sort after it are gone. -/
example (F : FloatOps) : ∃ e rs out, Enc.new.run exampleCfg tinyKeyOps = .ok (e, rs) ∧ e.finish exampleCfg = .ok out ∧
    Decodes F none out (.dict [([0x21, 0x21], .int 3)]) ∧
    ¬ Decodes F none out (.dict [([0x62, 0x63], .int 2), ([0x61], .int 1), ([0x21, 0x21], .int 3)]) := by
  obtain ⟨e, rs, h⟩ := Enc.run_ok (c := exampleCfg) tinyKeyOps (newWith_wf (sk := none) (by simp)) (by decide) (by
    intro op hop
    simp only [tinyKeyOps, List.mem_cons, List.not_mem_nil, or_false] at hop
    rcases hop with rfl | rfl | rfl | rfl | rfl | rfl | rfl | rfl <;> simp [Op.Accepted, Scalar.Survives, ShortRange])
  have hor := (tinyKeyOps_ok F).orderly _ (by simp)
  have hnb : ¬ (Tree.dict [([0x62, 0x63], .int 2), ([0x61], .int 1), ([0x21, 0x21], .int 3)]).Has Tree.ByteNode := by
    rw [Tree.has_dict byteNode_leaf]
    rintro ⟨kv, hkv, hh⟩
    simp only [List.mem_cons, List.not_mem_nil, or_false] at hkv
    rcases hkv with rfl | rfl | rfl <;> (cases hh with | here h => exact h)
  have ht : (Build.run F {} tinyKeyOps).1.finish =
    some (.dict [([0x62, 0x63], .int 2), ([0x61], .int 1), ([0x21, 0x21], .int 3)]) := rfl
  obtain ⟨out, h1, h2⟩ := C60_lossy_partial exampleCfg F tinyKeyOps (by decide) tinyKeyOps_possible hor e rs h _ ht hnb
  obtain ⟨out', g1, g2⟩ := C60_keys_partial exampleCfg F tinyKeyOps (by decide) tinyKeyOps_possible hor e rs h _ ht
  rw [h1] at g1; cases g1
  exact ⟨e, rs, out, h, h1, h2, fun hd => g2.mp hd (.here ⟨([0x61], .int 1), by simp, by simp⟩)⟩

/-- `{"ab": 1, "": 2}`. -/
def takenKeyOps : List Op :=
  [.beginDict, .key ⟨[0x61, 0x62], by decide⟩, .value (.i16 1), .key ⟨[], by decide⟩, .value (.i16 2), .endDict]

theorem takenKeyOps_ok (F : FloatOps) : AllOk F {} takenKeyOps := by
  intro r hr
  simp [takenKeyOps, Build.run, Build.next, Build.step, Build.open, Build.put, Build.close] at hr
  exact hr

theorem takenKeyOps_possible : ∀ op ∈ takenKeyOps, op.Possible := by
  intro op hop
  simp only [takenKeyOps, List.mem_cons, List.not_mem_nil, or_false] at hop
  rcases hop with rfl | rfl | rfl | rfl | rfl | rfl <;> simp [Op.Possible, Scalar.Survives, ShortRange]

/-- **C60, a key turns into another.** With new shared keys the document `{"ab": 1, "": 2}` decodes to `{"ab": 1, "ab": 2}`: the
empty key turns into the number 0, which is the code of `ab`. -/
theorem C60_key_taken (F : FloatOps) : ∃ e rs out,
    ({ Enc.new with sk := some SharedKeys.new } : Enc).run exampleCfg takenKeyOps = .ok (e, rs) ∧ (∀ r ∈ rs, r = .ok ()) ∧
    e.finish exampleCfg = .ok out ∧ Decodes F e.sk out (.dict [([0x61, 0x62], .int 1), ([0x61, 0x62], .int 2)]) ∧
    ¬ Decodes F e.sk out (.dict [([0x61, 0x62], .int 1), ([], .int 2)]) := by
  have hsk0 : ∀ s, (some SharedKeys.new : Option SharedKeys) = some s → s.WF := by rintro s ⟨⟩; exact SharedKeys.new_wf
  have hwf := newWith_wf hsk0
  have hor := (takenKeyOps_ok F).orderly _ (by simp)
  obtain ⟨e, rs, h⟩ := Enc.run_ok (c := exampleCfg) takenKeyOps hwf (by decide) (by
    intro op hop
    simp only [takenKeyOps, List.mem_cons, List.not_mem_nil, or_false] at hop
    rcases hop with rfl | rfl | rfl | rfl | rfl | rfl <;> simp [Op.Accepted, Scalar.Survives, ShortRange])
  have hsk : e.sk = some ⟨[([0x61, 0x62], 0)]⟩ := by
    have : (do let x ← ({ Enc.new with sk := some SharedKeys.new } : Enc).run exampleCfg takenKeyOps; pure x.1.sk) =
      (.ok (some ⟨[([0x61, 0x62], 0)]⟩) : Exec (Option SharedKeys)) := by rfl
    rw [h] at this
    simpa [ok_bind, pure_eq] using this
  have hrs : ∀ r ∈ rs, r = .ok () := by
    rw [(results_go exampleCfg F takenKeyOps (b := {}) hwf (by decide) ⟨rfl, rfl⟩ hor.noDiscard h).1]; exact takenKeyOps_ok F
  have hnb : ¬ (Tree.dict [([0x61, 0x62], .int 1), ([], .int 2)]).Has Tree.ByteNode := by
    rw [Tree.has_dict byteNode_leaf]
    rintro ⟨kv, hkv, hh⟩
    simp only [List.mem_cons, List.not_mem_nil, or_false] at hkv
    rcases hkv with rfl | rfl <;> (cases hh with | here h => exact h)
  have ht : (Build.run F {} takenKeyOps).1.finish = some (.dict [([0x61, 0x62], .int 1), ([], .int 2)]) := rfl
  obtain ⟨out, h1, h2⟩ := C60_shared_lossy_partial exampleCfg F _ e.sk hsk0 takenKeyOps (by decide) takenKeyOps_possible hor e rs h
    (.refl _) (by rw [hsk]; rintro s ⟨⟩; decide) _ ht hnb
  obtain ⟨out', g1, g2⟩ := C60_fresh_partial exampleCfg F takenKeyOps (by decide) takenKeyOps_possible hor e rs h _ ht
  rw [h1] at g1; cases g1
  refine ⟨e, rs, out, h, hrs, h1, ?_, fun hd => g2.mp hd (.here ⟨([], .int 2), by simp, by simp⟩)⟩
  rw [hsk] at h2 ⊢
  exact h2

end Fleece.Props
