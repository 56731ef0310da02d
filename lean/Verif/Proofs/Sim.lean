import Verif.Proofs.Content
import Verif.Proofs.EncRun
import Verif.Proofs.KeyOrder
import Verif.Props.C23

/-! # The encoder writes what the specification builds -/

namespace Fleece
open Res

variable {P : List UInt8 → Prop}

/-- An element of an open collection stands for `t`, up to the order of dict entries. -/
def SlotLike (out : List UInt8) (F : FloatOps) (P : List UInt8 → Prop) (scope : Option SharedKeys) (s : SizedValue) (t : Tree) : Prop :=
  ∃ t', SlotFor out F P scope s t' ∧ Tree.Same t t'

/-- The same for a pair. -/
def PairLike (out : List UInt8) (F : FloatOps) (P : List UInt8 → Prop) (scope : Option SharedKeys) (el : DictElem) (kv : List UInt8 × Tree) : Prop :=
  ∃ kv', PairFor out F P scope el kv' ∧ kv.1 = kv'.1 ∧ Tree.Same kv.2 kv'.2

/-- The pending key. -/
def PendFor (out : List UInt8) (F : FloatOps) (P : List UInt8 → Prop) (scope : Option SharedKeys) : Option DictKey → Option (List UInt8) → Prop
  | none, none => True
  | some dk, some k => KeyFor out F P scope dk k
  | _, _ => False

/-- An open collection of the encoder stands for one of the specification. -/
def FrameFor (out : List UInt8) (F : FloatOps) (P : List UInt8 → Prop) (scope : Option SharedKeys) : Collection → Frame → Prop
  | .arr vs, .arr xs => All2 (SlotLike out F P scope) vs xs
  | .dict els nk, .dict kvs k => All2 (PairLike out F P scope) els kvs ∧ PendFor out F P scope nk k
  | _, _ => False

theorem SlotLike.mono {out out' : List UInt8} {F : FloatOps} {scope scope' : Option SharedKeys} {s : SizedValue} {t : Tree}
    (h : SlotLike out F P scope s t) (hd : out <+: out') (hs : ScopeLe scope scope') : SlotLike out' F P scope' s t := by
  obtain ⟨t', h1, h2⟩ := h
  exact ⟨t', h1.mono hd hs, h2⟩

theorem PairLike.mono {out out' : List UInt8} {F : FloatOps} {scope scope' : Option SharedKeys} {el : DictElem}
    {kv : List UInt8 × Tree} (h : PairLike out F P scope el kv) (hd : out <+: out') (hs : ScopeLe scope scope') :
    PairLike out' F P scope' el kv := by
  obtain ⟨kv', ⟨h1, h2⟩, h3⟩ := h
  exact ⟨kv', ⟨h1.mono hd hs, h2.mono hd hs⟩, h3⟩

theorem FrameFor.mono {out out' : List UInt8} {F : FloatOps} {scope scope' : Option SharedKeys} {coll : Collection} {f : Frame}
    (h : FrameFor out F P scope coll f) (hd : out <+: out') (hs : ScopeLe scope scope') : FrameFor out' F P scope' coll f := by
  cases coll with
  | arr vs =>
    cases f with
    | arr xs => exact All2.imp h fun _ _ h => h.mono hd hs
    | dict _ _ => exact h
  | dict els nk =>
    cases f with
    | arr xs => exact h
    | dict kvs k =>
      refine ⟨h.1.imp fun _ _ h => h.mono hd hs, ?_⟩
      have h2 := h.2
      cases nk <;> cases k
      · trivial
      · exact h2
      · exact h2
      · exact KeyFor.mono h2 hd hs

/-- The encoder state stands for the state of the specification. -/
structure Sim (F : FloatOps) (P : List UInt8 → Prop) (e : Enc) (b : Build) : Prop where
  shape : Shape e b
  stack : All2 (FrameFor e.out F P e.sk) e.stack b.stack
  root : ∀ t, b.root = some t → ∃ pre p en t', Tree.Same t t' ∧ e.out = pre ++ rootBytes (pre.length - p) ∧
    Rep pre F P e.sk none p en t' ∧ pre.length % 2 = 0 ∧ p % 2 = 0 ∧ pre.length - p ≤ SizedValue.maxWide

theorem Sim.new (F : FloatOps) (sk : Option SharedKeys) : Sim F P { Enc.new with sk } {} :=
  ⟨⟨rfl, rfl⟩, .nil, by intro t h; cases h⟩

theorem SkLe.scope {a b : Option SharedKeys} (h : SkLe a b) : ScopeLe a b := by
  intro sk hsk
  subst hsk
  cases b with
  | none => cases h
  | some sk' => exact ⟨sk', rfl, h⟩

/-! ## Putting a value into a collection -/

theorem put_frame {out : List UInt8} {F : FloatOps} {scope : Option SharedKeys} {coll : Collection} {f : Frame} {s : SizedValue}
    {t : Tree} (h : FrameFor out F P scope coll f) (hs : SlotLike out F P scope s t) (hc : ∀ els, coll ≠ .dict els none)
    {b : Build} {fr : List Frame} (hb : b.stack = f :: fr) :
    ∃ f', b.put t = .ok { b with stack := f' :: fr } ∧ FrameFor out F P scope (coll.put s) f' ∧
      Build.close (f :: fr) t = { stack := f' :: fr } := by
  cases coll with
  | arr vs =>
    cases f with
    | arr xs => exact ⟨.arr (xs ++ [t]), by simp only [Build.put, hb], All2.snoc h hs, rfl⟩
    | dict _ _ => exact h.elim
  | dict els nk =>
    cases f with
    | arr xs => exact h.elim
    | dict kvs k =>
      cases nk with
      | none => exact absurd rfl (hc els)
      | some dk =>
        cases k with
        | none => exact h.2.elim
        | some k =>
          obtain ⟨t', h1, h2⟩ := hs
          exact ⟨.dict (kvs ++ [(k, t)]) none, by simp only [Build.put, hb],
            ⟨h.1.snoc ⟨(k, t'), ⟨h.2, h1⟩, rfl, h2⟩, trivial⟩, rfl⟩

/-- Closing: the written collection becomes the root or an element. -/
theorem sim_close {F : FloatOps} {e : Enc} {off en : Nat} {t t' : Tree} {fr : List Frame} (hcl : e.closed = false)
    (hk : e.stack.map Collection.kind = fr.map Frame.kind) (hst : All2 (FrameFor e.out F P e.sk) e.stack fr)
    (hwait : ∀ els rest, e.stack ≠ .dict els none :: rest)
    (hrep : Rep e.out F P e.sk none off en t') (hsame : Tree.Same t t') (hoe : off % 2 = 0) (he : e.out.length % 2 = 0)
    (hmax : e.out.length ≤ SizedValue.maxWide) : Sim F P (e.closeEnc off) (Build.close fr t) := by
  have hle := hrep.le
  refine ⟨closeEnc_shape t hk hcl, ?_, ?_⟩
  · unfold Enc.closeEnc
    cases hs : e.stack with
    | nil =>
      rw [hs] at hst
      cases hst
      exact .nil
    | cons coll rest =>
      rw [hs] at hst
      cases hst with
      | @cons _ f _ frest hf hrest =>
        obtain ⟨_, p2, p3⟩ := ptrSlot_spec (off := off) (by omega)
        have hslot : SlotLike e.out F P e.sk (ptrSlot off) t := ⟨t', .pointer p2 p3 hoe hrep, hsame⟩
        obtain ⟨f', _, h2, h3⟩ := put_frame hf hslot (fun els h => hwait els rest (by rw [hs, h])) (b := ⟨f :: frest, none⟩) rfl
        rw [h3]
        exact .cons h2 hrest
  · intro x hx
    cases hs : e.stack with
    | nil =>
      rw [hs] at hst
      cases hst
      simp only [Build.close, Option.some.injEq] at hx
      subst hx
      refine ⟨e.out, off, en, t', hsame, ?_, ?_, he, hoe, by omega⟩
      · unfold Enc.closeEnc; rw [hs]
      · rw [Enc.closeEnc_sk]; exact hrep
    | cons coll rest =>
      rw [hs] at hst
      cases hst with
      | @cons _ f _ frest hf hrest =>
        cases f with
        | arr xs => cases hx
        | dict a b => cases b <;> cases hx

/-! ## Closing collections -/

/-- An open array, closed. -/
theorem arr_rep {out : List UInt8} {F : FloatOps} {scope : Option SharedKeys} {vs : List SizedValue} {xs : List Tree}
    (he : out.length % 2 = 0) (h : All2 (SlotLike out F P scope) vs xs) (hf : ArrFits out vs)
    (hsz : out.length + 12 + 4 * vs.length ≤ SizedValue.maxWide) :
    ∃ t', Rep (Enc.arrOut out vs) F P scope none out.length (Enc.arrOut out vs).length t' ∧ Tree.Same (.arr xs) t' := by
  obtain ⟨ts, h1, h2⟩ := All2.choose h
  exact ⟨.arr ts, close_arr he h1 hf hsz, .arr h2.length fun i x y hx hy => h2.get hx hy⟩

/-- An open dict, closed. -/
theorem dict_rep {c : Cfg} {out : List UInt8} {F : FloatOps} {scope : Option SharedKeys} {els : List DictElem}
    {kvs : List (List UInt8 × Tree)} {w : Bool} (he : out.length % 2 = 0) (h : All2 (PairLike out F P scope) els kvs)
    (hf : DictFits out w (c.sort.run els)) (hsz : out.length + 12 + 8 * els.length ≤ SizedValue.maxWide) :
    ∃ t', Rep (Enc.dictOut out w (c.sort.run els)) F P scope none out.length (Enc.dictOut out w (c.sort.run els)).length t' ∧
      Tree.Same (.dict kvs) t' := by
  obtain ⟨mid, hp, h1⟩ := All2.perm (c.sort.perm els) h
  obtain ⟨lvs, h2, h3⟩ := All2.choose h1
  refine ⟨.dict lvs, close_dict he h2 hf (by rw [(c.sort.perm els).length_eq]; exact hsz) (c.sort.sorted els), ?_⟩
  exact .dict hp (h3.imp fun _ _ h => h.1).map_eq fun i x y hx hy => (h3.get hx hy).2

/-! ## Keys and values -/

theorem writeData_at {F : FloatOps} {e : Enc} {k bs tail : List UInt8} (hk : k.length < 2 ^ 63) (hu : validUtf8 k = true)
    (hb : writeData 0x40 k (dataSize k.length) false = .ok (some bs)) (ht : e.out ++ tail = padEven (e.out ++ bs)) :
    At (e.out ++ tail) e.out.length bs ∧ ScalarBytes F bs .string (.str k) := by
  obtain ⟨bs', h1, _, h3⟩ := writeData_ok (F := F) false k hk (fun _ => hu)
  simp only [Bool.false_eq_true, if_false] at h1 h3
  rw [h1] at hb
  cases hb
  refine ⟨?_, h3⟩
  rw [ht]
  exact At.mono ⟨e.out, [], by simp, rfl⟩ (padEven_prefix _)

/-- The text `k`, written as a key now, is kept as a string rather than as a code. -/
def KeptAsString (c : Cfg) (e : Enc) (k : List UInt8) : Prop :=
  k.length < 2 ∨ e.sk = none ∨ ∃ sk, e.sk = some sk ∧ (sk.encodeAndInsert c.chars k).2 = none

theorem KeyStored.keyFor {c : Cfg} {F : FloatOps} {e : Enc} (hw : e.WF) {k : RStr} {dk : DictKey} {tail : List UInt8}
    {sk' : Option SharedKeys} (h : KeyStored c e k.bytes dk tail sk') (hk : k.bytes.length < 2 ^ 63)
    (h16 : e.sk.isSome = true → k.bytes.length ≠ 16) (hP : KeptAsString c e k.bytes → P k.bytes) :
    KeyFor (e.out ++ tail) F P sk' dk k.bytes := by
  have hev := hw.even
  cases h with
  | inline h =>
    have := data_slot (F := F) false (fun _ => k.valid) h
    refine .inline this.1 (Props.inline_str k.valid h) (hP (.inl ?_))
    by_cases h2 : 2 ≤ k.bytes.length
    · rw [dataSized_none.mpr h2] at h; cases h
    · omega
  | @shared sk sk' code hsk h2 h =>
    obtain ⟨_, _, h3, h4, _, h6, h7, _⟩ := (hw.sk _ hsk).insert_some c.chars h
    have hne := h16 (by rw [hsk]; rfl)
    rw [SharedKeys.zstr_eq (by omega) (SharedKeys.canEncode_no_nul h7)] at h3
    exact .shared (by omega) rfl h3
  | plain hsk h2 hb hl ht =>
    obtain ⟨h3, h4⟩ := writeData_at (F := F) hk k.valid hb ht
    exact .pointer h3 h4 hev (hP (.inr (.inl hsk)))
  | unshared hsk h2 h hb hl ht =>
    obtain ⟨h3, h4⟩ := writeData_at (F := F) hk k.valid hb ht
    exact .pointer h3 h4 hev (hP (.inr (.inr ⟨_, hsk, by rw [h]⟩)))

theorem ValueStored.slotFor {c : Cfg} {F : FloatOps} {e : Enc} (hw : e.WF) (hphi : e.phi ≤ SizedValue.maxWide) {x : Scalar}
    (hx : x.Survives) {s : SizedValue} {tail : List UInt8} (h : ValueStored c e x s tail) (scope : Option SharedKeys) :
    SlotFor (e.out ++ tail) F P scope s (x.tree F) := by
  have hev := hw.even
  have hout := e.phi_out
  cases h with
  | inline h => exact .inline (Scalar.toSized_ok hx h).1
  | pointer h hb hl ht =>
    obtain ⟨bs', ty, h1, _, h3⟩ := Scalar.writeTo_ok (F := F) c.dbg hx (Nat.le_refl _)
    rw [h1] at hb
    cases hb
    obtain ⟨_, p2, p3⟩ := ptrSlot_spec (off := e.out.length) (by omega)
    refine .pointer p2 p3 hev (.scalar ?_ h3)
    rw [ht]
    exact At.mono ⟨e.out, [], by simp, rfl⟩ (padEven_prefix _)

/-! ## One call -/

/-- The conditions under which a call does what it should. `endArray`/`endDict`: the collection fits its width, and is the
right one (`end_array` on a dict discards it). `key`: not after the document is complete; no shared key of 16 bytes.
`value`: a scalar the code can write. -/
def StepOK (c : Cfg) (e : Enc) : Op → Prop
  | .beginArray _ | .beginDict => True
  | .key k => e.closed = false ∧ k.bytes.length < 2 ^ 63 ∧ (e.sk.isSome = true → k.bytes.length ≠ 16)
  | .value x => x.Survives
  | .endArray => e.waitingForKey = false ∧ ∀ vs rest, e.stack = .arr vs :: rest → ArrFits e.out vs
  | .endDict => ∀ els rest, e.stack = .dict els none :: rest →
      DictFits e.out (els.any (Enc.pairFar e.out.length)) (c.sort.run els)

/-- Keys kept as strings satisfy `P`. -/
def StepKeys (c : Cfg) (P : List UInt8 → Prop) (e : Enc) (op : Op) : Prop :=
  ∀ k : RStr, op = .key k → KeptAsString c e k.bytes → P k.bytes

/-- After the document is complete nothing but `write_key` writes. -/
theorem closed_step {c : Cfg} {e e' : Enc} {op : Op} {r : Except EncodeError Unit} (hs : e.stack = []) (hc : e.closed = true)
    (hk : ∀ k, op ≠ .key k) (h : e.step c op = .ok (e', r)) : e' = e := by
  cases op with
  | key k => exact absurd rfl (hk k)
  | beginArray n =>
    simp only [Enc.step, Enc.beginArray, hc, if_true, Enc.fail] at h
    cases h; rfl
  | beginDict =>
    simp only [Enc.step, Enc.beginDict, hc, if_true, Enc.fail] at h
    cases h; rfl
  | value x =>
    simp only [Enc.step, Enc.writeValue, hs, List.isEmpty_nil, if_true, Enc.fail] at h
    cases h; rfl
  | endArray =>
    simp only [Enc.step, Enc.endArray, hs, Enc.fail] at h
    cases h; rfl
  | endDict =>
    simp only [Enc.step, Enc.endDict, hs, Enc.fail] at h
    cases h; rfl

/-- Dicts below the innermost collection have a pending key. -/
def Enc.Nested (e : Enc) : Prop := ∀ a b els r, e.stack = a ++ b :: .dict els none :: r → False

theorem Enc.Nested.tail {e : Enc} (h : e.Nested) {coll : Collection} {rest : List Collection} (hs : e.stack = coll :: rest)
    {e' : Enc} {coll' : Collection} (hs' : e'.stack = coll' :: rest) : e'.Nested := by
  intro a b els r heq
  rw [hs'] at heq
  cases a with
  | nil =>
    simp only [List.nil_append, List.cons.injEq] at heq
    exact h [] coll els r (by rw [hs, heq.2]; rfl)
  | cons x a =>
    simp only [List.cons_append, List.cons.injEq] at heq
    exact h (coll :: a) b els r (by rw [hs, heq.2]; rfl)

theorem Enc.Nested.rest {e : Enc} (h : e.Nested) {coll : Collection} {rest : List Collection} (hs : e.stack = coll :: rest)
    {e' : Enc} (hs' : e'.stack = rest) : e'.Nested := by
  intro a b els r heq
  rw [hs'] at heq
  exact h (coll :: a) b els r (by rw [hs, heq]; rfl)

theorem Enc.Nested.push {e : Enc} (h : e.Nested) (hw : e.waitingForKey = false) {coll : Collection} {e' : Enc}
    (hs' : e'.stack = coll :: e.stack) : e'.Nested := by
  intro a b els r heq
  rw [hs'] at heq
  cases a with
  | nil =>
    simp only [List.nil_append, List.cons.injEq] at heq
    unfold waitingForKey at hw
    rw [heq.2] at hw; cases hw
  | cons x a =>
    simp only [List.cons_append, List.cons.injEq] at heq
    exact h a b els r heq.2

theorem Enc.Nested.closeEnc {e : Enc} (h : e.Nested) (o : Nat) : (e.closeEnc o).Nested := by
  unfold Enc.closeEnc
  cases hs : e.stack with
  | nil => simp only; intro a b els r heq; simp only at heq; cases a <;> cases heq
  | cons coll rest => exact h.tail hs rfl

theorem Enc.Nested.below {e : Enc} (h : e.Nested) {coll : Collection} {rest : List Collection} (hs : e.stack = coll :: rest) :
    ∀ els r, rest ≠ .dict els none :: r := by
  intro els r heq
  exact h [] coll els r (by rw [hs, heq]; rfl)

theorem Trans.nested {c : Cfg} {e e' : Enc} {op : Op} {r : Except EncodeError Unit} (h : Trans c e op e' r) (hn : e.Nested) :
    e'.Nested := by
  cases h with
  | reject hx heven hl hsk hwf _ => exact hn
  | discard hs => exact hn.rest hs rfl
  | openArr hc hw => exact hn.push hw rfl
  | openDict hc hw => exact hn.push hw rfl
  | key hs hk => exact hn.tail hs rfl
  | value hs hc hv => exact hn.tail hs rfl
  | endArr hs => exact Enc.Nested.closeEnc (hn.rest hs rfl) _
  | endDict hs => exact Enc.Nested.closeEnc (hn.rest hs rfl) _

theorem Sim.stack_mono {F : FloatOps} {out out' : List UInt8} {scope scope' : Option SharedKeys} {st : List Collection}
    {fs : List Frame} (h : All2 (FrameFor out F P scope) st fs) (hd : out <+: out') (hs : ScopeLe scope scope') :
    All2 (FrameFor out' F P scope') st fs := h.imp fun _ _ h => h.mono hd hs

/-- **One call.** The encoder keeps standing for what the specification builds. -/
theorem Sim.step {c : Cfg} {F : FloatOps} {e e' : Enc} {b : Build} {op : Op} {r : Except EncodeError Unit} (hw : e.WF)
    (hn : e.Nested) (hphi : e.phi ≤ SizedValue.maxWide) (ho : op.weight < 2 ^ 64) (hsim : Sim F P e b) (hok : StepOK c e op)
    (hks : StepKeys c P e op)     (h : e.step c op = .ok (e', r)) : Sim F P e' (b.next F op).1 := by
  have hmw : SizedValue.maxWide < 2 ^ 32 := by decide
  have hout := e.phi_out
  have ht := Enc.step_trans hw hphi ho h
  have hshape := (ht.shape hw F hsim.shape).2 (by
    rintro ⟨rfl, hwait⟩
    have := hok.1; rw [hwait] at this; cases this)
  have of_ok : ∀ {b' : Build}, b.step F op = .ok b' → Sim F P e' b' → Sim F P e' (b.next F op).1 := by
    intro b' h1 h2
    unfold Build.next; rw [h1]; exact h2
  cases ht with
  | @reject _ x tail sk' hx heven hl hsk hwf _ =>
    have hnext : (b.next F op).1 = b := by unfold Build.next; rw [hx F b hsim.shape]
    rw [hnext] at hshape ⊢
    refine ⟨hshape, Sim.stack_mono hsim.stack (List.prefix_append _ _) hsk.scope, ?_⟩
    intro t hroot
    have hcl : e.closed = true := by rw [hsim.shape.closed, hroot]; rfl
    have := closed_step (hw.closed hcl) hcl (by
      rintro k rfl
      have := hok.1; rw [hcl] at this; cases this) h
    rw [this]
    exact hsim.root t hroot
  | discard hs =>
    have := hok.1
    unfold Enc.waitingForKey at this
    rw [hs] at this; cases this
  | @openArr n hc hk =>
    have hr : b.root.isSome = false := by rw [← hsim.shape.closed]; exact hc
    have hnw := hsim.shape.notWaiting hk
    have hst : b.step F (.beginArray n) = .ok { b with stack := .arr [] :: b.stack } := by
      simp only [Build.step, Build.open, hr, Bool.false_eq_true, if_false]
    have hb' : (b.next F (.beginArray n)).1 = { b with stack := .arr [] :: b.stack } := by unfold Build.next; rw [hst]
    refine of_ok hst ⟨by rw [← hb']; exact hshape, .cons .nil hsim.stack, ?_⟩
    intro t hroot
    simp only at hroot
    rw [hroot] at hr; cases hr
  | openDict hc hk =>
    have hr : b.root.isSome = false := by rw [← hsim.shape.closed]; exact hc
    have hnw := hsim.shape.notWaiting hk
    have hst : b.step F .beginDict = .ok { b with stack := .dict [] none :: b.stack } := by
      simp only [Build.step, Build.open, hr, Bool.false_eq_true, if_false]
    have hb' : (b.next F .beginDict).1 = { b with stack := .dict [] none :: b.stack } := by unfold Build.next; rw [hst]
    refine of_ok hst ⟨by rw [← hb']; exact hshape, .cons ⟨.nil, trivial⟩ hsim.stack, ?_⟩
    intro t hroot
    simp only at hroot
    rw [hroot] at hr; cases hr
  | @key k dk tail sk' els rest hs hk =>
    obtain ⟨f, fr, h1, h2, h3⟩ := hsim.shape.cons hs
    obtain ⟨kvs, rfl⟩ := kind_dict_none h2
    have hst : b.step F (.key k) = .ok { b with stack := .dict kvs (some k.bytes) :: fr } := by
      simp only [Build.step, h1]
    have hb' : (b.next F (.key k)).1 = { b with stack := .dict kvs (some k.bytes) :: fr } := by unfold Build.next; rw [hst]
    have hall := hsim.stack
    rw [hs, h1] at hall
    obtain ⟨_, hk2, hk3⟩ := hok
    obtain ⟨_, _, _, hle, _⟩ := hk.facts hw (by omega)
    cases hall with
    | cons hf hrest =>
      have hf' := hf.mono (List.prefix_append e.out tail) hle.scope
      refine of_ok hst ⟨by rw [← hb']; exact hshape, .cons ⟨hf'.1, hk.keyFor hw hk2 hk3 (hks k rfl)⟩
        (Sim.stack_mono hrest (List.prefix_append e.out tail) hle.scope), ?_⟩
      intro t hroot
      have := hw.notClosed hs
      rw [hsim.shape.closed, show b.root = some t from hroot] at this; cases this
  | @value x s tail coll rest hs hc hv =>
    obtain ⟨f, fr, h1, h2, h3⟩ := hsim.shape.cons hs
    have hall := hsim.stack
    rw [hs, h1] at hall
    have hslot := hv.slotFor (F := F) (P := P) hw hphi hok e.sk
    cases hall with
    | cons hf hrest =>
      have hf' := hf.mono (List.prefix_append e.out tail) (.refl _)
      obtain ⟨f', h4, h5, _⟩ := put_frame hf' ⟨_, hslot, .refl _⟩ hc h1
      have hst : b.step F (.value x) = .ok { b with stack := f' :: fr } := h4
      have hb' : (b.next F (.value x)).1 = { b with stack := f' :: fr } := by unfold Build.next; rw [hst]
      refine of_ok hst ⟨by rw [← hb']; exact hshape, .cons h5
        (Sim.stack_mono hrest (List.prefix_append e.out tail) (.refl _)), ?_⟩
      intro t hroot
      have := hw.notClosed hs
      rw [hsim.shape.closed, show b.root = some t from hroot] at this; cases this
  | @endArr vs rest hs =>
    obtain ⟨f, fr, h1, h2, h3⟩ := hsim.shape.cons hs
    obtain ⟨xs, rfl⟩ := kind_arr h2
    have hall := hsim.stack
    rw [hs, h1] at hall
    have hp := Enc.phi_cons hs
    simp only [Collection.cost] at hp
    have hlen := arrOut_length hw.even vs (by omega)
    cases hall with
    | cons hf hrest =>
      obtain ⟨t', h4, h5⟩ := arr_rep hw.even hf (hok.2 vs rest hs) (by omega)
      refine of_ok (b' := Build.close fr (.arr xs)) (by simp only [Build.step, h1]) ?_
      exact sim_close (hw.notClosed hs) h3 (Sim.stack_mono hrest (arrOut_prefix _ _) (.refl _)) (hn.below hs) h4 h5
        hw.even hlen.1 (by simp only; omega)
  | @endDict els rest hs =>
    obtain ⟨f, fr, h1, h2, h3⟩ := hsim.shape.cons hs
    obtain ⟨kvs, rfl⟩ := kind_dict_none h2
    have hall := hsim.stack
    rw [hs, h1] at hall
    have hp := Enc.phi_cons hs
    simp only [Collection.cost] at hp
    have hlen := dictOut_length hw.even (els.any (Enc.pairFar e.out.length)) (c.sort.run els)
      (by rw [(c.sort.perm els).length_eq]; omega)
    rw [(c.sort.perm els).length_eq] at hlen
    cases hall with
    | cons hf hrest =>
      obtain ⟨t', h4, h5⟩ := dict_rep hw.even hf.1 (hok els rest hs) (by omega)
      refine of_ok (b' := Build.close fr (.dict kvs)) (by simp only [Build.step, h1]) ?_
      exact sim_close (hw.notClosed hs) h3 (Sim.stack_mono hrest (dictOut_prefix _ _ _) (.refl _)) (hn.below hs) h4 h5
        hw.even hlen.1 (by simp only; omega)

/-! ## Sequences, and `finish` -/

/-- `StepOK` along a sequence of calls. -/
def RunOK (c : Cfg) : Enc → List Op → Prop
  | _, [] => True
  | e, op :: ops => StepOK c e op ∧ ∀ e' r, e.step c op = .ok (e', r) → RunOK c e' ops

/-- `StepKeys` along a sequence of calls. -/
def RunKeys (c : Cfg) (P : List UInt8 → Prop) : Enc → List Op → Prop
  | _, [] => True
  | e, op :: ops => StepKeys c P e op ∧ ∀ e' r, e.step c op = .ok (e', r) → RunKeys c P e' ops

theorem RunKeys.trivial (c : Cfg) (ops : List Op) : ∀ e, RunKeys c (fun _ => True) e ops := by
  induction ops with
  | nil => intro e; exact True.intro
  | cons op ops ih => intro e; exact ⟨fun _ _ _ => True.intro, fun e' _ _ => ih e'⟩

theorem Sim.run {c : Cfg} {F : FloatOps} (ops : List Op) : ∀ {e e' : Enc} {b : Build} {rs : List (Except EncodeError Unit)},
    e.WF → e.Nested → e.phi + Op.total ops ≤ SizedValue.maxWide → Sim F P e b → RunOK c e ops → RunKeys c P e ops → e.run c ops = .ok (e', rs) →
    Sim F P e' (b.run F ops).1 ∧ e'.Nested := by
  have hmw : SizedValue.maxWide < 2 ^ 32 := by decide
  induction ops with
  | nil => intro e e' b rs _ hn _ hs _ _ h; cases h; exact ⟨hs, hn⟩
  | cons op ops ih =>
    intro e e' b rs hw hn hp hs hok hks h
    rw [Op.total_cons] at hp
    obtain ⟨e1, r, rs', h1, h2, rfl⟩ := Enc.run_cons h
    have ht := Enc.step_trans hw (by omega) (by omega) h1
    obtain ⟨hw1, hp1⟩ := ht.inv hw (by omega) (by omega)
    have hs1 := Sim.step hw hn (by omega) (by omega) hs hok.1 hks.1 h1
    exact ih hw1 (ht.nested hn) (by omega) hs1 (hok.2 _ _ h1) (hks.2 _ _ h1) h2

/-- The innermost collection fits its width. -/
def CloseOK (c : Cfg) (e : Enc) : Prop :=
  (∀ vs rest, e.stack = .arr vs :: rest → ArrFits e.out vs) ∧
  (∀ els nk rest, e.stack = .dict els nk :: rest → DictFits e.out (els.any (Enc.pairFar e.out.length)) (c.sort.run els))

/-- All collections closed by `finish` do. -/
def FinishOK (c : Cfg) : Nat → Enc → Prop
  | 0, _ => True
  | n + 1, e => CloseOK c e ∧ FinishOK c n (e.closeTop c)

theorem Sim.closeTop {c : Cfg} {F : FloatOps} {e : Enc} {b : Build} (hw : e.WF) (hn : e.Nested)
    (hphi : e.phi ≤ SizedValue.maxWide) (hs : Sim F P e b) (hok : CloseOK c e) :
    Sim F P (e.closeTop c) b.closeTop ∧ (e.closeTop c).Nested := by
  have hmw : SizedValue.maxWide < 2 ^ 32 := by decide
  unfold Enc.closeTop Build.closeTop
  cases hst : e.stack with
  | nil => rw [hs.shape.nil hst]; exact ⟨hs, hn⟩
  | cons coll rest =>
    obtain ⟨f, fr, h1, h2, h3⟩ := hs.shape.cons hst
    rw [h1]
    have hall := hs.stack
    rw [hst, h1] at hall
    have hp := Enc.phi_cons hst
    cases coll with
    | arr vs =>
      obtain ⟨xs, rfl⟩ := kind_arr h2
      simp only [Collection.cost] at hp
      have hlen := arrOut_length hw.even vs (by omega)
      cases hall with
      | cons hf hrest =>
        obtain ⟨t', h4, h5⟩ := arr_rep hw.even hf (hok.1 vs rest hst) (by omega)
        exact ⟨sim_close (hw.notClosed hst) h3 (Sim.stack_mono hrest (arrOut_prefix _ _) (.refl _)) (hn.below hst) h4 h5
          hw.even hlen.1 (by simp only; omega), Enc.Nested.closeEnc (hn.rest hst rfl) _⟩
    | dict els nk =>
      simp only [Collection.cost] at hp
      have hlen := dictOut_length hw.even (els.any (Enc.pairFar e.out.length)) (c.sort.run els)
        (by rw [(c.sort.perm els).length_eq]; omega)
      rw [(c.sort.perm els).length_eq] at hlen
      cases hall with
      | cons hf hrest =>
        cases f with
        | arr xs => exact hf.elim
        | dict kvs k =>
          obtain ⟨t', h4, h5⟩ := dict_rep hw.even hf.1 (hok.2 els nk rest hst) (by omega)
          exact ⟨sim_close (hw.notClosed hst) h3 (Sim.stack_mono hrest (dictOut_prefix _ _ _) (.refl _)) (hn.below hst) h4
            h5 hw.even hlen.1 (by simp only; omega), Enc.Nested.closeEnc (hn.rest hst rfl) _⟩

theorem Sim.closeN {c : Cfg} {F : FloatOps} (n : Nat) : ∀ {e : Enc} {b : Build}, e.WF → e.Nested →
    e.phi ≤ SizedValue.maxWide → Sim F P e b → FinishOK c n e → Sim F P (e.closeN c n) (b.closeN n) := by
  induction n with
  | zero => intro e b _ _ _ h _; exact h
  | succ n ih =>
    intro e b hw hn hp h hok
    obtain ⟨h1, h2, _⟩ := Enc.closeTop_inv (c := c) hw hp
    obtain ⟨h3, h4⟩ := Sim.closeTop hw hn hp h hok.1
    exact ih h1 h4 (by omega) h3 hok.2

theorem Shape.length {e : Enc} {b : Build} (h : Shape e b) : e.stack.length = b.stack.length := by
  have := congrArg List.length h.stack
  simpa using this

/-- `finish` writes the document the specification finishes with. -/
theorem Sim.finish {c : Cfg} {F : FloatOps} {e : Enc} {b : Build} (hw : e.WF) (hn : e.Nested) (hphi : e.phi ≤ SizedValue.maxWide)
    (hs : Sim F P e b) (hok : FinishOK c e.stack.length e) {t : Tree} (ht : b.finish = some t) :
    ∃ out pre p en t', e.finish c = .ok out ∧ Tree.Same t t' ∧ out = pre ++ rootBytes (pre.length - p) ∧
      Rep pre F P e.sk none p en t' ∧ pre.length % 2 = 0 ∧ p % 2 = 0 ∧ pre.length - p ≤ SizedValue.maxWide := by
  have hl := hs.shape.length
  have hN := Sim.closeN _ hw hn hphi hs hok
  obtain ⟨_, _, _, _, hsk⟩ := Enc.closeN_inv (c := c) e.stack.length hw hphi
  unfold Build.finish at ht
  rw [Build.finishGo_eq, ← hl] at ht
  obtain ⟨pre, p, en, t', h1, h2, h3, h4, h5, h6⟩ := hN.root t ht
  rw [hsk] at h3
  exact ⟨_, pre, p, en, t', Enc.finish_eq hw hphi, h1, h2, h3, h4, h5, h6⟩

end Fleece
