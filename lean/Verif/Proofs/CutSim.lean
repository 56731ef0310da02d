import Verif.Proofs.Cut
import Verif.Proofs.Has

/-! # The encoder writes what is left of the document -/

namespace Fleece
open Res

variable {F : FloatOps}

/-! ## What is left -/

theorem Tree.lossyAll_eq (xs : List Tree) : Tree.lossyAll xs = xs.map Tree.lossy := by
  induction xs with
  | nil => rfl
  | cons x xs ih => simp [Tree.lossyAll, ih]

theorem Tree.lossyOf_eq (kvs : List (List UInt8 × Tree)) : Tree.lossyOf kvs = kvs.map fun kv => (kv.1, kv.2.lossy) := by
  induction kvs with
  | nil => rfl
  | cons x xs ih => simp [Tree.lossyOf, ih]

variable {scope : Option SharedKeys} {V : KeyView}

theorem Tree.lossyInAll_eq (xs : List Tree) : Tree.lossyInAll V xs = xs.map (Tree.lossyIn V) := by
  induction xs with
  | nil => rfl
  | cons x xs ih => simp [Tree.lossyInAll, ih]

theorem Tree.lossyInOf_eq (kvs : List (List UInt8 × Tree)) :
    Tree.lossyInOf V kvs = kvs.map fun kv => (kv.1, kv.2.lossyIn V) := by
  induction kvs with
  | nil => rfl
  | cons x xs ih => simp [Tree.lossyInOf, ih]

/-- What is assumed of a view: only keys of two bytes or more have codes, and codes are looked up in `scope`. -/
structure KeyView.Fair (V : KeyView) (scope : Option SharedKeys) : Prop where
  two : ∀ k, V.coded k = true → 2 ≤ k.length
  look : ∀ c, V.look c = scope.bind fun sk => sk.decode c

theorem KeyView.of_fair (U : CharTable) (shared : Bool) (scope : Option SharedKeys) : (KeyView.of U shared scope).Fair scope := by
  refine ⟨fun k h => ?_, fun c => rfl⟩
  simp only [KeyView.of, Bool.and_eq_true, decide_eq_true_eq] at h
  exact h.1.1.2

theorem KeyView.read_long {k : List UInt8} (h : 2 ≤ k.length) : V.read k = some (if V.coded k then k.take 15 else k) := by
  match k, h with
  | _ :: _ :: _, _ => rfl

theorem KeyView.Fair.read_coded (hV : V.Fair scope) {k : List UInt8} (h : V.coded k = true) : V.read k = some (k.take 15) := by
  rw [KeyView.read_long (hV.two k h), if_pos h]

/-- A key that is read as something. -/
def solid {α : Type} (V : KeyView) (kv : List UInt8 × α) : Bool := (V.read kv.1).isSome

/-- A key before all others. -/
def before {α β : Type} (V : KeyView) (kvs : List (List UInt8 × α)) (kv : List UInt8 × β) : Bool :=
  kvs.all fun l => solid V l || V.first kv.1 l.1

/-- The key as it is read. -/
def reread {α : Type} (V : KeyView) (kv : List UInt8 × α) : List UInt8 × α := ((V.read kv.1).getD kv.1, kv.2)

theorem Tree.lossyIn_dict (kvs : List (List UInt8 × Tree)) :
    (Tree.dict kvs).lossyIn V = .dict ((kvs.filter (before V kvs)).map fun kv => reread V (kv.1, kv.2.lossyIn V)) := by
  show Tree.dict (((Tree.lossyInOf V kvs).filter (before V kvs)).map (reread V)) = _
  rw [Tree.lossyInOf_eq, List.filter_map, List.map_map]
  rfl

theorem before_perm {α β : Type} {kvs mid : List (List UInt8 × α)} (h : kvs.Perm mid) (kv : List UInt8 × β) :
    before V kvs kv = before V mid kv := by
  unfold before
  rw [Bool.eq_iff_iff, List.all_eq_true, List.all_eq_true]
  exact ⟨fun g x hx => g x (h.mem_iff.mpr hx), fun g x hx => g x (h.mem_iff.mp hx)⟩

/-- The order of the keys of a dict. -/
def KeyView.InOrder (V : KeyView) (a b : List UInt8) : Prop := V.coded a = true ∨ V.coded b = false ∧ (a < b ∨ a = b)

/-- In a sorted list these are the first ones. -/
theorem before_sorted {α : Type} (hV : V.Fair scope) (l : List (List UInt8 × α)) (h : l.Pairwise fun a b => V.InOrder a.1 b.1) :
    l.filter (before V l) = l.takeWhile (solid V) := by
  induction l with
  | nil => rfl
  | cons a l ih =>
    have h1 := (List.pairwise_cons.mp h).1
    have ih := ih (List.pairwise_cons.mp h).2
    cases ha : solid V a with
    | true =>
      have hb : ∀ kv : List UInt8 × α, before V (a :: l) kv = before V l kv := by
        intro kv
        show ((solid V a || _) && before V l kv) = _
        rw [ha]; rfl
      have haa : before V (a :: l) a = true := by
        rw [hb]
        unfold before
        rw [List.all_eq_true]
        intro y hy
        unfold KeyView.first
        rcases h1 y hy with h | ⟨_, h | h⟩
        · simp [h]
        · simp [h]
        · have : solid V y = solid V a := by unfold solid; rw [h]
          simp [this, ha]
      rw [List.filter_cons_of_pos haa, List.takeWhile_cons_of_pos ha, ← ih]
      congr 1
      exact List.filter_congr fun x _ => hb x
    | false =>
      rw [List.takeWhile_cons_of_neg (by rw [ha]; simp)]
      rw [List.filter_eq_nil_iff]
      intro x hx
      have hac : V.coded a.1 = false := by
        cases hc : V.coded a.1 with
        | false => rfl
        | true => unfold solid at ha; rw [hV.read_coded hc] at ha; cases ha
      have : V.coded x.1 = false ∧ ¬ x.1 < a.1 := by
        rcases List.mem_cons.mp hx with rfl | hx
        · exact ⟨hac, u8_list_irrefl _⟩
        · rcases h1 x hx with h | ⟨hc, h | h⟩
          · rw [hac] at h; cases h
          · exact ⟨hc, fun h' => u8_list_irrefl _ (u8_list_trans h h')⟩
          · exact ⟨hc, by rw [h]; exact u8_list_irrefl _⟩
      show ¬ ((solid V a || (V.coded x.1 || decide (x.1 < a.1))) && before V l x) = true
      simp [ha, this.1, this.2]

/-- The texts of key slots. -/
def readKey {α : Type} (V : KeyView) (kv : List UInt8 × α) : Option (List UInt8) := V.read kv.1

theorem cutPairs_eq (lvs : List (List UInt8 × Tree)) :
    cutPairs (lvs.map (readKey V)) (lvs.map (·.2)) = (lvs.takeWhile (solid V)).map (reread V) := by
  induction lvs with
  | nil => rfl
  | cons a l ih =>
    unfold readKey solid reread at ih ⊢
    cases ha : V.read a.1 with
    | some k => simp [cutPairs, ha, ih]
    | none => simp [cutPairs, ha]

theorem takeWhile_all2 {α β : Type} {R : List UInt8 × α → List UInt8 × β → Prop} (hR : ∀ a b, R a b → a.1 = b.1)
    {as : List (List UInt8 × α)} {bs : List (List UInt8 × β)} (h : All2 R as bs) :
    All2 R (as.takeWhile (solid V)) (bs.takeWhile (solid V)) := by
  induction h with
  | nil => exact .nil
  | @cons a b as bs h _ ih =>
    have : solid V b = solid V a := by unfold solid; rw [hR _ _ h]
    cases ha : solid V a with
    | true =>
      rw [List.takeWhile_cons_of_pos ha, List.takeWhile_cons_of_pos (by rw [this]; exact ha)]
      exact .cons h ih
    | false =>
      rw [List.takeWhile_cons_of_neg (by rw [ha]; simp), List.takeWhile_cons_of_neg (by rw [this, ha]; simp)]
      exact .nil

/-! ## Open collections -/

/-- A slot of an open collection, once it is in a narrow collection. -/
inductive SlotCut (out : List UInt8) (F : FloatOps) (scope : Option SharedKeys) (s : SizedValue) (t : Tree) : Prop where
  | inline {ty : ValueType} (hn : s.type ≠ .pointer) (h : ScalarBytes F [s.b0 &&& 0xBF, s.b1] ty t)
  | pointer {p e : Nat} (ht : s.type = .pointer) (ho : s.pointerOffset = p) (even : p % 2 = 0) (rep : Cut out F scope false p e t)

theorem SlotCut.mono {out out' : List UInt8} {s : SizedValue} {t : Tree} (h : SlotCut out F scope s t) (hd : out <+: out') :
    SlotCut out' F scope s t := by
  cases h with
  | inline hn h => exact .inline hn h
  | pointer ht ho even rep => exact .pointer ht ho even (rep.mono hd)

/-- A key of an open dict. -/
inductive KeyCut (out : List UInt8) (F : FloatOps) (scope : Option SharedKeys) (V : KeyView) : DictKey → List UInt8 → Prop where
  | inline {s : SizedValue} {k : List UInt8} (hn : s.type ≠ .pointer) (hs : s.str = k) (hc : V.coded k = false)
      (hb : (s.b0 &&& 0xBF).toNat < 8) (hr : V.read k = V.look ((s.b0 &&& 0xBF).toNat * 256 + s.b1.toNat)) :
      KeyCut out F scope V (.inline s) k
  | shared {code : Nat} {k : List UInt8} (hc : V.coded k = true) (hl : code < 2048) (ht : V.look code = some (k.take 15)) :
      KeyCut out F scope V (.shared code) k
  | pointer {off : Nat} {bs : List UInt8} {ty : ValueType} {k : List UInt8} (hk : 2 ≤ k.length) (hc : V.coded k = false) (hat : At out off bs)
      (hs : ScalarBytes F bs ty (.str k)) (even : off % 2 = 0) : KeyCut out F scope V (.pointer k off) k

theorem KeyCut.mono {out out' : List UInt8} {dk : DictKey} {k : List UInt8} (h : KeyCut out F scope V dk k) (hd : out <+: out') :
    KeyCut out' F scope V dk k := by
  cases h with
  | inline hn hs hc hb hr => exact .inline hn hs hc hb hr
  | shared hc hl ht => exact .shared hc hl ht
  | pointer hk hc hat hs even => exact .pointer hk hc (hat.mono hd) hs even

theorem KeyCut.key {out : List UInt8} {dk : DictKey} {k : List UInt8} (h : KeyCut out F scope V dk k) :
    V.coded k = false ∧ dk.key = .string k ∨ V.coded k = true ∧ ∃ c, dk.key = .shared c := by
  cases h with
  | inline hn hs hc hb hr => exact .inl ⟨hc, by simp only [DictKey.key, hs]⟩
  | shared hc hl ht => exact .inr ⟨hc, _, rfl⟩
  | pointer hk hc hat hs even => exact .inl ⟨hc, rfl⟩

theorem KeyCut.inOrder {out : List UInt8} {a b : DictKey} {k l : List UInt8} (ha : KeyCut out F scope V a k)
    (hb : KeyCut out F scope V b l) (h : DictKey.cmp a b ≠ .gt) : V.InOrder k l := by
  have h := DictKey.cmp_not_gt.mp h
  rcases ha.key with ⟨h1, h2⟩ | ⟨h1, _⟩
  · rcases hb.key with ⟨h3, h4⟩ | ⟨h3, c, h4⟩
    · rw [h2, h4] at h
      refine .inr ⟨h3, ?_⟩
      rcases h with h | h
      · exact .inl h
      · simp only [Key.string.injEq] at h; exact .inr h
    · rw [h2, h4] at h
      rcases h with h | h
      · exact h.elim
      · cases h
  · exact .inl h1

/-- A slot stands for what is left of `t`. -/
def SlotLeft (out : List UInt8) (F : FloatOps) (scope : Option SharedKeys) (V : KeyView) (s : SizedValue) (t : Tree) : Prop :=
  ∃ t', SlotCut out F scope s t' ∧ Tree.Same (t.lossyIn V) t'

/-- The same for a pair. -/
def PairLeft (out : List UInt8) (F : FloatOps) (scope : Option SharedKeys) (V : KeyView) (el : DictElem) (kv : List UInt8 × Tree) : Prop :=
  KeyCut out F scope V el.key kv.1 ∧ SlotLeft out F scope V el.val kv.2

/-- The pending key. -/
def PendCut (out : List UInt8) (F : FloatOps) (scope : Option SharedKeys) (V : KeyView) : Option DictKey → Option (List UInt8) → Prop
  | none, none => True
  | some dk, some k => KeyCut out F scope V dk k
  | _, _ => False

/-- An open collection. -/
def FrameCut (out : List UInt8) (F : FloatOps) (scope : Option SharedKeys) (V : KeyView) : Collection → Frame → Prop
  | .arr vs, .arr xs => All2 (SlotLeft out F scope V) vs xs
  | .dict els nk, .dict kvs k => All2 (PairLeft out F scope V) els kvs ∧ PendCut out F scope V nk k
  | _, _ => False

theorem SlotLeft.mono {out out' : List UInt8} {s : SizedValue} {t : Tree} (h : SlotLeft out F scope V s t) (hd : out <+: out') :
    SlotLeft out' F scope V s t := by
  obtain ⟨t', h1, h2⟩ := h
  exact ⟨t', h1.mono hd, h2⟩

theorem FrameCut.mono {out out' : List UInt8} {coll : Collection} {f : Frame} (h : FrameCut out F scope V coll f) (hd : out <+: out') :
    FrameCut out' F scope V coll f := by
  cases coll with
  | arr vs =>
    cases f with
    | arr xs => exact All2.imp h fun _ _ h => h.mono hd
    | dict _ _ => exact h
  | dict els nk =>
    cases f with
    | arr xs => exact h
    | dict kvs k =>
      refine ⟨h.1.imp fun _ _ h => ⟨h.1.mono hd, h.2.mono hd⟩, ?_⟩
      have h2 := h.2
      cases nk <;> cases k
      · trivial
      · exact h2
      · exact h2
      · exact KeyCut.mono h2 hd

/-- The encoder state stands for what is left of what the specification builds. -/
structure CutSim (F : FloatOps) (scope : Option SharedKeys) (V : KeyView) (e : Enc) (b : Build) : Prop where
  shape : Shape e b
  stack : All2 (FrameCut e.out F scope V) e.stack b.stack
  root : ∀ t, b.root = some t → ∃ pre p en t', Tree.Same (t.lossyIn V) t' ∧ e.out = pre ++ rootBytes (pre.length - p) ∧
    Cut pre F scope false p en t' ∧ pre.length % 2 = 0 ∧ p % 2 = 0 ∧ pre.length - p ≤ SizedValue.maxWide

theorem CutSim.stack_mono {out out' : List UInt8} {st : List Collection} {fs : List Frame}
    (h : All2 (FrameCut out F scope V) st fs) (hd : out <+: out') : All2 (FrameCut out' F scope V) st fs := h.imp fun _ _ h => h.mono hd

theorem put_frameCut {out : List UInt8} {coll : Collection} {f : Frame} {s : SizedValue}
    {t : Tree} (h : FrameCut out F scope V coll f) (hs : SlotLeft out F scope V s t) (hc : ∀ els, coll ≠ .dict els none)
    {b : Build} {fr : List Frame} (hb : b.stack = f :: fr) :
    ∃ f', b.put t = .ok { b with stack := f' :: fr } ∧ FrameCut out F scope V (coll.put s) f' ∧
      Build.close (f :: fr) t = { stack := f' :: fr } := by
  cases coll with
  | arr vs =>
    cases f with
    | arr xs => exact ⟨.arr (xs ++ [t]), by simp only [Build.put, hb], All2.snoc h hs, rfl⟩
    | dict _ _ => exact h.elim
  | dict els nk =>
    cases f with
    | arr xs => exact h.elim
    | dict kvs k =>
      cases nk with
      | none => exact absurd rfl (hc els)
      | some dk =>
        cases k with
        | none => exact h.2.elim
        | some k =>
          exact ⟨.dict (kvs ++ [(k, t)]) none, by simp only [Build.put, hb], ⟨h.1.snoc ⟨h.2, hs⟩, trivial⟩, rfl⟩

theorem cutSim_close {e : Enc} {off en : Nat} {t t' : Tree} {fr : List Frame} (hcl : e.closed = false)
    (hk : e.stack.map Collection.kind = fr.map Frame.kind) (hst : All2 (FrameCut e.out F scope V) e.stack fr)
    (hwait : ∀ els rest, e.stack ≠ .dict els none :: rest)
    (hrep : Cut e.out F scope false off en t') (hsame : Tree.Same (t.lossyIn V) t') (hoe : off % 2 = 0) (he : e.out.length % 2 = 0)
    (hmax : e.out.length ≤ SizedValue.maxWide) : CutSim F scope V (e.closeEnc off) (Build.close fr t) := by
  have hle := hrep.le
  refine ⟨closeEnc_shape t hk hcl, ?_, ?_⟩
  · unfold Enc.closeEnc
    cases hs : e.stack with
    | nil =>
      rw [hs] at hst
      cases hst
      exact .nil
    | cons coll rest =>
      rw [hs] at hst
      cases hst with
      | @cons _ f _ frest hf hrest =>
        obtain ⟨_, p2, p3⟩ := ptrSlot_spec (off := off) (by omega)
        have hslot : SlotLeft e.out F scope V (ptrSlot off) t := ⟨t', .pointer p2 p3 hoe hrep, hsame⟩
        obtain ⟨f', _, h2, h3⟩ := put_frameCut hf hslot (fun els h => hwait els rest (by rw [hs, h])) (b := ⟨f :: frest, none⟩) rfl
        rw [h3]
        exact .cons h2 hrest
  · intro x hx
    cases hs : e.stack with
    | nil =>
      rw [hs] at hst
      cases hst
      simp only [Build.close, Option.some.injEq] at hx
      subst hx
      refine ⟨e.out, off, en, t', hsame, ?_, hrep, he, hoe, by omega⟩
      unfold Enc.closeEnc; rw [hs]
    | cons coll rest =>
      rw [hs] at hst
      cases hst with
      | @cons _ f _ frest hf hrest =>
        cases f with
        | arr xs => cases hx
        | dict a b => cases b <;> cases hx

/-! ## Closing collections -/

/-- A slot, written. -/
theorem slot_cut {out data : List UInt8} {s : SizedValue} {t : Tree} {q : Nat} (h : SlotCut out F scope s t) (hpre : out <+: data)
    (hle : out.length ≤ q) (heven : q % 2 = 0) (hq : q ≤ SizedValue.maxNarrow)
    (hat : At data q (slotBytes false (Enc.relSlot s q))) : Cut data F scope true q (q + 2) t := by
  have hmn : SizedValue.maxNarrow ≤ SizedValue.maxWide := by decide
  cases h with
  | inline hn h =>
    have : slotBytes false (Enc.relSlot s q) = [s.b0 &&& 0xBF, s.b1] := by
      unfold Enc.relSlot slotBytes
      rw [if_neg hn, if_neg hn]; rfl
    rw [this] at hat
    exact .inline hat rfl h
  | @pointer p e ht ho even rep =>
    subst ho
    have hpe := rep.le
    rw [relSlot_ptr ht (by omega), slotBytes_ptr_fits (show _ ≤ SizedValue.maxNarrow by omega)] at hat
    exact .ptr hat (by omega) (by omega) (by omega) (Nat.le_trans (show _ ≤ SizedValue.maxNarrow by omega) (by decide)) (rep.mono hpre)

/-- A key, written. -/
theorem key_cut {out data : List UInt8} {dk : DictKey} {k : List UInt8} {q : Nat} (hV : V.Fair scope)
    (h : KeyCut out F scope V dk k) (hpre : out <+: data) (hle : out.length ≤ q) (heven : q % 2 = 0)
    (hq : q ≤ SizedValue.maxNarrow) (hat : At data q (slotBytes false (Enc.keySlotVal (Enc.relKey dk q)))) :
    CutKey data F scope q (V.read k) := by
  have hmn : SizedValue.maxNarrow ≤ SizedValue.maxWide := by decide
  cases h with
  | @inline s k hn hs hc hb hr =>
    have h1 : slotBytes false (Enc.keySlotVal (Enc.relKey (.inline s) q)) = [s.b0 &&& 0xBF, s.b1] := by
      show slotBytes false s = _
      unfold slotBytes
      rw [if_neg hn]; rfl
    rw [h1] at hat
    exact ⟨.shared _, .shared hat rfl hb rfl, by rw [hr, hV.look]; rfl⟩
  | @shared code k hc hl ht =>
    refine ⟨.shared code, ?_, by rw [hV.read_coded hc, ← ht, hV.look]; rfl⟩
    have ht' := ht
    rw [hV.look] at ht'
    cases scope with
    | none => cases ht'
    | some sk =>
      have hf : KeyFor out F (fun _ => True) (some sk) (.shared code) (k.take 15) := .shared (by omega) rfl ht'
      exact (key_rep hf hle heven (by omega) (w := false) fun _ => trivial).2 data hpre hat
  | @pointer off bs ty k hk hc hat' hs even =>
    have h2 : V.read k = some k := by rw [KeyView.read_long hk, hc]; rfl
    have hle' := hat'.le
    rw [show slotBytes false (Enc.keySlotVal (Enc.relKey (.pointer k off) q)) = ptrBytes false (q - off) from
      slotBytes_ptr_fits (show _ ≤ SizedValue.maxNarrow by omega)] at hat
    rw [h2]
    exact ⟨.string k, .pointer (hat'.mono hpre) hs (by omega) (by omega)
      (Nat.le_trans (show _ ≤ SizedValue.maxNarrow by omega) (by decide)) hat, rfl⟩

theorem arr_cut {out : List UInt8} {vs : List SizedValue} {xs : List Tree} (he : out.length % 2 = 0)
    (h : All2 (SlotLeft out F scope V) vs xs) (hsz : out.length + 12 + 4 * vs.length ≤ SizedValue.maxNarrow) :
    ∃ t', Cut (Enc.arrOut out vs) F scope false out.length (Enc.arrOut out vs).length t' ∧ Tree.Same ((Tree.arr xs).lossyIn V) t' := by
  have hmw : SizedValue.maxNarrow < 2 ^ 32 := by decide
  obtain ⟨ts, h1, h2⟩ := All2.choose h
  obtain ⟨g1, g2, g3⟩ := arr_layout vs he hsz
  have hlen := h1.length
  have hh : hdrLen vs.length ≤ 12 := hdrLen_le (by omega)
  have hhe : hdrLen vs.length % 2 = 0 := by unfold hdrLen; omega
  rw [g2]
  rw [hlen] at g1 g2 g3 hh hhe ⊢
  refine ⟨.arr ts, .arr g1 (by omega) (by omega) fun i t ht => ?_, ?_⟩
  · have hi : i < ts.length := (List.getElem?_eq_some_iff.mp ht).1
    have hv := List.getElem?_eq_getElem (l := vs) (i := i) (by omega)
    exact slot_cut (h1.get hv ht) (arrOut_prefix out vs) (by omega) (by omega) (by omega) (g3 i _ hv)
  · show Tree.Same (.arr (Tree.lossyInAll V xs)) _
    rw [Tree.lossyInAll_eq]
    refine .arr (by rw [List.length_map, h2.length]) fun i x y hx hy => ?_
    rw [List.getElem?_map, Option.map_eq_some_iff] at hx
    obtain ⟨x', hx', rfl⟩ := hx
    exact h2.get hx' hy

theorem dict_cut {out : List UInt8} {els els' : List DictElem} {kvs : List (List UInt8 × Tree)} (hV : V.Fair scope) (he : out.length % 2 = 0)
    (hperm : els'.Perm els) (hsort : els'.Pairwise fun a b => DictKey.cmp a.key b.key ≠ .gt)
    (h : All2 (PairLeft out F scope V) els kvs) (hsz : out.length + 12 + 8 * els.length ≤ SizedValue.maxNarrow)
    (hb : ∀ el ∈ els, el.key.Bounded out.length) :
    ∃ t', Cut (Enc.dictOut out false els') F scope false out.length (Enc.dictOut out false els').length t' ∧
      Tree.Same ((Tree.dict kvs).lossyIn V) t' := by
  have hmw : SizedValue.maxNarrow < 2 ^ 32 := by decide
  rw [← hperm.length_eq] at hsz
  obtain ⟨mid, hp, h1⟩ := All2.perm hperm h
  have h1' : All2 (fun el (kv : List UInt8 × Tree) => ∃ kv' : List UInt8 × Tree,
      (KeyCut out F scope V el.key kv'.1 ∧ SlotCut out F scope el.val kv'.2) ∧ (kv.1 = kv'.1 ∧ Tree.Same (kv.2.lossyIn V) kv'.2)) els' mid :=
    h1.imp fun el kv h => by
      obtain ⟨h1, t', h2, h3⟩ := h
      exact ⟨(kv.1, t'), ⟨h1, h2⟩, rfl, h3⟩
  obtain ⟨lvs, h2, h3⟩ := All2.choose h1'
  obtain ⟨g1, g2, g3⟩ := dict_layout els' he hsz fun el hel => hb el (hperm.mem_iff.mp hel)
  have hlen := h2.length
  have hlv : (lvs.map (·.2)).length = lvs.length := List.length_map _
  have hh : hdrLen els'.length ≤ 12 := hdrLen_le (by omega)
  have hhe : hdrLen els'.length % 2 = 0 := by unfold hdrLen; omega
  have hpre := dictOut_prefix out false els'
  refine ⟨.dict (cutPairs (lvs.map (readKey V)) (lvs.map (·.2))), ?_, ?_⟩
  · rw [g2]
    rw [hlen, ← hlv] at g1 g2 g3 hh hhe ⊢
    refine .dict g1 (by omega) (by omega) (by simp) ?_ ?_
    · intro i k hk
      rw [List.getElem?_map, Option.map_eq_some_iff] at hk
      obtain ⟨kv, hkv, rfl⟩ := hk
      have hi : i < lvs.length := (List.getElem?_eq_some_iff.mp hkv).1
      have hel := List.getElem?_eq_getElem (l := els') (i := i) (by omega)
      exact key_cut hV (h2.get hel hkv).1 hpre (by omega) (by omega) (by omega) (g3 i _ hel).1
    · intro i t ht
      rw [List.getElem?_map, Option.map_eq_some_iff] at ht
      obtain ⟨kv, hkv, rfl⟩ := ht
      have hi : i < lvs.length := (List.getElem?_eq_some_iff.mp hkv).1
      have hel := List.getElem?_eq_getElem (l := els') (i := i) (by omega)
      exact slot_cut (h2.get hel hkv).2 hpre (by omega) (by omega) (by omega) (g3 i _ hel).2
  · rw [cutPairs_eq, Tree.lossyIn_dict]
    have hms : mid.Pairwise fun a b => V.InOrder a.1 b.1 := by
      rw [List.pairwise_iff_getElem] at hsort ⊢
      intro i j hi hj hij
      have hl := h1.length
      have ha := (h1.get (List.getElem?_eq_getElem (show i < els'.length by omega)) (List.getElem?_eq_getElem hi)).1
      have hb := (h1.get (List.getElem?_eq_getElem (show j < els'.length by omega)) (List.getElem?_eq_getElem hj)).1
      exact ha.inOrder hb (hsort i j (by omega) (by omega) hij)
    have hf : (kvs.filter (before V kvs)).Perm (mid.takeWhile (solid V)) := by
      rw [← before_sorted hV mid hms, show before (β := Tree) V kvs = before V mid from funext fun kv => before_perm hp kv]
      exact hp.filter _
    have h4 := takeWhile_all2 (V := V) (fun a b h => h.1) h3
    refine .dict (hf.map _) ?_ ?_
    · rw [List.map_map, List.map_map]
      refine (h4.imp fun a b h => ?_).map_eq
      show (V.read a.1).getD a.1 = (V.read b.1).getD b.1
      rw [h.1]
    · intro i x y hx hy
      rw [List.getElem?_map, Option.map_eq_some_iff] at hx hy
      obtain ⟨x', hx', rfl⟩ := hx
      obtain ⟨y', hy', rfl⟩ := hy
      exact (h4.get hx' hy').2

/-! ## Keys and values -/

theorem KeyStored.keyCut {c : Cfg} {e : Enc} (hw : e.WF) {k : RStr} {dk : DictKey} {tail : List UInt8}
    {sk' : Option SharedKeys} (h : KeyStored c e k.bytes dk tail sk') (hk : k.bytes.length < 2 ^ 63)
    (hsc : ScopeLe sk' scope) (hroom : ∀ s, sk' = some s → s.entries.length < 2048) :
    KeyCut (e.out ++ tail) F scope (KeyView.of c.chars e.sk.isSome scope) dk k.bytes := by
  have hev := hw.even
  cases h with
  | @inline s h =>
    obtain ⟨bs, hv⟩ := k
    match bs, hv, h with
    | [], hv, h =>
      simp only [dataSized, Option.some.injEq] at h
      subst h
      exact .inline (by decide) (show (SizedValue.newNarrow 64 0).str = [] by decide) (by simp [KeyView.of]) (by decide) rfl
    | [b], hv, h =>
      have hs := Props.inline_str hv h
      simp only [dataSized, Option.some.injEq] at h
      subst h
      exact .inline (show ValueType.fromByte (0x40 ||| 1) ≠ .pointer by decide) hs (by simp [KeyView.of])
        (show ((0x40 ||| 1 : UInt8) &&& 0xBF).toNat < 8 by decide)
        (show _ = KeyView.look _ (((0x40 ||| 1 : UInt8) &&& 0xBF).toNat * 256 + b.toNat) by
          rw [show ((0x40 ||| 1 : UInt8) &&& 0xBF).toNat * 256 = 256 by decide]; rfl)
    | _ :: _ :: _, hv, h => cases h
  | @shared sk sk' code hsk h2 h =>
    obtain ⟨_, _, h3, h4, _, h6, h7, _⟩ := (hw.sk _ hsk).insert_some c.chars h
    have hz : zstr k.bytes = k.bytes.take 15 := by
      unfold zstr
      exact SharedKeys.takeWhile_of_not_mem fun hm => SharedKeys.canEncode_no_nul h7 (List.mem_of_mem_take hm)
    obtain ⟨sk1, g1, g2⟩ := hsc _ rfl
    refine .shared ?_ h4 ?_
    · simp [KeyView.of, hsk, h2, h6, h7]
    · show (scope.bind fun sk => sk.decode code) = _
      rw [g1, ← hz]
      exact SharedKeys.Le.decode g2 h3
  | plain hsk h2 hb hl ht =>
    obtain ⟨h3, h4⟩ := writeData_at (F := F) hk k.valid hb ht
    exact .pointer h2 (by simp [KeyView.of, hsk]) h3 h4 hev
  | @unshared sk sk' bs tail hsk h2 h hb hl ht =>
    obtain ⟨h3, h4⟩ := writeData_at (F := F) hk k.valid hb ht
    refine .pointer h2 ?_ h3 h4 hev
    unfold SharedKeys.encodeAndInsert at h
    split at h
    · next hca =>
      cases h
      have h1 : sk.len < SharedKeys.maxKeys := by rw [(hw.sk _ hsk).len]; exact hroom _ rfl
      unfold SharedKeys.canAdd at hca
      simp only [h1, decide_true, Bool.true_and, SharedKeys.maxKeyLen] at hca
      show (_ && _ && _ && _) = false
      rw [Bool.and_assoc, show (decide (k.bytes.length ≤ 16) && SharedKeys.canEncode c.chars k.bytes) = false from
        Bool.not_eq_true' _ ▸ hca,
        Bool.and_false]
    · dsimp only at h
      split at h <;> cases h

theorem Scalar.lossyIn (F : FloatOps) (V : KeyView) (x : Scalar) : x.narrowed.tree F = (x.tree F).lossyIn V := by
  cases x with
  | str s =>
    obtain ⟨bs, hv⟩ := s
    match bs, hv with
    | [], hv => rfl
    | [b], hv =>
      show Tree.int (256 + Int16.ofNat b.toNat : Int16).toInt = .int (256 + b.toNat)
      rw [(byte_i16 b).1]
    | _ :: _ :: _, hv => rfl
  | data d =>
    match d with
    | [] => rfl
    | _ :: _ => rfl
  | _ => rfl

theorem ValueStored.slotLeft {c : Cfg} {e : Enc} (hw : e.WF) (hphi : e.phi ≤ SizedValue.maxWide) {x : Scalar}
    (hx : x.Survives) (hd : ∀ d, x = .data d → d.length ≠ 1) {s : SizedValue} {tail : List UInt8}
    (h : ValueStored c e x s tail) : SlotLeft (e.out ++ tail) F scope V s (x.tree F) := by
  have hev := hw.even
  have hout := e.phi_out
  refine ⟨_, ?_, .refl _⟩
  rw [← Scalar.lossyIn]
  cases h with
  | inline h =>
    have h1 := narrowed_slot (F := F) hx hd h
    have hn : s.type ≠ .pointer := fun h => h1.notPointer (s.clear_type.mpr h)
    obtain ⟨ty, h2⟩ := h1.narrow (s.clear_small h1.notPointer)
    rw [SizedValue.clear_value hn] at h2
    simp only [SizedValue.newNarrow] at h2
    rw [and_bf_small _ (clear_byte s.b0 hn).1] at h2
    exact .inline hn h2
  | pointer h hb hl ht =>
    rw [narrowed_big h]
    obtain ⟨bs', ty, h1, _, h3⟩ := Scalar.writeTo_ok (F := F) c.dbg hx (Nat.le_refl _)
    rw [h1] at hb
    cases hb
    obtain ⟨_, p2, p3⟩ := ptrSlot_spec (off := e.out.length) (by omega)
    refine .pointer p2 p3 hev (.scalar ?_ h3)
    rw [ht]
    exact At.mono ⟨e.out, [], by simp, rfl⟩ (padEven_prefix _)

/-! ## One call -/

theorem CutSim.close_arr {e : Enc} {b : Build} (hw : e.WF) (hn : e.Nested) (hphi : e.phi ≤ SizedValue.maxNarrow)
    (hsim : CutSim F scope V e b) {vs : List SizedValue} {rest : List Collection} (hs : e.stack = .arr vs :: rest) {xs : List Tree}
    {fr : List Frame} (h1 : b.stack = .arr xs :: fr) :
    CutSim F scope V (Enc.closeEnc { e with stack := rest, out := Enc.arrOut e.out vs } e.out.length) (Build.close fr (.arr xs)) := by
  have hmw : SizedValue.maxNarrow < 2 ^ 32 := by decide
  have hmn : SizedValue.maxNarrow ≤ SizedValue.maxWide := by decide
  obtain ⟨f, fr', g1, _, h3⟩ := hsim.shape.cons hs
  rw [h1] at g1; cases g1
  have hall := hsim.stack
  rw [hs, h1] at hall
  have hph := Enc.phi_cons hs
  simp only [Collection.cost] at hph
  have hlen := arrOut_length hw.even vs (by omega)
  cases hall with
  | cons hf hrest =>
    obtain ⟨t', h4, h5⟩ := arr_cut hw.even hf (by omega)
    exact cutSim_close (hw.notClosed hs) h3 (CutSim.stack_mono hrest (arrOut_prefix _ _)) (hn.below hs) h4 h5 hw.even hlen.1
      (by simp only; omega)

theorem CutSim.close_dict {c : Cfg} {e : Enc} {b : Build} (hV : V.Fair scope) (hw : e.WF) (hn : e.Nested) (hphi : e.phi ≤ SizedValue.maxNarrow)
    (hsim : CutSim F scope V e b) {els : List DictElem} {nk : Option DictKey} {rest : List Collection}
    (hs : e.stack = .dict els nk :: rest) {kvs : List (List UInt8 × Tree)} {k : Option (List UInt8)}
    {fr : List Frame} (h1 : b.stack = .dict kvs k :: fr) :
    CutSim F scope V (Enc.closeEnc { e with
        stack := rest
        out := Enc.dictOut e.out (els.any (Enc.pairFar e.out.length)) (c.sort.run els) } e.out.length)
      (Build.close fr (.dict kvs)) := by
  have hmw : SizedValue.maxNarrow < 2 ^ 32 := by decide
  have hmn : SizedValue.maxNarrow ≤ SizedValue.maxWide := by decide
  obtain ⟨f, fr', g1, _, h3⟩ := hsim.shape.cons hs
  rw [h1] at g1; cases g1
  have hall := hsim.stack
  rw [hs, h1] at hall
  have hph := Enc.phi_cons hs
  simp only [Collection.cost] at hph
  have hlen := dictOut_length hw.even false (c.sort.run els) (by rw [(c.sort.perm els).length_eq]; omega)
  rw [(c.sort.perm els).length_eq] at hlen
  have hbd := hw.bounded (.dict els nk) (by rw [hs]; simp)
  rw [pairsFar_small hw hphi hs]
  cases hall with
  | cons hf hrest =>
    obtain ⟨t', h4, h5⟩ := dict_cut hV hw.even (c.sort.perm els) (c.sort.sorted els) hf.1 (by omega)
      (fun el hel => (hbd.1 el hel).1)
    exact cutSim_close (hw.notClosed hs) h3 (CutSim.stack_mono hrest (dictOut_prefix _ _ _)) (hn.below hs) h4 h5 hw.even hlen.1
      (by simp only; omega)

/-- **One call.** -/
theorem CutSim.step {c : Cfg} {e e' : Enc} {b : Build} {op : Op} {r : Except EncodeError Unit} (hw : e.WF)
    (hn : e.Nested) (hphi : e.phi ≤ SizedValue.maxNarrow) (ho : op.weight < 2 ^ 64) (hsim : CutSim F scope V e b)
    (hV : V = KeyView.of c.chars e.sk.isSome scope) (hsc : ScopeLe e'.sk scope)
    (hroom : ∀ s, e'.sk = some s → s.entries.length < 2048)
    (hp : op.Possible) (hd : ∀ d, op = .value (.data d) → r = .ok () → d.length ≠ 1) (hor1 : op = .endArray → e.waitingForKey = false)
    (hor2 : (∃ k, op = .key k) → e.closed = false) (h : e.step c op = .ok (e', r)) : CutSim F scope V e' (b.next F op).1 := by
  have hmw : SizedValue.maxWide < 2 ^ 32 := by decide
  have hmn : SizedValue.maxNarrow ≤ SizedValue.maxWide := by decide
  have hout := e.phi_out
  have hsh := hsim.shape
  have hfair : V.Fair scope := by rw [hV]; exact KeyView.of_fair _ _ _
  have ht := Enc.step_trans hw (by omega) ho h
  have hshape := (ht.shape hw F hsh).2 (by
    rintro ⟨rfl, hwait⟩
    have := hor1 rfl; rw [hwait] at this; cases this)
  have of_ok : ∀ {b' : Build}, b.step F op = .ok b' → (Shape e' b' → CutSim F scope V e' b') → CutSim F scope V e' (b.next F op).1 := by
    intro b' h1 h2
    unfold Build.next at hshape ⊢; rw [h1] at hshape ⊢; exact h2 hshape
  have hopen : ∀ {coll rest}, e.stack = coll :: rest → ∀ t, b.root ≠ some t := fun hs t hr => by
    have := hw.notClosed hs
    rw [hsh.closed, hr] at this; cases this
  cases ht with
  | @reject _ x tail sk' hx heven hl hsk hwf _ =>
    have hnext : (b.next F op).1 = b := by unfold Build.next; rw [hx F b hsh]
    rw [hnext] at hshape ⊢
    refine ⟨hshape, CutSim.stack_mono hsim.stack (List.prefix_append _ _), ?_⟩
    intro t hroot
    have hcl : e.closed = true := by rw [hsh.closed, hroot]; rfl
    have := closed_step (hw.closed hcl) hcl (by
      rintro k rfl
      have := hor2 ⟨k, rfl⟩; rw [hcl] at this; cases this) h
    rw [this]
    exact hsim.root t hroot
  | discard hs =>
    have := hor1 rfl
    unfold Enc.waitingForKey at this
    rw [hs] at this; cases this
  | @openArr n hcl hk =>
    have hr : b.root.isSome = false := by rw [← hsh.closed]; exact hcl
    have hnw := hsh.notWaiting hk
    have hst : b.step F (.beginArray n) = .ok { b with stack := .arr [] :: b.stack } := by
      simp only [Build.step, Build.open, hr, Bool.false_eq_true, if_false]
    refine of_ok hst fun hs => ⟨hs, .cons .nil hsim.stack, ?_⟩
    intro t hroot
    simp only at hroot
    rw [hroot] at hr; cases hr
  | openDict hcl hk =>
    have hr : b.root.isSome = false := by rw [← hsh.closed]; exact hcl
    have hnw := hsh.notWaiting hk
    have hst : b.step F .beginDict = .ok { b with stack := .dict [] none :: b.stack } := by
      simp only [Build.step, Build.open, hr, Bool.false_eq_true, if_false]
    refine of_ok hst fun hs => ⟨hs, .cons ⟨.nil, trivial⟩ hsim.stack, ?_⟩
    intro t hroot
    simp only at hroot
    rw [hroot] at hr; cases hr
  | @key k dk tail sk' els rest hs hk =>
    obtain ⟨f, fr, h1, h2, h3⟩ := hsh.cons hs
    obtain ⟨kvs, rfl⟩ := kind_dict_none h2
    have hst : b.step F (.key k) = .ok { b with stack := .dict kvs (some k.bytes) :: fr } := by
      simp only [Build.step, h1]
    have hall := hsim.stack
    rw [hs, h1] at hall
    cases hall with
    | cons hf hrest =>
      have hf' := hf.mono (List.prefix_append e.out tail)
      exact of_ok hst fun hs' => ⟨hs', .cons ⟨hf'.1, by rw [hV]; exact hk.keyCut hw hp hsc hroom⟩
        (CutSim.stack_mono hrest (List.prefix_append e.out tail)), fun t hroot => absurd hroot (hopen hs t)⟩
  | @value x s tail coll rest hs hc hv =>
    obtain ⟨f, fr, h1, h2, h3⟩ := hsh.cons hs
    have hall := hsim.stack
    rw [hs, h1] at hall
    have hslot := hv.slotLeft (F := F) (scope := scope) (V := V) hw (by omega) hp fun d hx => hd d (by rw [hx]) rfl
    cases hall with
    | cons hf hrest =>
      have hf' := hf.mono (List.prefix_append e.out tail)
      obtain ⟨f', h4, h5, _⟩ := put_frameCut hf' hslot hc h1
      exact of_ok h4 fun hs' => ⟨hs', .cons h5 (CutSim.stack_mono hrest (List.prefix_append e.out tail)),
        fun t hroot => absurd hroot (hopen hs t)⟩
  | @endArr vs rest hs =>
    obtain ⟨f, fr, h1, h2, h3⟩ := hsh.cons hs
    obtain ⟨xs, rfl⟩ := kind_arr h2
    exact of_ok (b' := Build.close fr (.arr xs)) (by simp only [Build.step, h1]) fun _ =>
      CutSim.close_arr hw hn hphi hsim hs h1
  | @endDict els rest hs =>
    obtain ⟨f, fr, h1, h2, h3⟩ := hsh.cons hs
    obtain ⟨kvs, rfl⟩ := kind_dict_none h2
    exact of_ok (b' := Build.close fr (.dict kvs)) (by simp only [Build.step, h1]) fun _ =>
      CutSim.close_dict hfair hw hn hphi hsim hs h1

/-! ## Sequences, and `finish` -/

theorem ScopeLe.trans {a b c : Option SharedKeys} (h1 : ScopeLe a b) (h2 : ScopeLe b c) : ScopeLe a c := by
  intro sk h
  obtain ⟨sk1, h3, h4⟩ := h1 sk h
  obtain ⟨sk2, h5, h6⟩ := h2 sk1 h3
  exact ⟨sk2, h5, h4.trans h6⟩

theorem SkLe.room {a b : Option SharedKeys} (h : SkLe a b) (hb : ∀ s, b = some s → s.entries.length < 2048) :
    ∀ s, a = some s → s.entries.length < 2048 := by
  rintro s rfl
  cases b with
  | none => cases h
  | some t => exact Nat.lt_of_le_of_lt (List.IsPrefix.length_le h) (hb t rfl)

theorem CutSim.run {c : Cfg} (ops : List Op) : ∀ {e e' : Enc} {b : Build} {rs : List (Except EncodeError Unit)},
    e.WF → e.Nested → e.phi + Op.total ops ≤ SizedValue.maxNarrow → CutSim F scope V e b →
    V = KeyView.of c.chars e.sk.isSome scope → ScopeLe e'.sk scope → (∀ s, e'.sk = some s → s.entries.length < 2048) →
    (∀ op ∈ ops, op.Possible) → b.Ordered → ¬ (b.run F ops).1.Has Tree.ByteNode → Orderly F b ops → e.run c ops = .ok (e', rs) →
    CutSim F scope V e' (b.run F ops).1 ∧ e'.Nested := by
  have hmn : SizedValue.maxNarrow ≤ SizedValue.maxWide := by decide
  have hmw : SizedValue.maxWide < 2 ^ 32 := by decide
  induction ops with
  | nil => intro e e' b rs _ hn _ hs _ _ _ _ _ _ _ h; cases h; exact ⟨hs, hn⟩
  | cons op ops ih =>
    intro e e' b rs hw hn hp hs hV hsc hroom hpl hord hdl hor h
    rw [Op.total_cons] at hp
    obtain ⟨e1, r, rs', h1, h2, rfl⟩ := Enc.run_cons h
    have ht := Enc.step_trans hw (by omega) (by omega) h1
    obtain ⟨hw1, hp1⟩ := ht.inv hw (by omega) (by omega)
    obtain ⟨hor1, hor2, hor3⟩ := hor
    have hwait : op = .endArray → e.waitingForKey = false := by
      intro ho
      cases hk : e.waitingForKey with
      | false => rfl
      | true =>
        obtain ⟨kvs, rest, hk⟩ := hs.shape.waiting hk
        exact absurd hk (hor1 ho kvs rest)
    have hcl : (∃ k, op = .key k) → e.closed = false := fun hk => by rw [hs.shape.closed, hor2 hk]; rfl
    have hone : ∀ d, op = .value (.data d) → r = .ok () → d.length ≠ 1 := by
      rintro d rfl hr hd
      refine hdl (Build.run_has byteNode_leaf ops (Build.next_ordered hord _) ?_)
      rw [← (ht.shape hw F hs.shape).1] at hr
      unfold Build.next at hr
      cases hst : b.step F (.value (.data d)) with
      | error x => rw [hst] at hr; cases hr
      | ok b' => exact (Build.step_has byteNode_leaf hord hst).mpr (.inr ⟨_, rfl, .here hd⟩)
    have hle := (Enc.run_inv ops hw1 (by omega) h2).2.2.2
    have hs1 := CutSim.step hw hn (by omega) (by omega) hs hV (hle.scope.trans hsc) (hle.room hroom) (hpl op (by simp)) hone hwait
      hcl h1
    have hsk := (ht.sk_isSome hw (by omega)).isSome
    exact ih hw1 (ht.nested hn) (by omega) hs1 (by rw [hsk]; exact hV) hsc hroom (fun op hop => hpl op (List.mem_cons_of_mem _ hop))
      (Build.next_ordered hord _) hdl hor3 h2

theorem CutSim.closeTop {c : Cfg} {e : Enc} {b : Build} (hV : V.Fair scope) (hw : e.WF) (hn : e.Nested) (hphi : e.phi ≤ SizedValue.maxNarrow)
    (hs : CutSim F scope V e b) : CutSim F scope V (e.closeTop c) b.closeTop ∧ (e.closeTop c).Nested := by
  unfold Enc.closeTop Build.closeTop
  cases hst : e.stack with
  | nil => rw [hs.shape.nil hst]; exact ⟨hs, hn⟩
  | cons coll rest =>
    obtain ⟨f, fr, h1, h2, h3⟩ := hs.shape.cons hst
    rw [h1]
    cases coll with
    | arr vs =>
      obtain ⟨xs, rfl⟩ := kind_arr h2
      exact ⟨CutSim.close_arr hw hn hphi hs hst h1, Enc.Nested.closeEnc (hn.rest hst rfl) _⟩
    | dict els nk =>
      cases f with
      | arr xs => cases nk <;> cases h2
      | dict kvs k => exact ⟨CutSim.close_dict (c := c) hV hw hn hphi hs hst h1, Enc.Nested.closeEnc (hn.rest hst rfl) _⟩

theorem CutSim.closeN {c : Cfg} (hV : V.Fair scope) (n : Nat) : ∀ {e : Enc} {b : Build}, e.WF → e.Nested →
    e.phi ≤ SizedValue.maxNarrow → CutSim F scope V e b → CutSim F scope V (e.closeN c n) (b.closeN n) := by
  have hmn : SizedValue.maxNarrow ≤ SizedValue.maxWide := by decide
  induction n with
  | zero => intro e b _ _ _ h; exact h
  | succ n ih =>
    intro e b hw hn hp h
    obtain ⟨h1, h2, _⟩ := Enc.closeTop_inv (c := c) hw (by omega)
    obtain ⟨h3, h4⟩ := CutSim.closeTop (c := c) hV hw hn hp h
    exact ih h1 h4 (by omega) h3

/-- The bytes of `finish` decode to what is left of the document. -/
theorem CutSim.decodes {c : Cfg} {e : Enc} {b : Build} (hV : V.Fair scope) (hw : e.WF) (hn : e.Nested) (hphi : e.phi ≤ SizedValue.maxNarrow)
    (hs : CutSim F scope V e b) {t : Tree} (ht : b.finish = some t) : ∃ out, e.finish c = .ok out ∧ Decodes F scope out (t.lossyIn V) := by
  have hmn : SizedValue.maxNarrow ≤ SizedValue.maxWide := by decide
  have hl := hs.shape.length
  have hN := CutSim.closeN (c := c) hV e.stack.length hw hn hphi hs
  unfold Build.finish at ht
  rw [Build.finishGo_eq, ← hl] at ht
  obtain ⟨pre, p, en, t', h2, h3, h4, h5, h6, h7⟩ := hN.root t ht
  refine ⟨_, Enc.finish_eq hw (by omega), fun m hm hbase => ?_⟩
  have hle := h4.le
  obtain ⟨g1, g3⟩ := Cut.document (m := m) (by rw [hm]; exact hbase) h4 (by rw [hm]; exact h3) h5 h6 h7
  refine ⟨_, t', g1, h2, fun fuel hf => g3.read fuel ?_⟩
  have : pre.length ≤ (e.closeN c e.stack.length).out.length := by rw [h3]; simp
  omega

end Fleece
