import Verif.Proofs.Sim
import Verif.Proofs.LargeDoc
import Verif.Proofs.Lookup
import Verif.Spec.Fits

/-! # What the encoder writes depends neither on the sort nor on the build profile -/

namespace Fleece
open Res

/-! ## Sorting keys that are all different -/

theorem eq_of_key {els : List DictElem} (h : (els.map (·.key.key)).Nodup) {a b : DictElem} (ha : a ∈ els) (hb : b ∈ els)
    (hab : a.key.key = b.key.key) : a = b := by
  induction els with
  | nil => cases ha
  | cons x xs ih =>
    simp only [List.map_cons, List.nodup_cons, List.mem_map, not_exists, not_and] at h
    rcases List.mem_cons.mp ha with ha | ha <;> rcases List.mem_cons.mp hb with hb | hb
    · rw [ha, hb]
    · exact absurd (by rw [← hab, ha]) (h.1 b hb)
    · exact absurd (by rw [hab, hb]) (h.1 a ha)
    · exact ih h.2 ha hb

/-- All sorts agree on a list whose keys differ. -/
theorem Sorter.agree (s s' : Sorter) {els : List DictElem} (h : (els.map (·.key.key)).Nodup) : s.run els = s'.run els := by
  have hp := s.perm els
  have hp' := s'.perm els
  refine List.Perm.eq_of_pairwise ?_ (s.sorted els) (s'.sorted els) (hp.trans hp'.symm)
  intro a b ha hb h1 h2
  rw [DictKey.cmp_not_gt] at h1 h2
  refine eq_of_key h (hp.mem_iff.mp ha) (hp'.mem_iff.mp hb) ?_
  rcases h1 with h1 | h1
  · rcases h2 with h2 | h2
    · exact absurd (Key.lt_trans h1 h2) (Key.lt_irrefl _)
    · exact h2.symm
  · exact h1

/-! ## One call -/

theorem writeU64Big_agree {d d' : Bool} (hd : d = true ∨ d' = d) {n buf : Nat} {r : Option (List UInt8)}
    (h : writeU64Big d n buf = .ok r) : writeU64Big d' n buf = .ok r := by
  rcases hd with rfl | rfl
  · unfold writeU64Big at h ⊢
    dsimp only at h ⊢
    split at h
    · next hs => rw [if_pos hs]; exact h
    · next hs =>
      rw [if_neg hs]
      split at h
      · cases h
      · next hc => rw [if_neg hc]; exact h
  · exact h

theorem writeU16_agree {d d' : Bool} (hd : d = true ∨ d' = d) {n buf : Nat} {w : Bool} {r : Option (List UInt8)}
    (h : writeU16 d n buf w = .ok r) : writeU16 d' n buf w = .ok r := by
  unfold writeU16 at h ⊢
  split at h
  · next hn => rw [if_pos hn]; exact writeU64Big_agree hd h
  · next hn => rw [if_neg hn]; exact h

theorem writeU64_agree {d d' : Bool} (hd : d = true ∨ d' = d) {n buf : Nat} {w : Bool} {r : Option (List UInt8)}
    (h : writeU64 d n buf w = .ok r) : writeU64 d' n buf w = .ok r := by
  unfold writeU64 at h ⊢
  split at h
  · next hn => rw [if_pos hn]; exact writeU16_agree hd h
  · next hn => rw [if_neg hn]; exact writeU64Big_agree hd h

theorem Scalar.writeTo_agree {d d' : Bool} (hd : d = true ∨ d' = d) {x : Scalar} {buf : Nat} {w : Bool}
    {r : Option (List UInt8)} (h : x.writeTo d buf w = .ok r) : x.writeTo d' buf w = .ok r := by
  cases x <;> simp only [Scalar.writeTo] at h ⊢
  case u8 => exact writeU16_agree hd h
  case u16 => exact writeU16_agree hd h
  case u32 => exact writeU64_agree hd h
  case u64 => exact writeU64_agree hd h
  all_goals exact h

/-- The sorts agree on the innermost collection. -/
def TopAgrees (c c' : Cfg) (e : Enc) : Prop :=
  ∀ els nk rest, e.stack = .dict els nk :: rest → c.sort.run els = c'.sort.run els

/-- A call that returns, returns the same in the other configuration. -/
theorem Enc.step_agree {c c' : Cfg} {e : Enc} (hw : e.WF) (hphi : e.phi ≤ SizedValue.maxWide) (hc : c'.chars = c.chars)
    (hd : c.dbg = true ∨ c'.dbg = c.dbg) (ht : TopAgrees c c' e) {op : Op} {r : Enc × Except EncodeError Unit}
    (h : e.step c op = .ok r) : e.step c' op = .ok r := by
  have hmw : SizedValue.maxWide < 2 ^ 32 := by decide
  cases op with
  | beginArray n => exact h
  | beginDict => exact h
  | key k =>
    simp only [Enc.step, Enc.writeKey] at h ⊢
    split at h
    · exact h
    · unfold Enc.writeKeyLong at h ⊢
      rw [hc]; exact h
  | value x =>
    simp only [Enc.step, Enc.writeValue] at h ⊢
    split at h
    · next hs => rw [if_pos hs]; exact h
    · next hs =>
      rw [if_neg hs]
      split at h
      · exact h
      · obtain ⟨⟨e1, off⟩, h1, h2⟩ := bind_eq_ok.mp h
        refine bind_eq_ok.mpr ⟨(e1, off), ?_, h2⟩
        unfold Enc.write at h1 ⊢
        obtain ⟨o, h3, h4⟩ := bind_eq_ok.mp h1
        exact bind_eq_ok.mpr ⟨o, Scalar.writeTo_agree hd h3, h4⟩
  | endArray =>
    cases hs : e.stack with
    | nil => simp only [Enc.step, Enc.endArray, hs] at h ⊢; exact h
    | cons coll rest =>
      cases coll with
      | dict els nk => cases nk <;> (simp only [Enc.step, Enc.endArray, hs] at h ⊢; exact h)
      | arr vs =>
        have hp := Enc.phi_cons hs
        simp only [Collection.cost] at hp
        have hlen := arrOut_length hw.even vs (by omega)
        simp only [Enc.step] at h ⊢
        rw [Enc.endArray_eq _ e hs hw.even (hw.bounded (.arr vs) (by rw [hs]; simp)) (by omega),
          Enc.finishedCollection_eq _ _ (by exact hlen.1) (by exact hlen.2.1) (by simp only; omega)] at h ⊢
        exact h
  | endDict =>
    cases hs : e.stack with
    | nil => simp only [Enc.step, Enc.endDict, hs] at h ⊢; exact h
    | cons coll rest =>
      cases coll with
      | arr vs => simp only [Enc.step, Enc.endDict, hs] at h ⊢; exact h
      | dict els nk =>
        cases nk with
        | some k => simp only [Enc.step, Enc.endDict, hs] at h ⊢; exact h
        | none =>
          have hp := Enc.phi_cons hs
          simp only [Collection.cost] at hp
          have hlen := dictOut_length hw.even (els.any (Enc.pairFar e.out.length)) (c.sort.run els)
            (by rw [(c.sort.perm els).length_eq]; omega)
          rw [(c.sort.perm els).length_eq] at hlen
          have hb := hw.bounded (.dict els none) (by rw [hs]; simp)
          have htop := ht els none rest hs
          simp only [Enc.step] at h ⊢
          rw [Enc.endDict_eq _ e hs hw.even hb.1 (by omega)] at h ⊢
          rw [← htop]
          rw [Enc.finishedCollection_eq _ _ (by exact hlen.1) (by exact hlen.2.1) (by simp only; omega)] at h ⊢
          exact h

/-! ## The keys of the open dicts -/

/-- The pending key stands for this text. -/
def PendKey (scope : Option SharedKeys) : Option DictKey → Option (List UInt8) → Prop
  | none, none => True
  | some dk, some k => dk.key.Text scope k
  | _, _ => False

/-- The keys of an open dict stand for the texts of the specification's. -/
def FrameKeys (scope : Option SharedKeys) : Collection → Frame → Prop
  | .arr _, .arr _ => True
  | .dict els nk, .dict kvs k => All2 (fun el kv => el.key.key.Text scope kv.1) els kvs ∧ PendKey scope nk k
  | _, _ => False

theorem FrameKeys.mono {s s' : Option SharedKeys} (h : ScopeLe s s') {coll : Collection} {f : Frame} (hf : FrameKeys s coll f) :
    FrameKeys s' coll f := by
  cases coll with
  | arr vs => cases f with
    | arr xs => trivial
    | dict _ _ => exact hf
  | dict els nk => cases f with
    | arr xs => exact hf
    | dict kvs k =>
      refine ⟨hf.1.imp fun _ _ ht => ht.mono h, ?_⟩
      have := hf.2
      cases nk <;> cases k <;> first | exact this | exact Key.Text.mono h this

/-- Of all open collections. -/
def KeysFor (e : Enc) (b : Build) : Prop := All2 (FrameKeys e.sk) e.stack b.stack

theorem KeysFor.uncons {e : Enc} {b : Build} (h : KeysFor e b) {coll : Collection} {rest : List Collection}
    (hs : e.stack = coll :: rest) {f : Frame} {fr : List Frame} (hb : b.stack = f :: fr) :
    FrameKeys e.sk coll f ∧ All2 (FrameKeys e.sk) rest fr := by
  unfold KeysFor at h
  rw [hs, hb] at h
  cases h with
  | cons h t => exact ⟨h, t⟩

theorem closeEnc_keys {e : Enc} {offset : Nat} {frest : List Frame} (t : Tree) (h : All2 (FrameKeys e.sk) e.stack frest) :
    KeysFor (e.closeEnc offset) (Build.close frest t) := by
  unfold KeysFor
  rw [Enc.closeEnc_sk]
  unfold Enc.closeEnc
  cases hs : e.stack with
  | nil => rw [hs] at h; cases h; exact .nil
  | cons coll rest =>
    rw [hs] at h
    cases h with
    | @cons _ f _ fr h0 h1 =>
      cases coll with
      | arr vs => cases f with
        | arr xs => exact .cons h0 h1
        | dict _ _ => exact h0.elim
      | dict els nk => cases f with
        | arr xs => exact h0.elim
        | dict kvs k =>
          obtain ⟨h2, h3⟩ := h0
          cases nk with
          | none => cases k with
            | none => exact .cons ⟨h2, trivial⟩ h1
            | some k => exact h3.elim
          | some dk => cases k with
            | none => exact h3.elim
            | some k => exact .cons ⟨h2.snoc h3, trivial⟩ h1

/-- With shared keys, 16-byte keys are excluded. -/
def Op.Not16 (shared : Bool) : Op → Prop
  | .key k => shared = true → k.bytes.length ≠ 16
  | _ => True

theorem Trans.keys {c : Cfg} {e e' : Enc} {op : Op} {r : Except EncodeError Unit} (hw : e.WF) (hwt : op.weight < 2 ^ 63)
    (h : Trans c e op e' r) (F : FloatOps) {b : Build} (hb : Shape e b) (hk : KeysFor e b) (hd : ¬ Discards e op)
    (h16 : op.Not16 e.sk.isSome) : KeysFor e' (b.next F op).1 := by
  have of_ok : ∀ {b' : Build}, b.step F op = .ok b' → KeysFor e' b' → KeysFor e' (b.next F op).1 := by
    intro b' h1 h2
    unfold Build.next; rw [h1]; exact h2
  have hall := hk
  cases h with
  | reject hx heven hl hsk hwf _ =>
    unfold Build.next; rw [hx F b hb]
    exact hall.imp fun _ _ h => h.mono hsk.scope
  | discard hs => exact absurd ⟨rfl, by simp only [Enc.waitingForKey, hs]⟩ hd
  | @openArr n hc hwk =>
    have hr : b.root.isSome = false := by rw [← hb.closed]; exact hc
    have hnw := hb.notWaiting hwk
    refine of_ok (b' := { b with stack := .arr [] :: b.stack }) ?_ (All2.cons trivial hall)
    simp only [Build.step, Build.open, hr, Bool.false_eq_true, if_false]
  | openDict hc hwk =>
    have hr : b.root.isSome = false := by rw [← hb.closed]; exact hc
    have hnw := hb.notWaiting hwk
    refine of_ok (b' := { b with stack := .dict [] none :: b.stack }) ?_ (All2.cons ⟨.nil, trivial⟩ hall)
    simp only [Build.step, Build.open, hr, Bool.false_eq_true, if_false]
  | @key k dk tail sk' els rest hs hst =>
    obtain ⟨f, fr, h1, h2, h3⟩ := hb.cons hs
    obtain ⟨kvs, rfl⟩ := kind_dict_none h2
    obtain ⟨h4, h5⟩ := hk.uncons hs h1
    have hwt' : k.bytes.length < 2 ^ 63 := by simp only [Op.weight] at hwt; omega
    have hle := (hst.facts hw (by omega)).2.2.2.1.scope
    have htext := (hst.keyFor (F := F) (P := fun _ => True) hw hwt' h16 (fun _ => trivial)).text
    refine of_ok (b' := { b with stack := .dict kvs (some k.bytes) :: fr }) (by simp only [Build.step, h1]) ?_
    exact All2.cons ⟨h4.1.imp fun _ _ h => h.mono hle, htext⟩ (h5.imp fun _ _ h => h.mono hle)
  | @value x s tail coll rest hs hc hv =>
    obtain ⟨f, fr, h1, h2, h3⟩ := hb.cons hs
    obtain ⟨h4, h5⟩ := hk.uncons hs h1
    cases coll with
    | arr vs =>
      obtain ⟨xs, rfl⟩ := kind_arr h2
      exact of_ok (b' := { b with stack := .arr (xs ++ [x.tree F]) :: fr }) (by simp only [Build.step, Build.put, h1])
        (All2.cons trivial h5)
    | dict els nk =>
      cases nk with
      | none => exact absurd rfl (hc els)
      | some dk =>
        obtain ⟨kvs, k', rfl⟩ := kind_dict_some h2
        exact of_ok (b' := { b with stack := .dict (kvs ++ [(k', x.tree F)]) none :: fr })
          (by simp only [Build.step, Build.put, h1]) (All2.cons ⟨h4.1.snoc h4.2, trivial⟩ h5)
  | endArr hs =>
    obtain ⟨f, fr, h1, h2, h3⟩ := hb.cons hs
    obtain ⟨xs, rfl⟩ := kind_arr h2
    obtain ⟨h4, h5⟩ := hk.uncons hs h1
    exact of_ok (by simp only [Build.step, h1]; rfl) (closeEnc_keys _ h5)
  | endDict hs =>
    obtain ⟨f, fr, h1, h2, h3⟩ := hb.cons hs
    obtain ⟨xs, rfl⟩ := kind_dict_none h2
    obtain ⟨h4, h5⟩ := hk.uncons hs h1
    exact of_ok (by simp only [Build.step, h1]; rfl) (closeEnc_keys _ h5)

theorem All2.mem_left {α β : Type} {R : α → β → Prop} {as : List α} {bs : List β} (h : All2 R as bs) {a : α} (ha : a ∈ as) :
    ∃ b ∈ bs, R a b := by
  induction h with
  | nil => cases ha
  | cons h _ ih =>
    rcases List.mem_cons.mp ha with rfl | ha
    · exact ⟨_, by simp, h⟩
    · obtain ⟨b, h1, h2⟩ := ih ha
      exact ⟨b, by simp [h1], h2⟩

/-- Different texts have different stored keys. -/
theorem keys_nodup {scope : Option SharedKeys} {els : List DictElem} {kvs : List (List UInt8 × Tree)}
    (h : All2 (fun (el : DictElem) (kv : List UInt8 × Tree) => el.key.key.Text scope kv.1) els kvs) :
    (kvs.map (·.1)).Nodup → (els.map (·.key.key)).Nodup := by
  induction h with
  | nil => intro _; exact .nil
  | @cons el kv els kvs h t ih =>
    intro hn
    simp only [List.map_cons, List.nodup_cons, List.mem_map, not_exists, not_and] at hn ⊢
    refine ⟨fun el' hm heq => ?_, ih hn.2⟩
    obtain ⟨kv', hm', ht'⟩ := t.mem_left hm
    rw [heq] at ht'
    exact hn.1 kv' hm' (Key.Text.unique ht' h)

/-! ## Documents in the making -/

/-- See `Tree.Distinct`. -/
def Frame.Distinct : Frame → Prop
  | .arr xs => ∀ x ∈ xs, x.Distinct
  | .dict kvs _ => (kvs.map (·.1)).Nodup ∧ ∀ e ∈ kvs, e.2.Distinct

structure Build.Distinct (b : Build) : Prop where
  frames : ∀ f ∈ b.stack, f.Distinct
  root : ∀ t, b.root = some t → t.Distinct

theorem KeysFor.top {c c' : Cfg} {e : Enc} {b : Build} (h : KeysFor e b) (hd : b.Distinct) : TopAgrees c c' e := by
  intro els nk rest hs
  refine Sorter.agree _ _ ?_
  have h0 := h
  unfold KeysFor at h0
  rw [hs] at h0
  cases hb : b.stack with
  | nil => rw [hb] at h0; cases h0
  | cons f fr =>
    obtain ⟨h1, _⟩ := h.uncons hs hb
    cases f with
    | arr _ => exact h1.elim
    | dict kvs k => exact keys_nodup h1.1 (hd.frames (.dict kvs k) (by rw [hb]; simp)).1

theorem nodup_snoc {α : Type} {l : List α} {a : α} (h : (l ++ [a]).Nodup) : l.Nodup := by
  rw [List.nodup_append] at h; exact h.1

theorem Frame.Distinct.unput_arr {xs : List Tree} {t : Tree} (h : (Frame.arr (xs ++ [t])).Distinct) :
    t.Distinct ∧ (Frame.arr xs).Distinct := ⟨h t (by simp), fun x hx => h x (by simp [hx])⟩

theorem Frame.Distinct.unput_dict {kvs : List (List UInt8 × Tree)} {k : List UInt8} {t : Tree} {q q' : Option (List UInt8)}
    (h : (Frame.dict (kvs ++ [(k, t)]) q).Distinct) : t.Distinct ∧ (Frame.dict kvs q').Distinct := by
  refine ⟨h.2 (k, t) (by simp), ?_, fun e he => h.2 e (by simp [he])⟩
  have := h.1
  rw [List.map_append] at this
  exact nodup_snoc this

theorem Build.close_distinct {rest : List Frame} {t : Tree} (h : ∀ g ∈ rest, ¬ g.Waiting)
    (hr : (Build.close rest t).Distinct) : t.Distinct ∧ ∀ f ∈ rest, f.Distinct := by
  match rest with
  | [] => exact ⟨hr.root t rfl, fun f hf => by cases hf⟩
  | .arr xs :: rest =>
    obtain ⟨h1, h2⟩ := (hr.frames (.arr (xs ++ [t])) (by simp [Build.close])).unput_arr
    refine ⟨h1, fun f hf => ?_⟩
    rcases List.mem_cons.mp hf with rfl | hf
    · exact h2
    · exact hr.frames f (by simp [Build.close, hf])
  | .dict kvs (some k) :: rest =>
    obtain ⟨h1, h2⟩ := (hr.frames (.dict (kvs ++ [(k, t)]) none) (by simp [Build.close])).unput_dict (q' := some k)
    refine ⟨h1, fun f hf => ?_⟩
    rcases List.mem_cons.mp hf with rfl | hf
    · exact h2
    · exact hr.frames f (by simp [Build.close, hf])
  | .dict kvs none :: rest => exact absurd True.intro (h (.dict kvs none) (by simp))

theorem Build.closeTop_distinct {b : Build} (ho : b.Ordered) (h : b.closeTop.Distinct) : b.Distinct := by
  unfold Build.closeTop at h
  split at h
  · exact h
  · next xs rest hs =>
    obtain ⟨h1, h2⟩ := Build.close_distinct (ho.inner _ _ hs) h
    refine ⟨fun f hf => ?_, fun t ht => ?_⟩
    · rw [hs] at hf
      rcases List.mem_cons.mp hf with rfl | hf
      · cases h1 with
        | leaf na nd => exact absurd rfl (na xs)
        | arr of => exact of
      · exact h2 f hf
    · rw [ho.noRoot hs] at ht; cases ht
  · next kvs k rest hs =>
    obtain ⟨h1, h2⟩ := Build.close_distinct (ho.inner _ _ hs) h
    refine ⟨fun f hf => ?_, fun t ht => ?_⟩
    · rw [hs] at hf
      rcases List.mem_cons.mp hf with rfl | hf
      · cases h1 with
        | leaf na nd => exact absurd rfl (nd kvs)
        | dict once of => exact ⟨once, of⟩
      · exact h2 f hf
    · rw [ho.noRoot hs] at ht; cases ht

theorem Build.closeTop_ordered {b : Build} (ho : b.Ordered) : b.closeTop.Ordered := by
  unfold Build.closeTop
  split
  · exact ho
  · next hs => exact Build.close_ordered _ (ho.inner _ _ hs)
  · next hs => exact Build.close_ordered _ (ho.inner _ _ hs)

theorem Build.closeTop_length (b : Build) : b.closeTop.stack.length = b.stack.length - 1 := by
  unfold Build.closeTop
  split
  · next hs => rw [hs]; rfl
  · next xs rest hs =>
    rw [hs]
    match rest with
    | [] => rfl
    | .arr xs :: rest => simp [Build.close]
    | .dict kvs (some k) :: rest => simp [Build.close]
    | .dict kvs none :: rest => simp [Build.close]
  · next xs k rest hs =>
    rw [hs]
    match rest with
    | [] => rfl
    | .arr xs :: rest => simp [Build.close]
    | .dict kvs (some k) :: rest => simp [Build.close]
    | .dict kvs none :: rest => simp [Build.close]

theorem Build.closeN_length (n : Nat) : ∀ b : Build, (b.closeN n).stack.length = b.stack.length - n := by
  induction n with
  | zero => intro b; rfl
  | succ n ih => intro b; unfold closeN; rw [ih, closeTop_length]; omega

theorem Build.closeN_distinct (n : Nat) : ∀ {b : Build}, b.Ordered → (b.closeN n).Distinct → b.Distinct := by
  induction n with
  | zero => intro b _ h; exact h
  | succ n ih => intro b ho h; exact Build.closeTop_distinct ho (ih (Build.closeTop_ordered ho) h)

/-- The document is distinct, so everything so far is. -/
theorem Build.finish_distinct {b : Build} (h : ∀ t, b.finish = some t → t.Distinct) :
    (b.closeN b.stack.length).Distinct := by
  have hl := Build.closeN_length b.stack.length b
  refine ⟨fun f hf => ?_, fun t ht => h t ?_⟩
  · rw [Nat.sub_self, List.length_eq_zero_iff] at hl
    rw [hl] at hf; cases hf
  · unfold Build.finish; rw [Build.finishGo_eq]; exact ht

theorem Build.step_distinct {F : FloatOps} {b b' : Build} (ho : b.Ordered) {op : Op} (h : b.step F op = .ok b')
    (hd : b'.Distinct) : b.Distinct := by
  have hopen : ∀ (f : Frame) (x : EncodeError), b.open f x = .ok b' → b.Distinct := by
    intro f x h
    unfold Build.open at h
    split at h
    · cases h
    · split at h
      · cases h
      · cases h; exact ⟨fun g hg => hd.frames g (by simp [hg]), hd.root⟩
  cases op with
  | beginArray n => exact hopen _ _ h
  | beginDict => exact hopen _ _ h
  | key k =>
    simp only [Build.step] at h
    split at h
    · next kvs rest hs =>
      cases h
      refine ⟨fun f hf => ?_, hd.root⟩
      rw [hs] at hf
      rcases List.mem_cons.mp hf with rfl | hf
      · exact hd.frames (.dict kvs (some k.bytes)) (by simp)
      · exact hd.frames f (by simp [hf])
    · cases h
    · cases h
  | value x =>
    simp only [Build.step, Build.put] at h
    split at h
    · cases h
    · next xs rest hs =>
      cases h
      refine ⟨fun f hf => ?_, hd.root⟩
      rw [hs] at hf
      rcases List.mem_cons.mp hf with rfl | hf
      · exact (hd.frames (.arr (xs ++ [x.tree F])) (by simp)).unput_arr.2
      · exact hd.frames f (by simp [hf])
    · next kvs k rest hs =>
      cases h
      refine ⟨fun f hf => ?_, hd.root⟩
      rw [hs] at hf
      rcases List.mem_cons.mp hf with rfl | hf
      · exact (hd.frames (.dict (kvs ++ [(k, x.tree F)]) none) (by simp)).unput_dict.2
      · exact hd.frames f (by simp [hf])
    · cases h
  | endArray =>
    simp only [Build.step] at h
    split at h
    · next xs rest hs =>
      refine Build.closeTop_distinct ho ?_
      cases h
      unfold Build.closeTop; rw [hs]; exact hd
    · cases h
  | endDict =>
    simp only [Build.step] at h
    split at h
    · next xs rest hs =>
      refine Build.closeTop_distinct ho ?_
      cases h
      unfold Build.closeTop; rw [hs]; exact hd
    · cases h
    · cases h

theorem Build.next_ordered {F : FloatOps} {b : Build} (ho : b.Ordered) (op : Op) : (b.next F op).1.Ordered := by
  unfold Build.next
  cases h : b.step F op with
  | error x => exact ho
  | ok b' => exact (Build.step_back false ho h).1

theorem Build.next_distinct {F : FloatOps} {b : Build} (ho : b.Ordered) {op : Op} (h : (b.next F op).1.Distinct) :
    b.Distinct := by
  unfold Build.next at h
  cases hs : b.step F op with
  | error x => rw [hs] at h; exact h
  | ok b' => rw [hs] at h; exact Build.step_distinct ho hs h

theorem Build.run_distinct {F : FloatOps} (ops : List Op) : ∀ {b : Build}, b.Ordered → (Build.run F b ops).1.Distinct →
    b.Distinct := by
  induction ops with
  | nil => intro b _ h; exact h
  | cons op ops ih =>
    intro b ho h
    simp only [Build.run] at h
    exact Build.next_distinct ho (ih (Build.next_ordered ho op) h)

theorem Build.empty_ordered : ({} : Build).Ordered := ⟨fun _ => rfl, fun f fs h => by cases h⟩

/-! ## Sequences of calls -/

theorem Orderly.discards {e : Enc} {b : Build} (hb : Shape e b) {op : Op}
    (h : op = .endArray → ∀ kvs rest, b.stack ≠ .dict kvs none :: rest) : ¬ Discards e op := by
  rintro ⟨ho, hw⟩
  unfold Enc.waitingForKey at hw
  split at hw
  · next els rest hs =>
    obtain ⟨f, fr, h1, h2, _⟩ := hb.cons hs
    obtain ⟨kvs, rfl⟩ := kind_dict_none h2
    exact h ho kvs fr h1
  · cases hw

theorem Enc.run_agree {c c' : Cfg} {F : FloatOps} (hc : c'.chars = c.chars) (hd : c.dbg = true ∨ c'.dbg = c.dbg)
    (ops : List Op) : ∀ {e e' : Enc} {b : Build} {rs : List (Except EncodeError Unit)}, e.WF →
    e.phi + Op.total ops ≤ SizedValue.maxWide → Shape e b → KeysFor e b → b.Ordered → Orderly F b ops →
    (∀ op ∈ ops, op.Not16 e.sk.isSome) → (Build.run F b ops).1.Distinct → e.run c ops = .ok (e', rs) →
    e.run c' ops = .ok (e', rs) ∧ Shape e' (Build.run F b ops).1 ∧ KeysFor e' (Build.run F b ops).1 ∧
      (Build.run F b ops).1.Ordered := by
  have hmw : SizedValue.maxWide < 2 ^ 32 := by decide
  induction ops with
  | nil => intro e e' b rs _ _ hs hk ho _ _ _ h; cases h; exact ⟨rfl, hs, hk, ho⟩
  | cons op ops ih =>
    intro e e' b rs hw hp hs hk ho hord h16 hdist h
    rw [Op.total_cons] at hp
    obtain ⟨e1, r, rs', h1, h2, rfl⟩ := Enc.run_cons h
    have ht := Enc.step_trans hw (by omega) (by omega) h1
    obtain ⟨hw1, hp1⟩ := ht.inv hw (by omega) (by omega)
    obtain ⟨_, hle⟩ := ht.grows hw (by omega)
    have hnd := Orderly.discards hs hord.1
    have hs1 := (ht.shape hw F hs).2 hnd
    have hk1 := ht.keys hw (by omega) F hs hk hnd (h16 op (by simp))
    have hsome : e1.sk.isSome = e.sk.isSome := by
      cases h3 : e.sk <;> cases h4 : e1.sk <;> rw [h3, h4] at hle <;> first | rfl | exact hle.elim
    have hdist' : (Build.run F (b.next F op).1 ops).1.Distinct := hdist
    have ho1 := Build.next_ordered (F := F) ho op
    obtain ⟨g1, g2, g3, g4⟩ := ih hw1 (by omega) hs1 hk1 ho1 hord.2.2
      (fun o hm => by rw [hsome]; exact h16 o (List.mem_cons_of_mem _ hm)) hdist' h2
    have hb := Build.next_distinct ho (Build.run_distinct ops ho1 hdist')
    refine ⟨?_, g2, g3, g4⟩
    unfold Enc.run
    rw [Enc.step_agree hw (by omega) hc hd (hk.top hb) h1]
    simp only [ok_bind]
    rw [g1]; rfl

/-! ## `finish` -/

theorem Enc.closeTop_keys {c : Cfg} {e : Enc} {b : Build} (hb : Shape e b) (hk : KeysFor e b) :
    KeysFor (e.closeTop c) b.closeTop := by
  unfold closeTop
  cases hs : e.stack with
  | nil => unfold Build.closeTop; rw [hb.nil hs]; exact hk
  | cons coll rest =>
    obtain ⟨f, fr, h1, h2, _⟩ := hb.cons hs
    obtain ⟨h4, h5⟩ := hk.uncons hs h1
    unfold Build.closeTop
    rw [h1]
    cases coll with
    | arr vs =>
      obtain ⟨xs, rfl⟩ := kind_arr h2
      exact closeEnc_keys _ h5
    | dict els nk =>
      cases nk with
      | none => obtain ⟨xs, rfl⟩ := kind_dict_none h2; exact closeEnc_keys _ h5
      | some k => obtain ⟨xs, k', rfl⟩ := kind_dict_some h2; exact closeEnc_keys _ h5

theorem Enc.closeTop_agree {c c' : Cfg} {e : Enc} (h : TopAgrees c c' e) : e.closeTop c = e.closeTop c' := by
  unfold closeTop
  cases hs : e.stack with
  | nil => rfl
  | cons coll rest =>
    cases coll with
    | arr vs => rfl
    | dict els nk =>
      simp only
      rw [h els nk rest hs]

theorem Enc.closeN_agree {c c' : Cfg} (n : Nat) : ∀ {e : Enc} {b : Build}, e.WF → e.phi ≤ SizedValue.maxWide → Shape e b →
    KeysFor e b → b.Ordered → (b.closeN n).Distinct → e.closeN c n = e.closeN c' n := by
  induction n with
  | zero => intros; rfl
  | succ n ih =>
    intro e b hw hp hs hk ho hd
    obtain ⟨h1, h2, _⟩ := Enc.closeTop_inv (c := c) hw hp
    have hb := Build.closeN_distinct (n + 1) ho hd
    have := Enc.closeTop_agree (c := c) (c' := c') (hk.top hb)
    unfold closeN
    rw [← this]
    exact ih h1 (by omega) (Enc.closeTop_shape hw hs) (Enc.closeTop_keys hs hk) (Build.closeTop_ordered ho) hd

end Fleece
