import Verif.Proofs.EncStep

/-! # What every call preserves -/

namespace Fleece
open Res

theorem tail_length {out tail bs : List UInt8} (he : out.length % 2 = 0) (h : out ++ tail = padEven (out ++ bs)) :
    tail.length = bs.length + bs.length % 2 := by
  have := congrArg List.length h
  rw [padEven_length] at this
  simp only [List.length_append] at this
  omega

theorem KeyStored.facts {c : Cfg} {e : Enc} (hw : e.WF) {k : List UInt8} (hk : k.length < 2 ^ 64) {dk : DictKey}
    {tail : List UInt8} {sk' : Option SharedKeys} (h : KeyStored c e k dk tail sk') :
    tail.length % 2 = 0 ∧ tail.length ≤ k.length + 12 ∧ dk.Bounded e.out.length ∧ SkLe e.sk sk' ∧
      ∀ sk, sk' = some sk → sk.WF := by
  have hds := dataSize_le hk
  cases h with
  | inline h => exact ⟨rfl, by simp, dataSized_notPointer (.inl rfl) h, SkLe.refl _, hw.sk⟩
  | @shared sk sk' code hsk h2 h =>
    obtain ⟨h1, h2, _, h4, _⟩ := (hw.sk _ hsk).insert_some c.chars h
    refine ⟨rfl, by simp, ?_, by rw [hsk]; exact h2, fun s hs => by cases hs; exact h1⟩
    simp only [DictKey.Bounded]; omega
  | plain hsk h2 hb hl ht =>
    have := tail_length hw.even ht
    refine ⟨by omega, by omega, Nat.le_refl _, by rw [hsk]; trivial, fun s hs => by cases hs⟩
  | @unshared sk sk' bs tail hsk h2 h hb hl ht =>
    have := tail_length hw.even ht
    have hi := (hw.sk _ hsk).insert c.chars k
    rw [h] at hi
    exact ⟨by omega, by omega, Nat.le_refl _, by rw [hsk]; exact hi.2, fun s hs => by cases hs; exact hi.1⟩

theorem ValueStored.facts {c : Cfg} {e : Enc} (hw : e.WF) (hphi : e.phi ≤ SizedValue.maxWide) {x : Scalar}
    {s : SizedValue} {tail : List UInt8} (h : ValueStored c e x s tail) :
    tail.length % 2 = 0 ∧ s.Bounded e.out.length ∧ tail.length ≤ x.size + 1 := by
  have hout := e.phi_out
  cases h with
  | inline h => exact ⟨rfl, fun ht => absurd ht (Scalar.toSized_notPointer h), by simp⟩
  | pointer h hb hl ht =>
    have := tail_length hw.even ht
    obtain ⟨_, _, h3⟩ := ptrSlot_spec (off := e.out.length) (by omega)
    exact ⟨by omega, fun _ => by rw [h3]; exact Nat.le_refl _, by omega⟩

theorem Scalar.size_weight {x : Scalar} (h : (Op.value x).weight < 2 ^ 64) :
    x.size + 1 + 4 ≤ (Op.value x).weight := by
  cases x with
  | u32 n => have := u64Size_le n.toNat; simp only [Scalar.size, Op.weight]; omega
  | u64 n => have := u64Size_le n.toNat; simp only [Scalar.size, Op.weight]; omega
  | str s =>
    simp only [Scalar.size, Op.weight] at *
    have := dataSize_le (n := s.bytes.length) (by omega); omega
  | data d =>
    simp only [Scalar.size, Op.weight] at *
    have := dataSize_le (n := d.length) (by omega); omega
  | _ => simp only [Scalar.size, Op.weight]; omega

theorem Collection.Bounded.put {coll : Collection} {s : SizedValue} {n : Nat} (h : coll.Bounded n) (hs : s.Bounded n) :
    (coll.put s).Bounded n := by
  cases coll with
  | arr vs =>
    intro v hv
    rcases List.mem_append.mp hv with hv | hv
    · exact h v hv
    · simp only [List.mem_singleton] at hv; subst hv; exact hs
  | dict els nk =>
    cases nk with
    | none => exact h
    | some k =>
      refine ⟨fun el hel => ?_, fun k hk => by cases hk⟩
      rcases List.mem_append.mp hel with hel | hel
      · exact h.1 el hel
      · simp only [List.mem_singleton] at hel; subst hel
        exact ⟨h.2 k rfl, hs⟩

theorem Collection.cost_put (coll : Collection) (s : SizedValue) : (coll.put s).cost ≤ coll.cost + 4 := by
  cases coll with
  | arr vs => simp [Collection.put, Collection.cost]; omega
  | dict els nk =>
    cases nk with
    | none => simp [Collection.put, Collection.cost]
    | some k => simp [Collection.put, Collection.cost]; omega

theorem rootBytes_length (d : Nat) : (rootBytes d).length % 2 = 0 ∧ (rootBytes d).length ≤ 6 := by
  unfold rootBytes; split <;> simp [ptrBytes_length]

/-- Closing: the invariant. -/
theorem Enc.closeEnc_wf {e : Enc} {offset : Nat} (hev : e.out.length % 2 = 0) (hb : ∀ coll ∈ e.stack, coll.Bounded e.out.length)
    (hc : e.closed = false ∨ e.stack = []) (hsk : ∀ sk, e.sk = some sk → sk.WF) (ho : offset ≤ e.out.length)
    (hl : e.out.length ≤ SizedValue.maxWide) : (e.closeEnc offset).WF := by
  unfold closeEnc
  cases hs : e.stack with
  | nil =>
    have := rootBytes_length (e.out.length - offset)
    refine ⟨?_, by simp, by simp, hsk⟩
    simp only [List.length_append]; omega
  | cons coll rest =>
    obtain ⟨_, _, h3⟩ := ptrSlot_spec (off := offset) (by omega)
    refine ⟨hev, ?_, ?_, hsk⟩
    · intro coll' hm
      rcases List.mem_cons.mp hm with rfl | hm
      · exact Collection.Bounded.put (hb _ (by rw [hs]; simp)) (fun _ => by rw [h3]; exact ho)
      · exact hb _ (by rw [hs]; simp [hm])
    · intro hcl
      rcases hc with hc | hc
      · simp only at hcl; rw [hcl] at hc; cases hc
      · rw [hs] at hc; cases hc

theorem Enc.closeEnc_phi (e : Enc) (offset : Nat) : (e.closeEnc offset).phi ≤ e.phi + 6 := by
  unfold closeEnc phi
  cases hs : e.stack with
  | nil =>
    have := rootBytes_length (e.out.length - offset)
    simp; omega
  | cons coll rest =>
    have := coll.cost_put (ptrSlot offset)
    simp; omega

theorem Enc.closeEnc_prefix (e : Enc) (offset : Nat) : e.out <+: (e.closeEnc offset).out := by
  unfold closeEnc
  split
  · exact List.prefix_append _ _
  · exact List.prefix_refl _

theorem Enc.closeEnc_sk (e : Enc) (offset : Nat) : (e.closeEnc offset).sk = e.sk := by
  unfold closeEnc
  split <;> rfl

theorem arrOut_prefix (out : List UInt8) (vs : List SizedValue) : out <+: Enc.arrOut out vs := by
  unfold Enc.arrOut
  exact ((List.prefix_append _ _).trans (padEven_prefix _)).trans (List.prefix_append _ _)

theorem dictOut_prefix (out : List UInt8) (w : Bool) (els : List DictElem) : out <+: Enc.dictOut out w els := by
  unfold Enc.dictOut
  exact ((List.prefix_append _ _).trans (padEven_prefix _)).trans (List.prefix_append _ _)

/-- Nothing already written is changed, and shared keys are only added. -/
theorem Trans.grows {c : Cfg} {e e' : Enc} {op : Op} {r : Except EncodeError Unit} (hw : e.WF)
    (ho : op.weight < 2 ^ 64) (h : Trans c e op e' r) : e.out <+: e'.out ∧ SkLe e.sk e'.sk := by
  cases h with
  | reject hx heven hl hsk hwf _ => exact ⟨List.prefix_append _ _, hsk⟩
  | discard hs => exact ⟨List.prefix_refl _, SkLe.refl _⟩
  | openArr hc hk => exact ⟨List.prefix_refl _, SkLe.refl _⟩
  | openDict hc hk => exact ⟨List.prefix_refl _, SkLe.refl _⟩
  | key hs hk =>
    obtain ⟨_, _, _, h4, _⟩ := hk.facts hw (by simp only [Op.weight] at ho; omega)
    exact ⟨List.prefix_append _ _, h4⟩
  | value hs hc hv => exact ⟨List.prefix_append _ _, SkLe.refl _⟩
  | endArr hs =>
    exact ⟨(arrOut_prefix e.out _).trans (Enc.closeEnc_prefix { e with stack := _, out := Enc.arrOut e.out _ } _), by rw [Enc.closeEnc_sk]; exact SkLe.refl _⟩
  | endDict hs =>
    exact ⟨(dictOut_prefix e.out _ _).trans (Enc.closeEnc_prefix { e with stack := _, out := Enc.dictOut e.out _ _ } _), by rw [Enc.closeEnc_sk]; exact SkLe.refl _⟩

theorem Enc.WF.notClosed {e : Enc} (h : e.WF) {coll : Collection} {rest : List Collection} (hs : e.stack = coll :: rest) :
    e.closed = false := by
  cases hc : e.closed with
  | false => rfl
  | true => rw [h.closed hc] at hs; cases hs

/-- The invariant is preserved and the potential grows by at most the weight of the call. -/
theorem Trans.inv {c : Cfg} {e e' : Enc} {op : Op} {r : Except EncodeError Unit} (hw : e.WF)
    (hphi : e.phi ≤ SizedValue.maxWide) (ho : op.weight < 2 ^ 64) (h : Trans c e op e' r) :
    e'.WF ∧ e'.phi ≤ e.phi + op.weight := by
  have hout := e.phi_out
  have hmw : SizedValue.maxWide < 2 ^ 32 := by decide
  cases h with
  | @reject op x tail sk' hx heven hl hsk hwf _ =>
    refine ⟨⟨?_, ?_, hw.closed, hwf⟩, ?_⟩
    · have := hw.even; simp only [List.length_append]; omega
    · intro coll hm; exact (hw.bounded coll hm).mono (by simp)
    · simp only [Enc.phi, List.length_append]; omega
  | discard hs =>
    have hp := Enc.phi_cons hs
    refine ⟨⟨hw.even, fun coll hm => hw.bounded coll (by rw [hs]; simp [hm]), ?_, hw.sk⟩, ?_⟩
    · intro hc; have := hw.notClosed hs; simp only at hc; rw [hc] at this; cases this
    · rw [hp]; simp only [Enc.phi]; omega
  | openArr hc hk =>
    refine ⟨⟨hw.even, ?_, fun h => (by simp only at h; rw [h] at hc; cases hc), hw.sk⟩, ?_⟩
    · intro coll hm
      rcases List.mem_cons.mp hm with rfl | hm
      · intro v hv; cases hv
      · exact hw.bounded coll hm
    · simp [Enc.phi, Collection.cost, Op.weight]; omega
  | openDict hc hk =>
    refine ⟨⟨hw.even, ?_, fun h => (by simp only at h; rw [h] at hc; cases hc), hw.sk⟩, ?_⟩
    · intro coll hm
      rcases List.mem_cons.mp hm with rfl | hm
      · exact ⟨fun v hv => (by cases hv), fun k hk => (by cases hk)⟩
      · exact hw.bounded coll hm
    · simp [Enc.phi, Collection.cost, Op.weight]; omega
  | @key k dk tail sk' els rest hs hk =>
    simp only [Op.weight] at ho
    obtain ⟨h1, h2, h3, h4, h5⟩ := hk.facts hw (by omega)
    have hp := Enc.phi_cons hs
    refine ⟨⟨?_, ?_, ?_, h5⟩, ?_⟩
    · have := hw.even; simp only [List.length_append]; omega
    · intro coll hm
      rcases List.mem_cons.mp hm with rfl | hm
      · have hb := hw.bounded (.dict els none) (by rw [hs]; simp)
        have hb' := hb.mono (k := (e.out ++ tail).length) (by simp)
        exact ⟨hb'.1, fun q hq => by cases hq; exact h3.mono (by simp)⟩
      · exact (hw.bounded coll (by rw [hs]; simp [hm])).mono (by simp)
    · intro hc; have := hw.notClosed hs; simp only at hc; rw [hc] at this; cases this
    · rw [hp]; simp [Enc.phi, Op.weight, Collection.cost]; omega
  | @value x s tail coll rest hs hc hv =>
    obtain ⟨h1, h2, h3⟩ := hv.facts hw hphi
    have hsz := Scalar.size_weight ho
    have hp := Enc.phi_cons hs
    have hcp := coll.cost_put s
    refine ⟨⟨?_, ?_, ?_, hw.sk⟩, ?_⟩
    · have := hw.even; simp only [List.length_append]; omega
    · intro coll' hm
      rcases List.mem_cons.mp hm with rfl | hm
      · exact Collection.Bounded.put ((hw.bounded coll (by rw [hs]; simp)).mono (by simp)) (h2.mono (by simp))
      · exact (hw.bounded coll' (by rw [hs]; simp [hm])).mono (by simp)
    · intro hc; have := hw.notClosed hs; simp only at hc; rw [hc] at this; cases this
    · rw [hp]; simp [Enc.phi]; omega
  | @endArr vs rest hs =>
    have hp := Enc.phi_cons hs
    simp only [Collection.cost] at hp
    have hlen := arrOut_length hw.even vs (by omega)
    refine ⟨Enc.closeEnc_wf hlen.1 ?_ (.inl (hw.notClosed hs)) hw.sk hlen.2.1 (by simp only; omega), ?_⟩
    · intro coll hm
      exact (hw.bounded coll (by rw [hs]; simp [show coll ∈ rest from hm])).mono hlen.2.1
    · refine Nat.le_trans (Enc.closeEnc_phi _ _) ?_
      rw [hp]; simp only [Enc.phi]; omega
  | @endDict els rest hs =>
    have hp := Enc.phi_cons hs
    simp only [Collection.cost] at hp
    have hlen := dictOut_length hw.even (els.any (Enc.pairFar e.out.length)) (c.sort.run els)
      (by rw [(c.sort.perm els).length_eq]; omega)
    rw [(c.sort.perm els).length_eq] at hlen
    refine ⟨Enc.closeEnc_wf hlen.1 ?_ (.inl (hw.notClosed hs)) hw.sk hlen.2.1 (by simp only; omega), ?_⟩
    · intro coll hm
      exact (hw.bounded coll (by rw [hs]; simp [show coll ∈ rest from hm])).mono hlen.2.1
    · refine Nat.le_trans (Enc.closeEnc_phi _ _) ?_
      rw [hp]; simp only [Enc.phi]; omega

theorem Collection.put_kind {coll : Collection} {f : Frame} (h : coll.kind = f.kind) (s : SizedValue) (t : Tree)
    (hc : ∀ els, coll ≠ .dict els none) (b : Build) (fr : List Frame) (hb : b.stack = f :: fr) :
    ∃ f', b.put t = .ok { b with stack := f' :: fr } ∧ (coll.put s).kind = f'.kind := by
  cases coll with
  | arr vs =>
    obtain ⟨xs, rfl⟩ := kind_arr h
    exact ⟨.arr (xs ++ [t]), by simp only [Build.put, hb], rfl⟩
  | dict els nk =>
    cases nk with
    | none => exact absurd rfl (hc els)
    | some k =>
      obtain ⟨kvs, k', rfl⟩ := kind_dict_some h
      exact ⟨.dict (kvs ++ [(k', t)]) none, by simp only [Build.put, hb], rfl⟩

theorem closeEnc_shape {e : Enc} {offset : Nat} {frest : List Frame} (t : Tree)
    (h : e.stack.map Collection.kind = frest.map Frame.kind) (hc : e.closed = false) :
    Shape (e.closeEnc offset) (Build.close frest t) := by
  unfold Enc.closeEnc
  cases hs : e.stack with
  | nil =>
    rw [hs] at h
    have : frest = [] := by simpa using h.symm
    subst this
    exact ⟨by simp [Build.close], by simp [Build.close]⟩
  | cons coll rest =>
    rw [hs] at h
    cases frest with
    | nil => cases h
    | cons f fr =>
      simp only [List.map_cons, List.cons.injEq] at h
      cases coll with
      | arr vs =>
        obtain ⟨xs, rfl⟩ := kind_arr h.1
        exact ⟨by simp [Build.close, h.2]; rfl, by simp [Build.close, hc]⟩
      | dict els nk =>
        cases nk with
        | none =>
          obtain ⟨kvs, rfl⟩ := kind_dict_none h.1
          exact ⟨by simp [Build.close, h.2]; rfl, by simp [Build.close, hc]⟩
        | some k =>
          obtain ⟨kvs, k', rfl⟩ := kind_dict_some h.1
          exact ⟨by simp [Build.close, h.2]; rfl, by simp [Build.close, hc]⟩

/-- Is this call `end_array` on an open dict that waits for a key? -/
def Discards (e : Enc) (op : Op) : Prop := op = .endArray ∧ e.waitingForKey = true

/-- Results are the documented ones, and the same collections stay open, except for `Discards`. -/
theorem Trans.shape {c : Cfg} {e e' : Enc} {op : Op} {r : Except EncodeError Unit} (hw : e.WF) (h : Trans c e op e' r)
    (F : FloatOps) {b : Build} (hb : Shape e b) :
    (b.next F op).2 = r ∧ (¬ Discards e op → Shape e' (b.next F op).1) := by
  have of_ok : ∀ {b' : Build}, b.step F op = .ok b' → r = .ok () → (Shape e' b') →
      (b.next F op).2 = r ∧ (¬ Discards e op → Shape e' (b.next F op).1) := by
    intro b' h1 h2 h3
    unfold Build.next; rw [h1]; exact ⟨h2.symm, fun _ => h3⟩
  cases h with
  | reject hx heven hl hsk hwf _ =>
    unfold Build.next; rw [hx F b hb]
    exact ⟨rfl, fun _ => ⟨hb.stack, hb.closed⟩⟩
  | discard hs =>
    obtain ⟨f, fr, h1, h2, _⟩ := hb.cons hs
    obtain ⟨kvs, rfl⟩ := kind_dict_none h2
    refine ⟨by simp only [Build.next, Build.step, h1], fun hd => absurd ⟨rfl, ?_⟩ hd⟩
    simp only [Enc.waitingForKey, hs]
  | @openArr n hc hk =>
    have hr : b.root.isSome = false := by rw [← hb.closed]; exact hc
    have hnw := hb.notWaiting hk
    refine of_ok (b' := { b with stack := .arr [] :: b.stack }) ?_ rfl ⟨by simp [hb.stack, Collection.kind, Frame.kind], hb.closed⟩
    simp only [Build.step, Build.open, hr, Bool.false_eq_true, if_false]
  | openDict hc hk =>
    have hr : b.root.isSome = false := by rw [← hb.closed]; exact hc
    have hnw := hb.notWaiting hk
    refine of_ok (b' := { b with stack := .dict [] none :: b.stack }) ?_ rfl ⟨by simp [hb.stack, Collection.kind, Frame.kind], hb.closed⟩
    simp only [Build.step, Build.open, hr, Bool.false_eq_true, if_false]
  | key hs hk =>
    obtain ⟨f, fr, h1, h2, h3⟩ := hb.cons hs
    obtain ⟨kvs, rfl⟩ := kind_dict_none h2
    refine of_ok (b' := { b with stack := .dict kvs (some _) :: fr }) (by simp only [Build.step, h1]; rfl) rfl ⟨?_, hb.closed⟩
    simp [h3, Collection.kind, Frame.kind]
  | @value x s tail coll rest hs hc hv =>
    obtain ⟨f, fr, h1, h2, h3⟩ := hb.cons hs
    obtain ⟨f', h4, h5⟩ := Collection.put_kind h2 s (x.tree F) hc b fr h1
    exact of_ok h4 rfl ⟨by simp [h3, h5], hb.closed⟩
  | endArr hs =>
    obtain ⟨f, fr, h1, h2, h3⟩ := hb.cons hs
    obtain ⟨xs, rfl⟩ := kind_arr h2
    exact of_ok (by simp only [Build.step, h1]; rfl) rfl (closeEnc_shape _ h3 (hw.notClosed hs))
  | endDict hs =>
    obtain ⟨f, fr, h1, h2, h3⟩ := hb.cons hs
    obtain ⟨xs, rfl⟩ := kind_dict_none h2
    exact of_ok (by simp only [Build.step, h1]; rfl) rfl (closeEnc_shape _ h3 (hw.notClosed hs))

/-! ## No panic -/

/-- Calls that make none of the scalar writers panic or recurse forever, and ask for no absurd capacity. -/
def Op.Accepted : Op → Prop
  | .value x => x.Survives
  | .beginArray n => n * 4 < 2 ^ 63
  | _ => True

theorem Enc.write_item (c : Cfg) (e : Enc) (x : Item) {bs : List UInt8}
    (h1 : x.writeTo c.dbg x.size false = .ok (some bs)) (h2 : bs.length = x.size) :
    e.write c x false false = .ok ({ e with out := padEven (e.out ++ bs) }, e.out.length % 2 ^ 32) :=
  Enc.write_eq c e x false false rfl (by simpa using h1) (by simpa using h2)

theorem Enc.pushKey_ok (e : Enc) (k : DictKey) : ∃ e' r, e.pushKey k = .ok (e', r) := by
  unfold pushKey
  split
  · split <;> exact ⟨_, _, rfl⟩
  · exact ⟨_, _, rfl⟩

theorem Enc.push_ok (e : Enc) (s : SizedValue) : ∃ e' r, e.push s = .ok (e', r) := by
  unfold push
  split <;> exact ⟨_, _, rfl⟩

theorem Enc.writeKeyPointer_ok (c : Cfg) (e : Enc) (k : RStr) (hk : k.bytes.length < 2 ^ 63) :
    ∃ e' r, e.writeKeyPointer c k.bytes = .ok (e', r) := by
  obtain ⟨bs, ty, h1, h2, _⟩ := Scalar.writeTo_ok (F := ⟨fun _ => 0, fun _ => 0, fun _ => 0, fun _ => 0, fun _ => 0, fun _ => 0⟩)
    c.dbg (x := .str k) hk (Nat.le_refl _)
  unfold writeKeyPointer
  rw [Enc.write_item c e (.key k.bytes) h1 h2]
  exact Enc.pushKey_ok _ _

/-- Accepted calls return. -/
theorem Enc.step_ok {c : Cfg} {e : Enc} {op : Op} (hw : e.WF) (hphi : e.phi ≤ SizedValue.maxWide)
    (ho : op.weight < 2 ^ 63) (ha : op.Accepted) : ∃ e' r, e.step c op = .ok (e', r) := by
  have hmw : SizedValue.maxWide < 2 ^ 32 := by decide
  cases op with
  | beginArray n =>
    simp only [Enc.step, Enc.beginArray]
    simp only [Op.Accepted] at ha
    split
    · exact ⟨_, _, rfl⟩
    · split
      · exact ⟨_, _, rfl⟩
      · rw [if_neg (by omega)]; exact ⟨_, _, rfl⟩
  | beginDict =>
    simp only [Enc.step, Enc.beginDict]
    split
    · exact ⟨_, _, rfl⟩
    · split <;> exact ⟨_, _, rfl⟩
  | key k =>
    have hk : k.bytes.length < 2 ^ 63 := by simp only [Op.weight] at ho; omega
    simp only [Enc.step, Enc.writeKey]
    split
    · exact Enc.pushKey_ok _ _
    · unfold Enc.writeKeyLong
      split
      · split
        · split
          · exact Enc.pushKey_ok _ _
          · exact Enc.writeKeyPointer_ok _ _ _ hk
        · exact ⟨_, _, rfl⟩
      · exact Enc.writeKeyPointer_ok _ _ _ hk
  | value x =>
    simp only [Enc.step, Enc.writeValue]
    split
    · exact ⟨_, _, rfl⟩
    · split
      · exact Enc.push_ok _ _
      · obtain ⟨bs, ty, h1, h2, _⟩ := Scalar.writeTo_ok
          (F := ⟨fun _ => 0, fun _ => 0, fun _ => 0, fun _ => 0, fun _ => 0, fun _ => 0⟩) c.dbg ha (Nat.le_refl _)
        rw [Enc.write_item c e (.scalar x) h1 h2]
        simp only [ok_bind]
        split
        · exact ⟨_, _, rfl⟩
        · exact Enc.push_ok _ _
  | endArray =>
    cases hs : e.stack with
    | nil => exact ⟨_, _, by simp only [Enc.step, Enc.endArray, hs]; rfl⟩
    | cons coll rest =>
      cases coll with
      | dict els nk => cases nk <;> exact ⟨_, _, by simp only [Enc.step, Enc.endArray, hs]; rfl⟩
      | arr vs =>
        have hp := Enc.phi_cons hs
        simp only [Collection.cost] at hp
        have hlen := arrOut_length hw.even vs (by omega)
        simp only [Enc.step]
        rw [Enc.endArray_eq c e hs hw.even (hw.bounded (.arr vs) (by rw [hs]; simp)) (by omega),
          Enc.finishedCollection_eq c _ (by exact hlen.1) (by exact hlen.2.1) (by simp only; omega)]
        exact ⟨_, _, rfl⟩
  | endDict =>
    cases hs : e.stack with
    | nil => exact ⟨_, _, by simp only [Enc.step, Enc.endDict, hs]; rfl⟩
    | cons coll rest =>
      cases coll with
      | arr vs => exact ⟨_, _, by simp only [Enc.step, Enc.endDict, hs]; rfl⟩
      | dict els nk =>
        cases nk with
        | some k => exact ⟨_, _, by simp only [Enc.step, Enc.endDict, hs]; rfl⟩
        | none =>
          have hp := Enc.phi_cons hs
          simp only [Collection.cost] at hp
          have hlen := dictOut_length hw.even (els.any (Enc.pairFar e.out.length)) (c.sort.run els)
            (by rw [(c.sort.perm els).length_eq]; omega)
          rw [(c.sort.perm els).length_eq] at hlen
          simp only [Enc.step]
          rw [Enc.endDict_eq c e hs hw.even (hw.bounded (.dict els none) (by rw [hs]; simp)).1 (by omega),
            Enc.finishedCollection_eq c _ (by exact hlen.1) (by exact hlen.2.1) (by simp only; omega)]
          exact ⟨_, _, rfl⟩

theorem Trans.skStep {c : Cfg} {e e' : Enc} {op : Op} {r : Except EncodeError Unit} (h : Trans c e op e' r) :
    SkStep c e op e'.sk := by
  cases h with
  | reject hx heven hl hsk hwf hs => exact hs
  | key hs hk => exact hk.skStep
  | endArr hs => rw [Enc.closeEnc_sk]; exact .inl rfl
  | endDict hs => rw [Enc.closeEnc_sk]; exact .inl rfl
  | _ => exact .inl rfl

end Fleece
