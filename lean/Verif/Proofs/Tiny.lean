import Verif.Proofs.SmallDoc
import Verif.Spec.Tiny

/-! # Short strings and data in narrow collections -/

namespace Fleece
open Res

variable {P : List UInt8 → Prop}

/-! ## What a narrow slot keeps -/

/-- The slot without the bit that is lost when it is written in two bytes. -/
def SizedValue.clear (s : SizedValue) : SizedValue :=
  if s.type = .pointer then s else SizedValue.newNarrow (s.b0 &&& 0xBF) s.b1

theorem clear_byte (b : UInt8) (h : ValueType.fromByte b ≠ .pointer) :
    (b &&& 0xBF).toNat < 64 ∧ ValueType.fromByte (b &&& 0xBF) ≠ .pointer := by
  revert h b; exact forall_byte (by decide +kernel)

theorem SizedValue.clear_pointer {s : SizedValue} (h : s.type = .pointer) : s.clear = s := by
  unfold clear; rw [if_pos h]

theorem SizedValue.clear_value {s : SizedValue} (h : s.type ≠ .pointer) :
    s.clear = SizedValue.newNarrow (s.b0 &&& 0xBF) s.b1 := by unfold clear; rw [if_neg h]

theorem SizedValue.clear_type (s : SizedValue) : s.clear.type = .pointer ↔ s.type = .pointer := by
  by_cases h : s.type = .pointer
  · rw [clear_pointer h]
  · rw [clear_value h]
    exact ⟨fun h' => absurd h' (clear_byte s.b0 h).2, fun h' => absurd h' h⟩

theorem SizedValue.clear_small (s : SizedValue) (h : s.clear.type ≠ .pointer) : s.clear.b0.toNat < 64 := by
  have h' : s.type ≠ .pointer := fun x => h (s.clear_type.mpr x)
  rw [clear_value h']
  exact (clear_byte s.b0 h').1

theorem slotBytes_clear (s : SizedValue) : slotBytes false s.clear = slotBytes false s := by
  by_cases h : s.type = .pointer
  · rw [SizedValue.clear_pointer h]
  · unfold slotBytes
    rw [if_neg h, if_neg (fun x => h (s.clear_type.mp x)), SizedValue.clear_value h]
    simp only [SizedValue.newNarrow]
    rw [and_bf_small _ (clear_byte s.b0 h).1]
    rfl

theorem relSlot_clear (s : SizedValue) (len : Nat) :
    slotBytes false (Enc.relSlot s.clear len) = slotBytes false (Enc.relSlot s len) := by
  by_cases h : s.type = .pointer
  · rw [SizedValue.clear_pointer h]
  · unfold Enc.relSlot
    rw [if_neg h, if_neg (fun x => h (s.clear_type.mp x))]
    exact slotBytes_clear s

/-- Of a pair. -/
def DictElem.clear (el : DictElem) : DictElem := ⟨el.key, el.val.clear⟩

/-- Of a collection. -/
def Collection.clear : Collection → Collection
  | .arr vs => .arr (vs.map SizedValue.clear)
  | .dict els nk => .dict (els.map DictElem.clear) nk

/-- Of all open collections. -/
def Enc.clear (e : Enc) : Enc := { e with stack := e.stack.map Collection.clear }

theorem relArray_clear (vs : List SizedValue) : ∀ len,
    (Enc.relArray false len (vs.map SizedValue.clear)).map (slotBytes false) =
      (Enc.relArray false len vs).map (slotBytes false) := by
  induction vs with
  | nil => intro; rfl
  | cons v vs ih =>
    intro len
    simp only [List.map_cons, Enc.relArray, ih, relSlot_clear]

theorem relDict_clear (els : List DictElem) : ∀ len,
    Enc.pairsBytes false (Enc.relDict false len (els.map DictElem.clear)) =
      Enc.pairsBytes false (Enc.relDict false len els) := by
  induction els with
  | nil => intro; rfl
  | cons el els ih =>
    intro len
    have h := ih (len + Enc.slotWidth false + Enc.slotWidth false)
    unfold Enc.pairsBytes at h ⊢
    simp only [List.map_cons, Enc.relDict, List.flatten_cons, DictElem.clear, relSlot_clear]
    rw [← h]

/-- Nothing is far away in a small document. -/
theorem slotFar_small {n : Nat} (hn : n ≤ SizedValue.maxNarrow) (s : SizedValue) : Enc.slotFar n s = false := by
  unfold Enc.slotFar
  simp only [Bool.and_eq_false_imp, decide_eq_true_eq, decide_eq_false_iff_not]
  intro _; omega

theorem pairFar_small {n : Nat} (hn : n ≤ SizedValue.maxNarrow) (el : DictElem) (hk : el.key.Bounded n) :
    Enc.pairFar n el = false := by
  unfold Enc.pairFar
  have := slotFar_small hn el.val
  rw [this]
  cases hd : el.key with
  | inline s => rfl
  | shared s => rfl
  | pointer k off =>
    rw [hd] at hk
    simp only [DictKey.Bounded] at hk
    simp; omega

theorem arrOut_clear {out : List UInt8} (hn : out.length ≤ SizedValue.maxNarrow) (vs : List SizedValue) :
    Enc.arrOut out (vs.map SizedValue.clear) = Enc.arrOut out vs := by
  have h1 : vs.any (Enc.slotFar out.length) = false := by
    rw [List.any_eq_false]; intro v _; rw [slotFar_small hn v]; simp
  have h2 : (vs.map SizedValue.clear).any (Enc.slotFar out.length) = false := by
    rw [List.any_eq_false]; intro v _; rw [slotFar_small hn v]; simp
  unfold Enc.arrOut
  simp only [h1, h2, List.length_map, relArray_clear]

theorem dictOut_clear {out : List UInt8} (els : List DictElem) :
    Enc.dictOut out false (els.map DictElem.clear) = Enc.dictOut out false els := by
  unfold Enc.dictOut
  simp only [List.length_map, relDict_clear]

/-! ## The encoder state without the bit -/

theorem Collection.clear_kind (coll : Collection) : coll.clear.kind = coll.kind := by
  cases coll with
  | arr vs => rfl
  | dict els nk => cases nk <;> rfl

theorem Shape.clear {e : Enc} {b : Build} : Shape e.clear b ↔ Shape e b := by
  have hk : e.clear.stack.map Collection.kind = e.stack.map Collection.kind := by
    simp only [Enc.clear, List.map_map]
    exact List.map_congr_left fun x _ => x.clear_kind
  constructor
  · intro h; exact ⟨by rw [← hk]; exact h.stack, h.closed⟩
  · intro h; exact ⟨by rw [hk]; exact h.stack, h.closed⟩

theorem Collection.clear_cost (coll : Collection) : coll.clear.cost = coll.cost := by
  cases coll <;> simp [Collection.clear, Collection.cost]

theorem Enc.clear_phi (e : Enc) : e.clear.phi = e.phi := by
  unfold Enc.phi Enc.clear
  simp only [List.map_map]
  congr 2
  exact List.map_congr_left fun x _ => x.clear_cost

theorem Collection.clear_put (coll : Collection) (s : SizedValue) : (coll.put s).clear = coll.clear.put s.clear := by
  cases coll with
  | arr vs => simp [Collection.put, Collection.clear]
  | dict els nk => cases nk <;> simp [Collection.put, Collection.clear, DictElem.clear]

theorem Enc.clear_closeEnc (e : Enc) {o : Nat} (ho : o ≤ SizedValue.maxWide) :
    (e.closeEnc o).clear = e.clear.closeEnc o := by
  have hp : (ptrSlot o).clear = ptrSlot o := SizedValue.clear_pointer (ptrSlot_spec ho).2.1
  unfold Enc.closeEnc
  cases hs : e.stack with
  | nil => simp [Enc.clear, hs]
  | cons coll rest => simp [Enc.clear, hs, Collection.clear_put, hp]

theorem Collection.clear_clean {coll : Collection} (hk : ∀ els nk, coll = .dict els nk →
    (∀ el ∈ els, ∀ s, el.key ≠ .inline s) ∧ ∀ s, nk ≠ some (.inline s)) : coll.clear.Clean := by
  cases coll with
  | arr vs =>
    intro v hv hn
    obtain ⟨s, _, rfl⟩ := List.mem_map.mp hv
    exact s.clear_small hn
  | dict els nk =>
    obtain ⟨h1, h2⟩ := hk els nk rfl
    refine ⟨fun el hel => ?_, h2⟩
    obtain ⟨el, hel', rfl⟩ := List.mem_map.mp hel
    exact ⟨h1 el hel', fun hn => el.val.clear_small hn⟩

theorem newNarrow_eta {s : SizedValue} (h : ∃ a b, s = SizedValue.newNarrow a b) : s = SizedValue.newNarrow s.b0 s.b1 := by
  obtain ⟨a, b, rfl⟩ := h; rfl

theorem i16Sized_narrow {n : Int} {s : SizedValue} (h : i16Sized n = some s) : ∃ a b, s = SizedValue.newNarrow a b := by
  unfold i16Sized at h
  split at h
  · cases h
  · cases h; exact ⟨_, _, rfl⟩

theorem u16Sized_narrow {n : Nat} {s : SizedValue} (h : u16Sized n = some s) : ∃ a b, s = SizedValue.newNarrow a b := by
  unfold u16Sized at h
  split at h
  · cases h
  · cases h; exact ⟨_, _, rfl⟩

theorem Scalar.toSized_narrow {x : Scalar} {s : SizedValue} (h : x.toSized = some s) :
    ∃ a b, s = SizedValue.newNarrow a b := by
  cases x <;> simp only [Scalar.toSized, i64Sized_eq] at h
  case bool b => cases h; exact ⟨_, _, rfl⟩
  case null => cases h; exact ⟨_, _, rfl⟩
  case undefined => cases h; exact ⟨_, _, rfl⟩
  case str s =>
    unfold dataSized at h
    split at h <;> cases h <;> exact ⟨_, _, rfl⟩
  case data s =>
    unfold dataSized at h
    split at h <;> cases h <;> exact ⟨_, _, rfl⟩
  all_goals first
    | cases h; done
    | exact i16Sized_narrow h
    | exact u16Sized_narrow h
    | (split at h <;> first | cases h | exact u16Sized_narrow h | exact i16Sized_narrow h)

/-! ## What is read from such a slot -/

section
variable {F : FloatOps}

theorem short_value {n : Int} (h : ShortRange n) {s : SizedValue} (hs : i16Sized n = some s) : SlotBytes F s (.int n) :=
  (i16Sized_slot h hs).1

/-- The number that a string of one byte becomes. -/
theorem byte_i16 (b : UInt8) : (256 + Int16.ofNat b.toNat : Int16).toInt = 256 + b.toNat ∧
    i16Sized (256 + b.toNat : Nat) = some (SizedValue.newNarrow 1 b) := by
  revert b; exact forall_byte (by decide +kernel)

/-- Data of no bytes, without the bit: the integer of one byte, zero. -/
theorem zero_int (tl : List UInt8) : ScalarBytes F (0x10 :: 0 :: tl) .int (.int 0) := by
  have hty : ValueType.fromByte 0x10 = .int := by decide
  refine ⟨by simp, rfl, ?_, ?_, ?_, .int (by simp) (.int (c := 0) (bs := [0]) (by omega) rfl rfl (by simp)) fun _ h => by
    exact absurd h (by decide)⟩
  · intro m v hv; rw [hv.type, hty]
  · intro m v hv
    refine ⟨2, ?_, by simp⟩
    simp only [Val.requiredSize, hv.type, hty, ok_bind, hv.byte (i := 0) (b := 0x10) rfl]; rfl
  · intro m v scope f hv
    have hr := hv.rawRead (a := 1) (n := 1) (by simp)
    simp only [List.drop_succ_cons, List.drop_zero, List.take_succ_cons, List.take_zero] at hr
    simp only [readTree, hv.type, hty, ok_bind, Val.toInt, hv.byte (i := 0) (b := 0x10) rfl, pure_eq]
    have h1 : ((0x10 : UInt8) &&& 0x07).toNat + 1 = 1 := by decide
    have h2 : Int.bmod (leNat [0]) (2 ^ 64) = 0 := by decide
    rw [h1, hr]
    simp only [ok_bind, h2]

theorem narrowed_slot {x : Scalar} (hx : x.Survives) (hd : ∀ d, x = .data d → d.length ≠ 1) {s : SizedValue}
    (hs : x.toSized = some s) : SlotBytes F s.clear (x.narrowed.tree F) := by
  have plain : ¬ x.Tiny → x.narrowed = x → SlotBytes F s.clear (x.narrowed.tree F) := by
    intro ht he
    obtain ⟨h1, h2⟩ := Scalar.toSized_ok (F := F) hx hs
    rw [he, SizedValue.clear_value h1.notPointer, and_bf_small _ (h2 ht), ← newNarrow_eta (Scalar.toSized_narrow hs)]
    exact h1
  cases x with
  | str t =>
    obtain ⟨bs, hv⟩ := t
    match bs, hv with
    | [], hv =>
      simp only [Scalar.toSized, dataSized, Option.some.injEq] at hs
      subst hs
      exact short_value (n := 0) (by decide) (by decide)
    | [b], hv =>
      simp only [Scalar.toSized, dataSized, Option.some.injEq] at hs
      subst hs
      obtain ⟨h1, h2⟩ := byte_i16 b
      have hc : (SizedValue.newNarrow (0x40 ||| 1) b).clear = SizedValue.newNarrow 1 b := by
        rw [SizedValue.clear_value (by show ValueType.fromByte (0x40 ||| 1) ≠ _; decide)]
        show SizedValue.newNarrow ((0x40 ||| 1) &&& 0xBF) b = _
        rw [show ((0x40 ||| 1 : UInt8) &&& 0xBF) = 1 by decide]
      rw [hc]
      show SlotBytes F _ (.int (256 + Int16.ofNat b.toNat : Int16).toInt)
      have hb := byte_lt b
      rw [h1]
      exact short_value (n := 256 + b.toNat) (by constructor <;> omega) h2
    | _ :: _ :: _, hv => exact plain (by simp [Scalar.Tiny]) rfl
  | data d =>
    match d with
    | [] =>
      simp only [Scalar.toSized, dataSized, Option.some.injEq] at hs
      subst hs
      exact ⟨by decide, ⟨_, zero_int _⟩, fun _ => ⟨_, zero_int _⟩⟩
    | [b] => exact absurd rfl (hd [b] rfl)
    | _ :: _ :: _ => exact plain (by simp [Scalar.Tiny]) rfl
  | _ => exact plain (by simp [Scalar.Tiny]) rfl

theorem narrowed_big {x : Scalar} (hs : x.toSized = none) : x.narrowed = x := by
  cases x with
  | str t =>
    obtain ⟨bs, hv⟩ := t
    match bs, hv with
    | [], hv => cases hs
    | [b], hv => cases hs
    | _ :: _ :: _, hv => rfl
  | data d =>
    match d with
    | [] => cases hs
    | [b] => cases hs
    | _ :: _ :: _ => rfl
  | _ => rfl

end

/-! ## One call -/

theorem Build.step_error {F : FloatOps} {b : Build} {x y : Scalar} {err : EncodeError}
    (h : b.step F (.value x) = .error err) : b.step F (.value y) = .error err := by
  simp only [Build.step, Build.put] at h ⊢
  split at h
  · exact h
  · cases h
  · cases h
  · exact h

theorem FrameFor.kind {out : List UInt8} {F : FloatOps} {scope : Option SharedKeys} {coll : Collection} {f : Frame}
    (h : FrameFor out F P scope coll f) : coll.kind = f.kind := by
  cases coll with
  | arr vs =>
    cases f with
    | arr xs => rfl
    | dict _ _ => exact h.elim
  | dict els nk =>
    cases f with
    | arr xs => exact h.elim
    | dict kvs k =>
      cases nk <;> cases k <;> first | rfl | exact h.2.elim

theorem frames_kind {out : List UInt8} {F : FloatOps} {scope : Option SharedKeys} {st : List Collection} {fs : List Frame}
    (h : All2 (FrameFor out F P scope) st fs) : st.map Collection.kind = fs.map Frame.kind := by
  induction h with
  | nil => rfl
  | cons hf _ ih => simp only [List.map_cons, hf.kind, ih]

theorem Collection.clear_waiting {coll : Collection} (h : ∀ els, coll ≠ .dict els none) :
    ∀ els, coll.clear ≠ .dict els none := by
  intro els he
  cases coll with
  | arr vs => cases he
  | dict els' nk =>
    simp only [Collection.clear, Collection.dict.injEq] at he
    exact h els' (by rw [he.2])

theorem Enc.Nested.below_clear {e : Enc} (h : e.Nested) {coll : Collection} {rest : List Collection}
    (hs : e.stack = coll :: rest) : ∀ els r, rest.map Collection.clear ≠ .dict els none :: r := by
  intro els r heq
  cases rest with
  | nil => cases heq
  | cons x xs =>
    simp only [List.map_cons, List.cons.injEq] at heq
    cases x with
    | arr vs => cases heq.1
    | dict els' nk =>
      simp only [Collection.clear, Collection.dict.injEq] at heq
      exact h.below hs els' xs (by rw [heq.1.2])

/-- An open dict, closed in some order, without the bit. -/
theorem dict_rep_clear {out : List UInt8} {F : FloatOps} {scope : Option SharedKeys} {els els' : List DictElem}
    {kvs : List (List UInt8 × Tree)} (he : out.length % 2 = 0) (hperm : els'.Perm els)
    (hsort : els'.Pairwise fun a b => DictKey.cmp a.key b.key ≠ .gt)
    (h : All2 (PairLike out F P scope) (els.map DictElem.clear) kvs) (hf : DictFits out false (els'.map DictElem.clear))
    (hsz : out.length + 12 + 8 * els.length ≤ SizedValue.maxWide) :
    ∃ t', Rep (Enc.dictOut out false els') F P scope none out.length (Enc.dictOut out false els').length t' ∧
      Tree.Same (.dict kvs) t' := by
  obtain ⟨mid, hp, h1⟩ := All2.perm (hperm.map DictElem.clear) h
  obtain ⟨lvs, h2, h3⟩ := All2.choose h1
  have hs : (els'.map DictElem.clear).Pairwise fun a b => DictKey.cmp a.key b.key ≠ .gt := by
    rw [List.pairwise_map]; exact hsort
  have := close_dict he h2 hf (by rw [List.length_map, hperm.length_eq]; exact hsz) hs
  rw [dictOut_clear] at this
  exact ⟨.dict lvs, this, .dict hp (h3.imp fun _ _ h => h.1).map_eq fun i x y hx hy => (h3.get hx hy).2⟩

/-- The pairs of a dict in a small document fit two bytes per slot. -/
theorem dictFits_clear {c : Cfg} {e : Enc} {els : List DictElem} {nk : Option DictKey} {rest : List Collection}
    (hs : e.stack = .dict els nk :: rest) (hc : e.clear.Clean) (hphi : e.phi ≤ SizedValue.maxNarrow) :
    DictFits e.out false ((c.sort.run els).map DictElem.clear) := by
  have hmn : SizedValue.maxNarrow < 2 ^ 14 := by decide
  intro _ i el hel
  have hp := Enc.phi_cons hs
  simp only [Collection.cost] at hp
  have hlen := (c.sort.perm els).length_eq
  have hi : i < ((c.sort.run els).map DictElem.clear).length := (List.getElem?_eq_some_iff.mp hel).1
  rw [List.length_map] at hi
  have hh := hdrLen_le (n := ((c.sort.run els).map DictElem.clear).length) (by rw [List.length_map]; omega)
  have hmem : el ∈ els.map DictElem.clear :=
    ((c.sort.perm els).map DictElem.clear).mem_iff.mp (List.mem_of_getElem? hel)
  obtain ⟨h1, h2⟩ := (hc (.dict (els.map DictElem.clear) nk) (by simp [Enc.clear, hs, Collection.clear])).1 el hmem
  refine ⟨?_, fun hn => h2 hn, fun _ => by omega⟩
  cases hk : el.key with
  | inline s => exact absurd hk (h1 s)
  | shared c => trivial
  | pointer k off => show _ - off ≤ _; omega

/-- No pair of a small document is far. -/
theorem pairsFar_small {e : Enc} (hw : e.WF) (hphi : e.phi ≤ SizedValue.maxNarrow) {els : List DictElem} {nk : Option DictKey}
    {rest : List Collection} (hs : e.stack = .dict els nk :: rest) : els.any (Enc.pairFar e.out.length) = false := by
  have hout := e.phi_out
  rw [List.any_eq_false]
  intro el hel
  have hb := (hw.bounded (.dict els nk) (by rw [hs]; simp)).1 el hel
  rw [pairFar_small (by omega) el hb.1]; simp

/-- Closing an array. -/
theorem Sim.narrow_arr {F : FloatOps} {e : Enc} {b : Build} (hw : e.WF) (hn : e.Nested) (hphi : e.phi ≤ SizedValue.maxNarrow)
    (hsim : Sim F P e.clear b) (hc : e.clear.Clean) {vs : List SizedValue} {rest : List Collection}
    (hs : e.stack = .arr vs :: rest) {xs : List Tree} {fr : List Frame} (h1 : b.stack = .arr xs :: fr) :
    Sim F P (Enc.closeEnc { e with stack := rest, out := Enc.arrOut e.out vs } e.out.length).clear (Build.close fr (.arr xs)) ∧
      (Enc.closeEnc { e with stack := rest, out := Enc.arrOut e.out vs } e.out.length).clear.Clean := by
  have hmw : SizedValue.maxWide < 2 ^ 32 := by decide
  have hmn : SizedValue.maxNarrow ≤ SizedValue.maxWide := by decide
  have hout := e.phi_out
  have hall := hsim.stack
  rw [h1] at hall
  simp only [Enc.clear, hs, List.map_cons, Collection.clear] at hall
  have hph := Enc.phi_cons hs
  simp only [Collection.cost] at hph
  have hlen := arrOut_length hw.even vs (by omega)
  have hcs : e.clear.stack = .arr (vs.map SizedValue.clear) :: rest.map Collection.clear := by
    simp [Enc.clear, hs, Collection.clear]
  rw [Enc.clear_closeEnc _ (by omega)]
  cases hall with
  | cons hf hrest =>
    have hfit := arrFits_small hcs hc (by rw [Enc.clear_phi]; exact hphi)
    obtain ⟨t', h4, h5⟩ := arr_rep hw.even hf hfit (by rw [List.length_map]; omega)
    rw [arrOut_clear (by omega)] at h4
    exact ⟨sim_close (hw.notClosed hs) (frames_kind hrest) (Sim.stack_mono hrest (arrOut_prefix _ _) (.refl _))
      (hn.below_clear hs) h4 h5 hw.even hlen.1 (by show (Enc.arrOut e.out vs).length ≤ _; omega),
      Enc.Clean.closeEnc (hc.rest hcs rfl) (by omega)⟩

/-- Closing a dict. -/
theorem Sim.narrow_dict {c : Cfg} {F : FloatOps} {e : Enc} {b : Build} (hw : e.WF) (hn : e.Nested)
    (hphi : e.phi ≤ SizedValue.maxNarrow) (hsim : Sim F P e.clear b) (hc : e.clear.Clean) {els : List DictElem}
    {nk : Option DictKey} {rest : List Collection} (hs : e.stack = .dict els nk :: rest) {kvs : List (List UInt8 × Tree)}
    {k : Option (List UInt8)} {fr : List Frame} (h1 : b.stack = .dict kvs k :: fr) :
    let e' := Enc.closeEnc { e with
        stack := rest
        out := Enc.dictOut e.out (els.any (Enc.pairFar e.out.length)) (c.sort.run els) } e.out.length
    Sim F P e'.clear (Build.close fr (.dict kvs)) ∧ e'.clear.Clean := by
  have hmw : SizedValue.maxWide < 2 ^ 32 := by decide
  have hmn : SizedValue.maxNarrow ≤ SizedValue.maxWide := by decide
  have hout := e.phi_out
  have hall := hsim.stack
  rw [h1] at hall
  simp only [Enc.clear, hs, List.map_cons, Collection.clear] at hall
  have hph := Enc.phi_cons hs
  simp only [Collection.cost] at hph
  have hlen := dictOut_length hw.even false (c.sort.run els) (by rw [(c.sort.perm els).length_eq]; omega)
  rw [(c.sort.perm els).length_eq] at hlen
  have hcs : e.clear.stack = .dict (els.map DictElem.clear) nk :: rest.map Collection.clear := by
    simp [Enc.clear, hs, Collection.clear]
  rw [pairsFar_small hw hphi hs]
  dsimp only
  rw [Enc.clear_closeEnc _ (by omega)]
  cases hall with
  | cons hf hrest =>
    obtain ⟨t', h4, h5⟩ := dict_rep_clear hw.even (c.sort.perm els) (c.sort.sorted els) hf.1 (dictFits_clear hs hc hphi)
      (by omega)
    exact ⟨sim_close (hw.notClosed hs) (frames_kind hrest) (Sim.stack_mono hrest (dictOut_prefix _ _ _) (.refl _))
      (hn.below_clear hs) h4 h5 hw.even hlen.1 (by show (Enc.dictOut e.out false _).length ≤ _; omega),
      Enc.Clean.closeEnc (hc.rest hcs rfl) (by omega)⟩

/-- The encoder, without the bit, stands for what the specification builds from the numbers. -/
theorem Sim.narrow_step {c : Cfg} {F : FloatOps} {e e' : Enc} {b : Build} {op : Op} {r : Except EncodeError Unit} (hw : e.WF)
    (hn : e.Nested) (hphi : e.phi ≤ SizedValue.maxNarrow) (ho : op.weight < 2 ^ 64) (hsim : Sim F P e.clear b)
    (hc : e.clear.Clean) (hp : op.Narrowable e.sk.isSome) (hor1 : op = .endArray → e.waitingForKey = false)
    (hor2 : (∃ k, op = .key k) → e.closed = false) (hks : StepKeys c P e op) (h : e.step c op = .ok (e', r)) :
    Sim F P e'.clear (b.next F op.narrowed).1 ∧ e'.clear.Clean := by
  have hmw : SizedValue.maxWide < 2 ^ 32 := by decide
  have hmn : SizedValue.maxNarrow ≤ SizedValue.maxWide := by decide
  have hout := e.phi_out
  have hsh : Shape e b := Shape.clear.mp hsim.shape
  have ht := Enc.step_trans hw (by omega) ho h
  have of_ok : ∀ {b' : Build}, b.step F op.narrowed = .ok b' → Sim F P e'.clear b' →
      Sim F P e'.clear (b.next F op.narrowed).1 := by
    intro b' h1 h2
    unfold Build.next; rw [h1]; exact h2
  have hclosed : ∀ {b' : Build}, All2 (FrameFor e'.clear.out F P e'.clear.sk) e'.clear.stack b'.stack →
      e'.clear.closed = b'.root.isSome → Shape e'.clear b' := fun h1 h2 => ⟨frames_kind h1, h2⟩
  have hopen : ∀ {coll rest}, e.stack = coll :: rest → b.root.isSome = false := fun hs => by
    rw [← hsh.closed]; exact hw.notClosed hs
  cases ht with
  | @reject _ x tail sk' hx heven hl hsk hwf _ =>
    have hxx : b.step F op.narrowed = .error x := by
      have := hx F b hsh
      cases op <;> first | exact this | exact Build.step_error this
    have hnext : (b.next F op.narrowed).1 = b := by unfold Build.next; rw [hxx]
    rw [hnext]
    have hst := Sim.stack_mono hsim.stack (List.prefix_append e.out tail) hsk.scope
    refine ⟨⟨hclosed hst hsh.closed, hst, ?_⟩, hc⟩
    intro t hroot
    have hcl : e.closed = true := by rw [hsh.closed, hroot]; rfl
    have := closed_step (hw.closed hcl) hcl (by
      rintro k rfl
      have := hor2 ⟨k, rfl⟩; rw [hcl] at this; cases this) h
    rw [this]
    exact hsim.root t hroot
  | discard hs =>
    have := hor1 rfl
    unfold Enc.waitingForKey at this
    rw [hs] at this; cases this
  | @openArr n hcl hk =>
    have hr : b.root.isSome = false := by rw [← hsh.closed]; exact hcl
    have hnw := hsh.notWaiting hk
    have hst : b.step F (.beginArray n) = .ok { b with stack := .arr [] :: b.stack } := by
      simp only [Build.step, Build.open, hr, Bool.false_eq_true, if_false]
    have hall : All2 (FrameFor e.out F P e.sk) (.arr [] :: e.clear.stack) (.arr [] :: b.stack) := .cons .nil hsim.stack
    refine ⟨of_ok hst ⟨hclosed hall hsh.closed, hall, ?_⟩, ?_⟩
    · intro t hroot
      simp only at hroot
      rw [hroot] at hr; cases hr
    · intro coll hm
      rcases List.mem_cons.mp hm with rfl | hm
      · intro v hv; cases hv
      · exact hc coll hm
  | openDict hcl hk =>
    have hr : b.root.isSome = false := by rw [← hsh.closed]; exact hcl
    have hnw := hsh.notWaiting hk
    have hst : b.step F .beginDict = .ok { b with stack := .dict [] none :: b.stack } := by
      simp only [Build.step, Build.open, hr, Bool.false_eq_true, if_false]
    have hall : All2 (FrameFor e.out F P e.sk) (.dict [] none :: e.clear.stack) (.dict [] none :: b.stack) :=
      .cons ⟨.nil, trivial⟩ hsim.stack
    refine ⟨of_ok hst ⟨hclosed hall hsh.closed, hall, ?_⟩, ?_⟩
    · intro t hroot
      simp only at hroot
      rw [hroot] at hr; cases hr
    · intro coll hm
      rcases List.mem_cons.mp hm with rfl | hm
      · exact ⟨fun v hv => (by cases hv), by simp⟩
      · exact hc coll hm
  | @key k dk tail sk' els rest hs hk =>
    obtain ⟨f, fr, h1, h2, h3⟩ := hsh.cons hs
    obtain ⟨kvs, rfl⟩ := kind_dict_none h2
    have hst : b.step F (.key k) = .ok { b with stack := .dict kvs (some k.bytes) :: fr } := by
      simp only [Build.step, h1]
    have hall := hsim.stack
    rw [h1] at hall
    simp only [Enc.clear, hs, List.map_cons, Collection.clear] at hall
    obtain ⟨hk1, hk2, hk3⟩ := hp
    obtain ⟨_, _, _, hle, _⟩ := hk.facts hw (by omega)
    cases hall with
    | cons hf hrest =>
      have hf' := hf.mono (List.prefix_append e.out tail) hle.scope
      have hall' : All2 (FrameFor (e.out ++ tail) F P sk')
          (.dict (els.map DictElem.clear) (some dk) :: rest.map Collection.clear) (.dict kvs (some k.bytes) :: fr) :=
        .cons ⟨hf'.1, hk.keyFor hw hk2 hk3 (hks k rfl)⟩ (Sim.stack_mono hrest (List.prefix_append e.out tail) hle.scope)
      refine ⟨of_ok hst ⟨hclosed hall' hsh.closed, hall', ?_⟩, ?_⟩
      · intro t hroot
        have := hopen hs
        rw [show b.root = some t from hroot] at this; cases this
      · intro coll hm
        rcases List.mem_cons.mp hm with rfl | hm
        · refine ⟨(hc (.dict (els.map DictElem.clear) none) (by simp [Enc.clear, hs, Collection.clear])).1, ?_⟩
          intro s hs
          cases hs
          cases hk with
          | inline hin =>
            have := dataSized_none (k := k.bytes) (tag := 0x40)
            rw [this.mpr hk1] at hin; cases hin
        · exact hc coll (by simp only [Enc.clear, hs, List.map_cons]; exact List.mem_cons_of_mem _ hm)
  | @value x s tail coll rest hs hcd hv =>
    obtain ⟨f, fr, h1, h2, h3⟩ := hsh.cons hs
    have hall := hsim.stack
    rw [h1] at hall
    simp only [Enc.clear, hs, List.map_cons] at hall
    have hslot : SlotFor (e.out ++ tail) F P e.sk s.clear (x.narrowed.tree F) := by
      have hvs := hv.slotFor (F := F) (P := P) hw (by omega) hp.1 e.sk
      cases hv with
      | inline hin => exact .inline (narrowed_slot hp.1 hp.2 hin)
      | pointer hin hb hl ht =>
        rw [narrowed_big hin, SizedValue.clear_pointer (ptrSlot_spec (off := e.out.length) (by omega)).2.1]
        exact hvs
    cases hall with
    | cons hf hrest =>
      have hf' := hf.mono (List.prefix_append e.out tail) (.refl _)
      obtain ⟨f', h4, h5, _⟩ := put_frame hf' ⟨_, hslot, .refl _⟩ (Collection.clear_waiting hcd) h1
      have hst : b.step F (Op.narrowed (.value x)) = .ok { b with stack := f' :: fr } := h4
      have hall' : All2 (FrameFor (e.out ++ tail) F P e.sk) ((coll.put s).clear :: rest.map Collection.clear) (f' :: fr) := by
        rw [Collection.clear_put]
        exact .cons h5 (Sim.stack_mono hrest (List.prefix_append e.out tail) (.refl _))
      refine ⟨of_ok hst ⟨hclosed hall' hsh.closed, hall', ?_⟩, ?_⟩
      · intro t hroot
        have := hopen hs
        rw [show b.root = some t from hroot] at this; cases this
      · intro coll' hm
        rcases List.mem_cons.mp hm with rfl | hm
        · show ((coll.put s).clear).Clean
          rw [Collection.clear_put]
          exact (hc coll.clear (by simp [Enc.clear, hs])).put fun hn => s.clear_small hn
        · exact hc coll' (by simp only [Enc.clear, hs, List.map_cons]; exact List.mem_cons_of_mem _ hm)
  | @endArr vs rest hs =>
    obtain ⟨f, fr, h1, h2, h3⟩ := hsh.cons hs
    obtain ⟨xs, rfl⟩ := kind_arr h2
    obtain ⟨h4, h5⟩ := Sim.narrow_arr hw hn hphi hsim hc hs h1
    exact ⟨of_ok (b' := Build.close fr (.arr xs)) (by simp only [Op.narrowed, Build.step, h1]) h4, h5⟩
  | @endDict els rest hs =>
    obtain ⟨f, fr, h1, h2, h3⟩ := hsh.cons hs
    obtain ⟨kvs, rfl⟩ := kind_dict_none h2
    obtain ⟨h4, h5⟩ := Sim.narrow_dict hw hn hphi hsim hc hs h1
    exact ⟨of_ok (b' := Build.close fr (.dict kvs)) (by simp only [Op.narrowed, Build.step, h1]) h4, h5⟩

/-! ## Sequences, and `finish` -/

theorem Sim.narrow_run {c : Cfg} {F : FloatOps} (ops : List Op) :
    ∀ {e e' : Enc} {b b' : Build} {rs : List (Except EncodeError Unit)},
    e.WF → e.Nested → e.phi + Op.total ops ≤ SizedValue.maxNarrow → Sim F P e.clear b → e.clear.Clean →
    (∀ op ∈ ops, op.Narrowable e.sk.isSome) → Shape e b' → Orderly F b' ops → RunKeys c P e ops → e.run c ops = .ok (e', rs) →
    Sim F P e'.clear (b.run F (ops.map Op.narrowed)).1 ∧ e'.Nested ∧ e'.clear.Clean := by
  have hmn : SizedValue.maxNarrow ≤ SizedValue.maxWide := by decide
  have hmw : SizedValue.maxWide < 2 ^ 32 := by decide
  induction ops with
  | nil => intro e e' b b' rs _ hn _ hs hc _ _ _ _ h; cases h; exact ⟨hs, hn, hc⟩
  | cons op ops ih =>
    intro e e' b b' rs hw hn hp hs hc hpl hb hor hks h
    rw [Op.total_cons] at hp
    obtain ⟨e1, r, rs', h1, h2, rfl⟩ := Enc.run_cons h
    have ht := Enc.step_trans hw (by omega) (by omega) h1
    obtain ⟨hw1, hp1⟩ := ht.inv hw (by omega) (by omega)
    obtain ⟨hor1, hor2, hor3⟩ := hor
    have hwait : op = .endArray → e.waitingForKey = false := by
      intro ho
      cases hk : e.waitingForKey with
      | false => rfl
      | true =>
        obtain ⟨kvs, rest, hk⟩ := hb.waiting hk
        exact absurd hk (hor1 ho kvs rest)
    have hcl : (∃ k, op = .key k) → e.closed = false := fun hk => by rw [hb.closed, hor2 hk]; rfl
    obtain ⟨hs1, hc1⟩ := Sim.narrow_step hw hn (by omega) (by omega) hs hc (hpl op (by simp)) hwait hcl hks.1 h1
    have hshape := (ht.shape hw F hb).2 (by
      rintro ⟨ho, hk⟩
      have := hwait ho; rw [hk] at this; cases this)
    have hsk := (ht.sk_isSome hw (by omega)).isSome
    exact ih hw1 (ht.nested hn) (by omega) hs1 hc1 (fun op hop => by rw [hsk]; exact hpl op (List.mem_cons_of_mem _ hop))
      hshape hor3 (hks.2 _ _ h1) h2

theorem Sim.narrow_closeTop {c : Cfg} {F : FloatOps} {e : Enc} {b : Build} (hw : e.WF) (hn : e.Nested)
    (hphi : e.phi ≤ SizedValue.maxNarrow) (hs : Sim F P e.clear b) (hc : e.clear.Clean) :
    Sim F P (e.closeTop c).clear b.closeTop ∧ (e.closeTop c).Nested ∧ (e.closeTop c).clear.Clean := by
  have hsh : Shape e b := Shape.clear.mp hs.shape
  unfold Enc.closeTop Build.closeTop
  cases hst : e.stack with
  | nil => rw [hsh.nil hst]; exact ⟨hs, hn, hc⟩
  | cons coll rest =>
    obtain ⟨f, fr, h1, h2, h3⟩ := hsh.cons hst
    rw [h1]
    cases coll with
    | arr vs =>
      obtain ⟨xs, rfl⟩ := kind_arr h2
      obtain ⟨h4, h5⟩ := Sim.narrow_arr hw hn hphi hs hc hst h1
      exact ⟨h4, Enc.Nested.closeEnc (hn.rest hst rfl) _, h5⟩
    | dict els nk =>
      cases f with
      | arr xs => cases nk <;> cases h2
      | dict kvs k =>
        obtain ⟨h4, h5⟩ := Sim.narrow_dict (c := c) hw hn hphi hs hc hst h1
        exact ⟨h4, Enc.Nested.closeEnc (hn.rest hst rfl) _, h5⟩

theorem Sim.narrow_closeN {c : Cfg} {F : FloatOps} (n : Nat) : ∀ {e : Enc} {b : Build}, e.WF → e.Nested →
    e.phi ≤ SizedValue.maxNarrow → Sim F P e.clear b → e.clear.Clean → Sim F P (e.closeN c n).clear (b.closeN n) := by
  have hmn : SizedValue.maxNarrow ≤ SizedValue.maxWide := by decide
  induction n with
  | zero => intro e b _ _ _ h _; exact h
  | succ n ih =>
    intro e b hw hn hp h hc
    obtain ⟨h1, h2, _⟩ := Enc.closeTop_inv (c := c) hw (by omega)
    obtain ⟨h3, h4, h5⟩ := Sim.narrow_closeTop (c := c) hw hn hp h hc
    exact ih h1 h4 (by omega) h3 h5

/-- The bytes of `finish` decode to what the specification builds from the numbers. -/
theorem Sim.narrow_decodes {c : Cfg} {F : FloatOps} {e : Enc} {b : Build} (hw : e.WF) (hn : e.Nested)
    (hphi : e.phi ≤ SizedValue.maxNarrow) (hs : Sim F P e.clear b) (hc : e.clear.Clean) {t : Tree}
    (ht : b.finish = some t) {scope : Option SharedKeys} (hsc : ScopeLe e.sk scope) :
    ∃ out, e.finish c = .ok out ∧ Decodes F scope out t := by
  have hmn : SizedValue.maxNarrow ≤ SizedValue.maxWide := by decide
  have hl := (Shape.clear.mp hs.shape).length
  have hN := Sim.narrow_closeN (c := c) e.stack.length hw hn hphi hs hc
  obtain ⟨_, _, _, _, hsk⟩ := Enc.closeN_inv (c := c) e.stack.length hw (by omega)
  unfold Build.finish at ht
  rw [Build.finishGo_eq, ← hl] at ht
  obtain ⟨pre, p, en, t', h2, h3, h4, h5, h6, h7⟩ := hN.root t ht
  have h3 : (e.closeN c e.stack.length).out = _ := h3
  have h4 : Rep pre F P (e.closeN c e.stack.length).sk none p en t' := h4
  rw [hsk] at h4
  refine ⟨_, Enc.finish_eq hw (by omega), fun m hm hbase => ?_⟩
  have hle := h4.le
  obtain ⟨g1, _, g3⟩ := Rep.document (m := m) (by rw [hm]; exact hbase) (h4.mono (List.prefix_refl _) hsc)
    (by rw [hm]; exact h3) h5 h6 h7
  refine ⟨_, t', g1, h2, fun fuel hf => g3.read fuel ?_⟩
  have : pre.length ≤ (e.closeN c e.stack.length).out.length := by rw [h3]; simp
  omega

end Fleece
