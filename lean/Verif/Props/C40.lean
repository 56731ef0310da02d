import Verif.Props.C20

/-!
# C40 Oversized documents are refused, not corrupted

Full claim: whenever a pointer cannot hold the distance it should, the call returns `PointerTooLarge`. It is false twice.
Above 1 GiB `end_array` panics instead (`C40_refuted_panic`). Above 4 GiB every call succeeds, and the pointers are wrong
by 2^32 (`C40_refuted_truncated`). What holds: `write_value` and the ends of collections either record the exact position
or refuse, as long as the output is below 4 GiB; pointers, once fixed up, are exact or the call does not return; and below
1 GiB nothing is ever refused for its size.
-/

namespace Fleece.Props
open Fleece Res

/-- **C40, values.** Below 4 GiB, a value that needs a pointer is either recorded with its exact position, or refused with
`PointerTooLarge`, the latter exactly if the position exceeds the limit. In both cases the open collections below the
innermost are untouched. -/
theorem C40_value_partial (c : Cfg) (e e' : Enc) (x : Scalar) (r : Except EncodeError Unit) (hl : e.out.length < 2 ^ 32)
    (hx : x.toSized = none) (h : e.step c (.value x) = .ok (e', r)) (coll : Collection) (rest : List Collection)
    (hs : e.stack = coll :: rest) (hw : e.waitingForKey = false) :
    (SizedValue.maxWide < e.out.length → r = .error .pointerTooLarge ∧ e'.stack = e.stack) ∧
    (e.out.length ≤ SizedValue.maxWide → r = .ok () ∧
      ∃ s, e'.stack = coll.put s :: rest ∧ s.type = .pointer ∧ s.pointerOffset = e.out.length) := by
  simp only [Enc.step, Enc.writeValue, hs, List.isEmpty_cons, Bool.false_eq_true, if_false, hx] at h
  obtain ⟨⟨e1, off⟩, h1, h⟩ := bind_eq_ok.mp h
  obtain ⟨bs, _, _, h2, rfl⟩ := Enc.write_item_ok c e _ h1
  rw [Nat.mod_eq_of_lt hl] at h2
  subst h2
  dsimp only at h
  constructor
  · intro hbig
    have : SizedValue.newPointer e.out.length = none := by unfold SizedValue.newPointer; rw [if_pos hbig]
    rw [this] at h
    cases h
    exact ⟨rfl, rfl⟩
  · intro hsm
    obtain ⟨s, g1, g2, g3⟩ := SizedValue.newPointer_spec hsm
    rw [g1] at h
    simp only [Enc.push, hs] at h
    cases coll with
    | arr vs => cases h; exact ⟨rfl, s, rfl, g2, g3⟩
    | dict els nk =>
      cases nk with
      | some k => cases h; exact ⟨rfl, s, rfl, g2, g3⟩
      | none => unfold Enc.waitingForKey at hw; rw [hs] at hw; cases hw

/-- **C40, collections.** The same for a finished collection at `offset` inside another one. -/
theorem C40_nested_partial (c : Cfg) (e e' : Enc) (offset : Nat) (r : Except EncodeError Unit)
    (h : e.finishedCollection c offset = .ok (e', r)) (coll : Collection) (rest : List Collection)
    (hs : e.stack = coll :: rest) :
    (SizedValue.maxWide < offset → r = .error .pointerTooLarge ∧ e' = e) ∧
    (offset ≤ SizedValue.maxWide → r = .ok () ∧
      ∃ s, e'.stack = coll.put s :: rest ∧ s.type = .pointer ∧ s.pointerOffset = offset) := by
  simp only [Enc.finishedCollection, hs] at h
  constructor
  · intro hbig
    have : SizedValue.newPointer offset = none := by unfold SizedValue.newPointer; rw [if_pos hbig]
    rw [this] at h
    cases h
    exact ⟨rfl, rfl⟩
  · intro hsm
    obtain ⟨s, g1, g2, g3⟩ := SizedValue.newPointer_spec hsm
    rw [g1] at h
    cases coll with
    | arr vs => cases h; exact ⟨rfl, s, rfl, g2, g3⟩
    | dict els nk => cases nk <;> cases h <;> exact ⟨rfl, s, rfl, g2, g3⟩

/-- **C40, root.** The outermost collection, at `offset`, is finished below 4 GiB: either the output ends with a root
pointer for its exact distance, or the call is refused with `PointerTooLarge`. -/
theorem C40_root_partial (c : Cfg) (e e' : Enc) (offset : Nat) (r : Except EncodeError Unit)
    (h : e.finishedCollection c offset = .ok (e', r)) (hs : e.stack = []) (he : e.out.length % 2 = 0)
    (hl : e.out.length < 2 ^ 32) (ho : offset ≤ e.out.length) :
    (SizedValue.maxWide < e.out.length - offset → r = .error .pointerTooLarge ∧ e' = e) ∧
    (e.out.length - offset ≤ SizedValue.maxWide → r = .ok () ∧ e'.out = e.out ++ rootBytes (e.out.length - offset)) := by
  have hmn : SizedValue.maxNarrow ≤ SizedValue.maxWide := by decide
  simp only [Enc.finishedCollection, hs] at h
  rw [Nat.mod_eq_of_lt hl, Enc.u32Sub_eq _ ho] at h
  simp only [ok_bind] at h
  constructor
  · intro hbig
    rw [if_neg (by omega)] at h
    have : SizedValue.newPointer (e.out.length - offset) = none := by unfold SizedValue.newPointer; rw [if_pos hbig]
    rw [this] at h
    cases h
    exact ⟨rfl, rfl⟩
  · intro hsm
    obtain ⟨g1, g2, g3⟩ := ptrSlot_spec hsm
    have hb := slotBytes_ptr hsm
    by_cases hn : e.out.length - offset ≤ SizedValue.maxNarrow
    · rw [if_pos hn, g1] at h
      simp only [Enc.write_sized c e he, ok_bind] at h
      cases h
      refine ⟨rfl, ?_⟩
      simp only [hb, rootBytes, if_pos hn, Bool.false_or]
      rw [decide_eq_false (by omega)]
    · rw [if_neg hn, g1] at h
      simp only [Enc.write_sized c e he, ok_bind] at h
      have h4 : SizedValue.newPointer 4 = some (ptrSlot 4) := (ptrSlot_spec (by decide)).1
      have he4 := slotBytes_even true (ptrSlot (e.out.length - offset))
      rw [h4] at h
      simp only [Enc.write_sized c { e with out := e.out ++ slotBytes true (ptrSlot (e.out.length - offset)) }
        (by simp only [List.length_append]; omega), ok_bind] at h
      cases h
      refine ⟨rfl, ?_⟩
      have h4b : slotBytes false (ptrSlot 4) = ptrBytes false 4 := by decide
      simp only [hb, rootBytes, if_neg hn, Bool.true_or, List.append_assoc, h4b]

/-- **C40, slots.** When the pointers of a collection are made relative (position `len` below 4 GiB), what is written is
the exact distance; otherwise the call does not return. -/
theorem C40_slot_partial (dbg : Bool) (p s : SizedValue) (len : Nat) (hl : len < 2 ^ 32) (hp : p.pointerOffset ≤ len)
    (h : Enc.fixPointer dbg p len = .ok s) :
    s.type = .pointer ∧ s.pointerOffset = len - p.pointerOffset ∧ s.pointerOffset ≤ SizedValue.maxWide := by
  unfold Enc.fixPointer at h
  rw [Enc.actualPointerOffset_eq dbg hp hl] at h
  simp only [ok_bind] at h
  cases hn : SizedValue.newPointer (len - p.pointerOffset) with
  | none => rw [hn] at h; cases h
  | some q =>
    rw [hn] at h; cases h
    obtain ⟨h1, h2, h3⟩ := SizedValue.newPointer_some hn
    exact ⟨h2, h3, by omega⟩

/-- **C40, small enough.** Below 1 GiB no call is ever refused for its size. -/
theorem C40_no_refusal (c : Cfg) (F : FloatOps) (sk : Option SharedKeys) (hsk : ∀ s, sk = some s → s.WF) (ops : List Op)
    (hsize : Op.total ops ≤ SizedValue.maxWide) (e : Enc) (rs : List (Except EncodeError Unit))
    (h : ({ Enc.new with sk } : Enc).run c ops = .ok (e, rs)) : ∀ r ∈ rs, r ≠ .error .pointerTooLarge := by
  have hspec : ∀ (b : Build) (op : Op), (b.next F op).2 ≠ .error .pointerTooLarge := by
    intro b op hr
    unfold Build.next at hr
    cases op <;> simp only [Build.step, Build.open, Build.put] at hr
    all_goals
      repeat' (first | (cases hr; done) | split at hr)
    all_goals simp_all
    all_goals
      rename_i heq
      repeat' (first | (cases heq; done) | split at heq)
  have hshape : ∀ e : Enc, ∃ b, Shape e b := by
    intro e
    refine ⟨{ stack := e.stack.map fun coll => match coll with
      | .arr _ => .arr []
      | .dict _ nk => .dict [] (nk.map fun _ => []), root := if e.closed then some .null else none }, ?_, ?_⟩
    · rw [List.map_map]
      apply List.map_congr_left
      intro coll _
      cases coll with
      | arr vs => rfl
      | dict els nk => cases nk <;> rfl
    · cases e.closed <;> rfl
  have hmw : SizedValue.maxWide < 2 ^ 32 := by decide
  have go : ∀ (ops : List Op) {e e' : Enc} {rs : List (Except EncodeError Unit)}, e.WF →
      e.phi + Op.total ops ≤ SizedValue.maxWide → e.run c ops = .ok (e', rs) → ∀ r ∈ rs, r ≠ .error .pointerTooLarge := by
    intro ops
    induction ops with
    | nil => intro e e' rs _ _ h r hr; cases h; cases hr
    | cons op ops ih =>
      intro e e' rs hw hp h r hr
      rw [Op.total_cons] at hp
      obtain ⟨e1, r1, rs', h1, h2, rfl⟩ := Enc.run_cons h
      have ht := Enc.step_trans hw (by omega) (by omega) h1
      obtain ⟨hw1, hp1⟩ := ht.inv hw (by omega) (by omega)
      obtain ⟨b, hb⟩ := hshape e
      rcases List.mem_cons.mp hr with rfl | hr
      · rw [← (ht.shape hw F hb).1]; exact hspec b op
      · exact ih hw1 (by omega) h2 r hr
  exact go ops (newWith_wf hsk) (by have := newWith_phi sk; omega) h

/-! ## The full claim is false -/

/-- The state after `begin_array` and two values of an empty encoder: a short string and some data of `n` bytes. -/
theorem two_values (c : Cfg) (d : List UInt8) (h2 : 2 ≤ d.length) (hd : d.length < 2 ^ 63) :
    ∃ out : List UInt8, out.length % 2 = 0 ∧ d.length + 5 ≤ out.length ∧ out.length ≤ d.length + 16 ∧
      out.take 3 = [0x42, 0x61, 0x62] ∧
      Enc.new.run c [.beginArray 0, .value (.str sab), .value (.data d)] =
        .ok ({ Enc.new with out, stack := [.arr [ptrSlot 0, ptrSlot 4]] }, [.ok (), .ok (), .ok ()]) := by
  let F : FloatOps := ⟨fun _ => 0, fun _ => 0, fun _ => 0, fun _ => 0, fun _ => 0, fun _ => 0⟩
  have hsv : (Scalar.data d).Survives := hd
  have hst : (Scalar.data d).toSized = none := by
    show dataSized 0x50 d = none
    rw [dataSized_none]; exact h2
  have hsz1 : d.length < (Scalar.data d).size := by
    show _ < dataSize d.length
    unfold dataSize; split
    · omega
    · split <;> omega
  have hsz2 : (Scalar.data d).size ≤ d.length + 11 := dataSize_le (by omega)
  obtain ⟨bs, ty, hb1, hb2, hb3⟩ := Scalar.writeTo_ok (F := F) c.dbg hsv (Nat.le_refl _)
  let k : List UInt8 := [0x42, 0x61, 0x62, 0x00]
  let o2 := padEven (k ++ bs)
  have ho2l : o2.length = (4 + bs.length) + (4 + bs.length) % 2 := by
    show (padEven _).length = _
    rw [padEven_length, List.length_append]; rfl
  let e1 : Enc := { Enc.new with stack := [.arr []] }
  let e2 : Enc := { Enc.new with out := k, stack := [.arr [ptrSlot 0]] }
  let e3 : Enc := { Enc.new with out := o2, stack := [.arr [ptrSlot 0, ptrSlot 4]] }
  have s1 : Enc.new.step c (.beginArray 0) = .ok (e1, .ok ()) := rfl
  have s2 : e1.step c (.value (.str sab)) = .ok (e2, .ok ()) := by
    have hn : (Scalar.str sab).toSized = none := rfl
    have hpk : padEven [0x42, 0x61, 0x62] = k := by show padEven [0x42, 0x61, 0x62] = [0x42, 0x61, 0x62, 0x00]; decide
    have hb : Item.writeTo c.dbg (.scalar (.str sab)) (Item.scalar (.str sab)).size false = .ok (some [0x42, 0x61, 0x62]) := by
      simp only [Item.writeTo, Scalar.writeTo, Item.size, Scalar.size]
      decide +kernel
    obtain ⟨hp, _, _⟩ := ptrSlot_spec (off := 0) (by decide)
    simp only [Enc.step, Enc.writeValue, e1, List.isEmpty_cons, Bool.false_eq_true, if_false, hn]
    rw [Enc.write_item c _ (.scalar (.str sab)) hb rfl]
    simp only [ok_bind, Enc.new, List.length_nil, Nat.zero_mod, hp, Enc.push, Enc.done, List.nil_append, hpk]
    rfl
  have s3 : e2.step c (.value (.data d)) = .ok (e3, .ok ()) := by
    obtain ⟨hp, _, _⟩ := ptrSlot_spec (off := 4) (by decide)
    simp only [Enc.step, Enc.writeValue, e2, List.isEmpty_cons, Bool.false_eq_true, if_false, hst]
    rw [Enc.write_item c _ (.scalar (.data d)) (bs := bs) hb1 hb2]
    simp only [ok_bind, show k.length % 2 ^ 32 = 4 from rfl, hp, Enc.push, Enc.done]
    rfl
  refine ⟨o2, padEven_even _, by omega, by omega, ?_, ?_⟩
  · obtain ⟨tl, htl⟩ := padEven_prefix (k ++ bs)
    show (padEven (k ++ bs)).take 3 = _
    rw [← htl]; rfl
  · simp only [Enc.run, s1, s2, s3, ok_bind, pure_eq]; rfl

theorem Enc.run_append {c : Cfg} (ops : List Op) : ∀ {e e' : Enc} {rs : List (Except EncodeError Unit)} (ops' : List Op),
    e.run c ops = .ok (e', rs) → e.run c (ops ++ ops') = (do let (e, rs') ← e'.run c ops'; pure (e, rs ++ rs')) := by
  induction ops with
  | nil =>
    intro e e' rs ops' h
    cases h
    simp only [List.nil_append]
    cases e.run c ops' <;> rfl
  | cons op ops ih =>
    intro e e' rs ops' h
    obtain ⟨e1, r, rs', h1, h2, rfl⟩ := Enc.run_cons h
    simp only [List.cons_append, Enc.run, h1, ok_bind, ih ops' h2]
    cases e'.run c ops' <;> rfl

/-- **C40 is false of the code: panic.** *Every* array of a short string and 1 to 4 GiB of data: `end_array` panics
(`"Pointer unexpectedly large"`). -/
theorem C40_refuted_panic (c : Cfg) (d : List UInt8) (h1 : 2 ^ 30 ≤ d.length) (h2 : d.length ≤ 2 ^ 32 - 100) :
    Enc.new.run c [.beginArray 0, .value (.str sab), .value (.data d), .endArray] = .panic := by
  have hmn : SizedValue.maxNarrow = 0x3fff := rfl
  have hmw : SizedValue.maxWide = 0x3fffffff := rfl
  obtain ⟨out, he, hl1, hl2, _, hrun⟩ := two_values c d (by omega) (by omega)
  have := Enc.run_append _ [.endArray] hrun
  simp only [List.cons_append, List.nil_append] at this
  rw [this]
  obtain ⟨p1, p2, p3⟩ := ptrSlot_spec (off := 0) (by decide)
  obtain ⟨q1, q2, q3⟩ := ptrSlot_spec (off := 4) (by decide)
  have hend : Enc.endArray c { Enc.new with out, stack := [.arr [ptrSlot 0, ptrSlot 4]] } = .panic := by
    unfold Enc.endArray
    simp only
    rw [Enc.arrayWide_eq c.dbg (n := out.length) (by omega) (by
      intro v hv _
      simp only [List.mem_cons, List.not_mem_nil, or_false] at hv
      rcases hv with rfl | rfl
      · rw [p3]; omega
      · rw [q3]; omega)]
    have hfar : [ptrSlot 0, ptrSlot 4].any (Enc.slotFar out.length) = true := by
      simp only [List.any_cons, Enc.slotFar, p2, p3, decide_true, Bool.true_and, Bool.or_eq_true, decide_eq_true_eq]
      left; omega
    rw [hfar]
    simp only [ok_bind]
    have hwr := Enc.write_header c { Enc.new with out, stack := [] } (n := 2) (by omega) false true
    simp only [Bool.false_eq_true, if_false] at hwr
    simp only [List.length_cons, List.length_nil]
    rw [hwr]
    simp only [ok_bind]
    have hlen := padHeader_length he 0x60 (n := 2) (by omega) true
    rw [hlen, show hdrLen 2 = 2 by decide, Nat.mod_eq_of_lt (by omega)]
    have : Enc.fixArray c.dbg true (out.length + 2) [ptrSlot 0, ptrSlot 4] = .panic := by
      unfold Enc.fixArray Enc.fixSlot Enc.fixPointer
      rw [if_pos p2, Enc.actualPointerOffset_eq c.dbg (by rw [p3]; omega) (by omega), p3]
      simp only [ok_bind, Nat.sub_zero]
      have : SizedValue.newPointer (out.length + 2) = none := by unfold SizedValue.newPointer; rw [if_pos (by omega)]
      rw [this]
      rfl
    rw [this]
    rfl
  simp only [Enc.run, Enc.step]
  rw [hend]
  rfl

/-- **C40 is false of the code: truncation.** *Every* array of a short string and a little more than 4 GiB of data: all
calls succeed, and the slot of the string (which is at position 0 of the output) points `q` bytes back, while the slot
itself is at position `q + 2^32`. -/
theorem C40_refuted_truncated (c : Cfg) (d : List UInt8) (h1 : 2 ^ 32 ≤ d.length) (h2 : d.length ≤ 2 ^ 32 + 8000) :
    ∃ e pre q tail, Enc.new.run c [.beginArray 0, .value (.str sab), .value (.data d), .endArray] =
        .ok (e, [.ok (), .ok (), .ok (), .ok ()]) ∧
      e.finish c = .ok (pre ++ [0x60, 0x02] ++ ptrBytes false q ++ tail) ∧ pre.take 3 = [0x42, 0x61, 0x62] ∧
      (pre ++ [0x60, 0x02]).length = q + 2 ^ 32 ∧ q ≤ SizedValue.maxNarrow := by
  have hmn : SizedValue.maxNarrow = 0x3fff := rfl
  have hmw : SizedValue.maxWide = 0x3fffffff := rfl
  obtain ⟨out, he, hl1, hl2, h3, hrun⟩ := two_values c d (by omega) (by omega)
  have happ := Enc.run_append _ [.endArray] hrun
  simp only [List.cons_append, List.nil_append] at happ
  obtain ⟨p1, p2, p3⟩ := ptrSlot_spec (off := 0) (by decide)
  obtain ⟨q1, q2, q3⟩ := ptrSlot_spec (off := 4) (by decide)
  obtain ⟨q, hq⟩ : ∃ q, out.length + 2 = q + 2 ^ 32 := ⟨out.length + 2 - 2 ^ 32, by omega⟩
  obtain ⟨r1, r2, r3⟩ := ptrSlot_spec (off := q) (by omega)
  obtain ⟨t1, t2, t3⟩ := ptrSlot_spec (off := q - 2) (by omega)
  obtain ⟨u1, u2, u3⟩ := ptrSlot_spec (off := 6) (by decide)
  have hslots : (([ptrSlot q, ptrSlot (q - 2)].map (slotBytes false)).flatten) = ptrBytes false q ++ ptrBytes false (q - 2) := by
    simp only [List.map_cons, List.map_nil, List.flatten_cons, List.flatten_nil, List.append_nil]
    rw [slotBytes_ptr (by omega), slotBytes_ptr (by omega), decide_eq_false (by omega), decide_eq_false (by omega)]
    rfl
  let o := out ++ [0x60, 0x02] ++ (ptrBytes false q ++ ptrBytes false (q - 2)) ++ ptrBytes false 6
  have hend : Enc.endArray c { Enc.new with out, stack := [.arr [ptrSlot 0, ptrSlot 4]] } =
      .ok ({ Enc.new with out := o, closed := true }, .ok ()) := by
    unfold Enc.endArray
    simp only
    have hwide : Enc.arrayWide c.dbg out.length [ptrSlot 0, ptrSlot 4] = .ok false := by
      simp only [Enc.arrayWide, p2, q2, if_true, SizedValue.actualPointerOffset, p3, q3, usizeSub, Nat.zero_le,
        Nat.sub_zero, ok_bind, pure_eq]
      rw [if_neg (by omega), if_pos (by omega)]
      simp only [ok_bind]
      rw [if_neg (by omega)]
    rw [hwide]
    simp only [ok_bind]
    have hwr := Enc.write_header c { Enc.new with out, stack := [] } (n := 2) (by omega) false false
    simp only [Bool.false_eq_true, if_false] at hwr
    simp only [List.length_cons, List.length_nil]
    rw [hwr]
    simp only [ok_bind]
    have hh : headerBytes 0x60 2 false = [0x60, 0x02] := by decide
    have hpad : padEven (out ++ headerBytes 0x60 2 false) = out ++ [0x60, 0x02] := by
      rw [hh, padEven_of_even (by simp; omega)]
    have hlen : (out ++ [(0x60 : UInt8), 0x02]).length = out.length + 2 := by simp
    rw [hpad, hlen, show (out.length + 2) % 2 ^ 32 = q by omega]
    have hfix : Enc.fixArray c.dbg false q [ptrSlot 0, ptrSlot 4] = .ok [ptrSlot q, ptrSlot (q - 2)] := by
      unfold Enc.fixArray Enc.fixSlot Enc.fixPointer
      rw [if_pos p2, Enc.actualPointerOffset_eq c.dbg (by rw [p3]; omega) (by omega), p3]
      simp only [ok_bind, Nat.sub_zero, r1, pure_eq]
      rw [Enc.u32Add_eq _ (by unfold Enc.slotWidth; simp only [Bool.false_eq_true, if_false]; omega)]
      simp only [ok_bind]
      unfold Enc.fixArray Enc.fixSlot Enc.fixPointer
      simp only [Enc.slotWidth, Bool.false_eq_true, if_false]
      rw [if_pos q2, Enc.actualPointerOffset_eq c.dbg (by rw [q3]; omega) (by omega), q3]
      rw [show q + 2 - 4 = q - 2 by omega]
      simp only [ok_bind, t1, pure_eq]
      rw [Enc.u32Add_eq _ (by omega)]
      simp only [ok_bind, Enc.fixArray]
    rw [hfix]
    simp only [ok_bind]
    rw [Enc.writeSlots_eq c false _ _ (by simp only [hlen]; omega), hslots]
    simp only [ok_bind]
    have hl : (out ++ [0x60, 0x02] ++ (ptrBytes false q ++ ptrBytes false (q - 2))).length = out.length + 6 := by
      simp [ptrBytes]
    simp only [Enc.finishedCollection]
    rw [hl, Enc.u32Sub_eq _ (by omega), show (out.length + 6) % 2 ^ 32 - out.length % 2 ^ 32 = 6 by omega]
    simp only [ok_bind]
    rw [if_pos (by omega), u1]
    simp only
    rw [Enc.write_sized c _ (by simp only [hl]; omega)]
    simp only [ok_bind, slotBytes_ptr (show 6 ≤ SizedValue.maxWide by decide)]
    rfl
  refine ⟨{ Enc.new with out := o, closed := true }, out, q, ptrBytes false (q - 2) ++ ptrBytes false 6, ?_, ?_, h3, ?_, by omega⟩
  · rw [happ]
    simp only [Enc.run, Enc.step]
    rw [hend]
    rfl
  · show Res.ok o = _
    simp [o]
  · simp only [List.length_append, List.length_cons, List.length_nil]; omega

example : ∃ d : List UInt8, 2 ^ 32 ≤ d.length ∧ d.length ≤ 2 ^ 32 + 8000 :=
  ⟨List.replicate (2 ^ 32) 0, by rw [List.length_replicate]; omega, by rw [List.length_replicate]; omega⟩

example : ∃ d : List UInt8, 2 ^ 30 ≤ d.length ∧ d.length ≤ 2 ^ 32 - 100 :=
  ⟨List.replicate (2 ^ 31) 0, by rw [List.length_replicate]; omega, by rw [List.length_replicate]; omega⟩

/-- States as in the partial theorems: a long string is refused in a document of 1 GiB. -/
example : ∃ e : Enc, SizedValue.maxWide < e.out.length ∧ e.out.length < 2 ^ 32 ∧ e.stack = [.arr []] ∧
    (Scalar.str sab).toSized = none :=
  ⟨{ Enc.new with out := List.replicate (2 ^ 31) 0, stack := [.arr []] },
    by show _ < (List.replicate _ _).length; rw [List.length_replicate]; decide,
    by show (List.replicate _ _).length < _; rw [List.length_replicate]; decide, rfl, rfl⟩

end Fleece.Props
