import Verif.Proofs.Tiny

/-!
# Documents that the decoder must reject

Data of one byte loses its tag in a two-byte slot: what is left is the head of an integer of three bytes. Validation finds
it too long for its slot, in whatever collection it is.
-/

namespace Fleece
open Res

/-! ## What validation rejects -/

/-- At `p` in `out` is a narrow collection with a slot that holds such data, or that points to such a collection. -/
inductive Broken : List UInt8 → Nat → Prop where
  | hole {out : List UInt8} {p n j : Nat} {d : Bool} {c : UInt8}
      (head : At out p (headerBytes (if d then 0x70 else 0x60) n false)) (small : n < 2 ^ 32)
      (lt : j < if d then n * 2 else n) (fits : p + hdrLen n + (if d then n * 2 else n) * 2 ≤ out.length)
      (slot : At out (p + hdrLen n + j * 2) [0x11, c]) : Broken out p
  | link {out pre : List UInt8} {p n j t : Nat} {d : Bool}
      (head : At out p (headerBytes (if d then 0x70 else 0x60) n false)) (small : n < 2 ^ 32)
      (lt : j < if d then n * 2 else n) (fits : p + hdrLen n + (if d then n * 2 else n) * 2 ≤ out.length)
      (slot : At out (p + hdrLen n + j * 2) (ptrBytes false (p + hdrLen n + j * 2 - t)))
      (even : (p + hdrLen n + j * 2 - t) % 2 = 0) (near : p + hdrLen n + j * 2 - t ≤ SizedValue.maxNarrow)
      (old : pre <+: out) (before : pre.length ≤ p + hdrLen n + j * 2) (tgt : Broken pre t) : Broken out p

theorem Broken.mono {out out' : List UInt8} {p : Nat} (h : Broken out p) (hd : out <+: out') : Broken out' p := by
  have hl := hd.length_le
  cases h with
  | hole head small lt fits slot => exact .hole (head.mono hd) small lt (by omega) (slot.mono hd)
  | link head small lt fits slot even near old before tgt =>
    exact .link (head.mono hd) small lt (by omega) (slot.mono hd) even near (old.trans hd) before tgt

theorem Broken.le {out : List UInt8} {p : Nat} (h : Broken out p) : p + 2 ≤ out.length := by
  cases h with
  | @hole _ _ n _ d _ head small lt fits => have := hdrLen_ge n; omega
  | @link _ _ _ n _ _ d head small lt fits => have := hdrLen_ge n; omega

theorem arrayValidate_slots {m : Mem} {rec : Bool → Val → Nat → R Unit} {v : Val} {de n fp : Nat} {w : Bool}
    (hw : v.isWide m = .ok w) (hn : v.arrayLen m = .ok n) (hfp : v.firstPos m = .ok fp)
    (h1 : n * wof w < 2 ^ 64) (h2 : m.base + (v.pos + fp) + n * wof w < 2 ^ 64)
    (h : arrayValidate m rec v de = .ok ()) : validateElems m (rec w) (wof w) n (v.pos + fp) = .ok () := by
  unfold arrayValidate at h
  simp only [hw, hn, hfp, ok_bind] at h
  change (do
    let bytes ← usizeMul m.dbg n (wof w)
    let e ← usizeAdd m.dbg (m.base + (v.pos + fp)) bytes
    if e > m.base + de then do
      let avail ← usizeSub m.dbg (m.base + de) (m.base + (v.pos + fp))
      Res.err (DecodeError.arrayOutOfBounds n (wof w) avail)
    else validateElems m (rec w) (wof w) n (v.pos + fp)) = _ at h
  unfold usizeMul usizeAdd at h
  rw [if_pos h1] at h
  simp only [ok_bind] at h
  rw [if_pos h2] at h
  simp only [ok_bind] at h
  split at h
  · obtain ⟨_, _, h⟩ := bind_eq_ok.mp h; cases h
  · exact h

/-- Every slot of a narrow collection that validation accepts has been accepted. -/
theorem validate_slot {m : Mem} (hbase : m.base + m.data.length < 2 ^ 64) {d : Bool} {p n : Nat}
    (head : At m.data p (headerBytes (if d then 0x70 else 0x60) n false)) (small : n < 2 ^ 32)
    (fits : p + hdrLen n + (if d then n * 2 else n) * 2 ≤ m.data.length) {v : Val} (hp : v.pos = p) (hin : v.In m)
    (hl : hdrLen n ≤ v.len) {f : Nat} {a w : Bool} {de : Nat} (hok : validateGo m f a w v de = .ok ()) {j : Nat}
    (hj : j < if d then n * 2 else n) :
    v.type m = .ok (if d then .dict else .array) ∧
    ∃ f', fromRaw m (p + hdrLen n + j * 2) 2 = .ok ⟨p + hdrLen n + j * 2, 2⟩ ∧
      validateGo m f' true false ⟨p + hdrLen n + j * 2, 2⟩ (p + hdrLen n + j * 2 + 2) = .ok () := by
  subst hp
  have hhl := headerBytes_length (if d then 0x70 else 0x60) (n := n) (by omega) false
  have hhd : headerSize n ≤ hdrLen n := by unfold hdrLen; omega
  have hh : Holds m v (headerBytes (if d then 0x70 else 0x60) n false) := head.holds rfl hin (by omega)
  obtain ⟨h1, h2, h3, h4⟩ := header_read d (n := n) (by omega) hh
  refine ⟨h1, ?_⟩
  cases f with
  | zero => cases hok
  | succ f =>
    have hbig : (if d then n * 2 else n) * 2 < 2 ^ 35 := by cases d <;> simp <;> omega
    have harr : arrayValidate m (fun w => validateGo m f true w) v de = .ok () := by
      unfold validateGo at hok
      rw [h1] at hok
      cases d <;> simpa only [Bool.false_eq_true, if_false, if_true, ok_bind] using hok
    have := arrayValidate_slots h2 h3 h4 (by simp only [wof, Bool.false_eq_true, if_false]; omega)
      (by simp only [wof, Bool.false_eq_true, if_false]; omega) harr
    obtain ⟨e, g1, g2⟩ := validateElems_ok this j hj
    simp only [wof, Bool.false_eq_true, if_false] at g1 g2
    obtain ⟨rfl, _⟩ := fromRaw_ok g1
    exact ⟨f, g1, g2⟩

theorem Broken.head_type {out : List UInt8} {p : Nat} (h : Broken out p) {m : Mem} (hd : out <+: m.data) {v : Val}
    (hp : v.pos = p) (hin : v.In m) (hl : out.length ≤ v.pos + v.len) : ∃ ty, v.type m = .ok ty ∧ ty ≠ .pointer := by
  have key : ∀ {n : Nat} {d : Bool}, At out p (headerBytes (if d then 0x70 else 0x60) n false) → n < 2 ^ 32 →
      ∃ ty, v.type m = .ok ty ∧ ty ≠ .pointer := by
    intro n d head small
    have hhl := headerBytes_length (if d then 0x70 else 0x60) (n := n) (by omega) false
    have hle := head.le
    have hh := (head.mono hd).holds hp hin (by omega)
    obtain ⟨h1, _⟩ := header_read d (n := n) (by omega) hh
    exact ⟨_, h1, by cases d <;> simp⟩
  cases h with
  | hole head small => exact key head small
  | link head small => exact key head small

/-- **Validation rejects it.** -/
theorem Broken.rejected {out : List UInt8} {p : Nat} (h : Broken out p) : ∀ {m : Mem}, m.base + m.data.length < 2 ^ 64 →
    out <+: m.data → ∀ {v : Val}, v.pos = p → v.In m → out.length ≤ v.pos + v.len → ∀ (f : Nat) (a w : Bool) (de : Nat),
    validateGo m f a w v de ≠ .ok () := by
  induction h with
  | @hole out p n j d c head small lt fits slot =>
    intro m hbase hd v hp hin hl f a w de hok
    have hle := hd.length_le
    obtain ⟨_, f', h1, _⟩ := validate_slot hbase (head.mono hd) small (by omega) hp hin (by omega) hok lt
    obtain ⟨_, hin', _, r, hr, hrl⟩ := fromRaw_ok h1
    have hh : Holds m ⟨p + hdrLen n + j * 2, 2⟩ [0x11, c] := (slot.mono hd).holds rfl hin' (by simp)
    have hty : ValueType.fromByte 0x11 = .int := by decide
    have hb : Val.byte m ⟨p + hdrLen n + j * 2, 2⟩ 0 = .ok 0x11 := hh.byte rfl
    unfold Val.requiredSize at hr
    rw [hh.type, hty] at hr
    simp only [ok_bind, hb] at hr
    cases hr
    revert hrl; decide
  | @link out pre p n j t d head small lt fits slot even near old before tgt ih =>
    intro m hbase hd v hp hin hl f a w de hok
    have hle := hd.length_le
    have htl := tgt.le
    obtain ⟨_, f', h1, h2⟩ := validate_slot hbase (head.mono hd) small (by omega) hp hin (by omega) hok lt
    obtain ⟨_, hin', _⟩ := fromRaw_ok h1
    have hinT : Val.In m ⟨t, p + hdrLen n + j * 2 - t⟩ := by
      unfold Val.In at hin' ⊢; simp only at hin' ⊢; omega
    obtain ⟨ty, k1, k2⟩ := tgt.head_type (old.trans hd) (v := ⟨t, p + hdrLen n + j * 2 - t⟩) rfl hinT (by simp only; omega)
    have hh : Holds m ⟨p + hdrLen n + j * 2, 2⟩ (ptrBytes false (p + hdrLen n + j * 2 - t)) :=
      (slot.mono hd).holds rfl hin' (by simp [ptrBytes])
    have hq : p + hdrLen n + j * 2 - (p + hdrLen n + j * 2 - t) = t := by omega
    obtain ⟨h3, h4⟩ := ptr_deref hh (Nat.le_trans near (by decide)) even (by omega) (by simp only; omega) (by simp only [hq]; exact k1) k2
    simp only [hq] at h4
    cases f' with
    | zero => cases h2
    | succ f' =>
      unfold validateGo at h2
      rw [h3] at h2
      simp only [ok_bind, h4] at h2
      exact ih hbase (old.trans hd) rfl hinT (by simp only; omega) _ _ _ _ h2

/-- So the decoder rejects a document with that root. -/
theorem Broken.document {m : Mem} (hbase : m.base + m.data.length < 2 ^ 64) {pre : List UInt8} {p : Nat} (h : Broken pre p)
    (hd : m.data = pre ++ rootBytes (pre.length - p)) (hpre : pre.length % 2 = 0) (hp : p % 2 = 0)
    (hmax : pre.length - p ≤ SizedValue.maxWide) : ∀ v, fromBytes m ≠ .ok v := by
  intro v hv
  have hle := h.le
  have hlen : pre.length ≤ m.data.length := by rw [hd]; simp
  have hpf : pre <+: m.data := ⟨_, hd.symm⟩
  have hin : Val.In m ⟨p, pre.length - p⟩ := by unfold Val.In; simp only; omega
  obtain ⟨ty, h1, h2⟩ := h.head_type hpf (v := ⟨p, pre.length - p⟩) rfl hin (by simp only; omega)
  unfold fromBytes fromBytesGo at hv
  rw [find_root hd hpre (by omega) (by omega) (by omega) hmax h1 h2] at hv
  simp only [ok_bind] at hv
  obtain ⟨_, h3, _⟩ := bind_eq_ok.mp hv
  exact h.rejected hbase hpf rfl hin (by simp only; omega) _ _ _ _ h3

/-! ## The encoder writes such documents -/

/-- The slots of an open collection. -/
def Collection.slots : Collection → List SizedValue
  | .arr vs => vs
  | .dict els _ => els.map DictElem.val

/-- The slot holds data of one byte, or points to a broken collection. -/
def SlotBad (out : List UInt8) (s : SizedValue) : Prop :=
  (s.type ≠ .pointer ∧ s.b0 &&& 0xBF = 0x11) ∨ (s.type = .pointer ∧ s.pointerOffset % 2 = 0 ∧ Broken out s.pointerOffset)

theorem SlotBad.mono {out out' : List UInt8} {s : SizedValue} (h : SlotBad out s) (hd : out <+: out') : SlotBad out' s := by
  rcases h with h | ⟨h1, h2, h3⟩
  · exact .inl h
  · exact .inr ⟨h1, h2, h3.mono hd⟩

/-- Some open collection has such a slot, or the finished document has a broken root. -/
def Enc.Bad (e : Enc) : Prop :=
  (∃ coll ∈ e.stack, ∃ s ∈ coll.slots, SlotBad e.out s) ∨
    (e.closed = true ∧ ∃ pre p, e.out = pre ++ rootBytes (pre.length - p) ∧ Broken pre p ∧ pre.length % 2 = 0 ∧ p % 2 = 0 ∧
      pre.length - p ≤ SizedValue.maxWide)

theorem narrow_slot_length {s : SizedValue} {q : Nat} (hq : q ≤ SizedValue.maxNarrow) :
    (slotBytes false (Enc.relSlot s q)).length = 2 := by
  have hmn : SizedValue.maxNarrow ≤ SizedValue.maxWide := by decide
  by_cases ht : s.type = .pointer
  · rw [relSlot_ptr ht (by omega), slotBytes_ptr_fits (show _ ≤ SizedValue.maxNarrow by omega)]; rfl
  · unfold Enc.relSlot slotBytes
    rw [if_neg ht, if_neg ht]; rfl

theorem narrow_key_length {dk : DictKey} {q : Nat} (hb : dk.Bounded q) (hq : q ≤ SizedValue.maxNarrow) :
    (slotBytes false (Enc.keySlotVal (Enc.relKey dk q))).length = 2 := by
  cases dk with
  | inline s =>
    show (slotBytes false s).length = 2
    unfold slotBytes
    rw [if_neg hb]; rfl
  | shared c =>
    have hc : c ≤ 2047 := hb
    show (slotBytes false (SizedValue.newNarrow (UInt8.ofNat (c / 256)) (UInt8.ofNat c))).length = 2
    unfold slotBytes
    rw [if_neg (by
      show ValueType.fromByte (UInt8.ofNat (c / 256)) ≠ .pointer
      exact small_notPointer _ (by rw [ofNat_toNat]; omega))]; rfl
  | pointer k off =>
    show (slotBytes false (ptrSlot (q - off))).length = 2
    rw [slotBytes_ptr_fits (show _ ≤ SizedValue.maxNarrow by omega)]; rfl

/-- A bad slot makes the collection broken. -/
theorem slot_broken {out data : List UInt8} {s : SizedValue} {n j : Nat} {d : Bool} (hpre : out <+: data)
    (head : At data out.length (headerBytes (if d then 0x70 else 0x60) n false)) (small : n < 2 ^ 32)
    (lt : j < if d then n * 2 else n) (fits : out.length + hdrLen n + (if d then n * 2 else n) * 2 ≤ data.length)
    (he : out.length % 2 = 0) (hmax : data.length ≤ SizedValue.maxNarrow) (hs : SlotBad out s)
    (slot : At data (out.length + hdrLen n + j * 2) (slotBytes false (Enc.relSlot s (out.length + hdrLen n + j * 2)))) :
    Broken data out.length := by
  have hmn : SizedValue.maxNarrow ≤ SizedValue.maxWide := by decide
  have hle := slot.le
  have hhe : hdrLen n % 2 = 0 := by unfold hdrLen; omega
  rcases hs with ⟨h1, h2⟩ | ⟨h1, h2, h3⟩
  · have : slotBytes false (Enc.relSlot s (out.length + hdrLen n + j * 2)) = [0x11, s.b1] := by
      unfold Enc.relSlot slotBytes
      rw [if_neg h1, if_neg h1, h2]; rfl
    rw [this] at slot
    exact .hole head small lt fits slot
  · rw [relSlot_ptr h1 (by omega), slotBytes_ptr_fits (show _ ≤ SizedValue.maxNarrow by omega)] at slot
    have := h3.le
    exact .link head small lt fits slot (by omega) (by omega) hpre (by omega) h3

theorem flatten_const {l : List (List UInt8)} {n : Nat} (h : ∀ x ∈ l, x.length = n) : l.flatten.length = l.length * n := by
  induction l with
  | nil => simp
  | cons a l ih =>
    rw [List.flatten_cons, List.length_append, h a (by simp), ih fun x hx => h x (List.mem_cons_of_mem _ hx),
      List.length_cons, Nat.add_mul]; omega

/-- Where an array is in the output, if it is narrow. -/
theorem arr_layout {out : List UInt8} (vs : List SizedValue) (he : out.length % 2 = 0)
    (hsz : out.length + 12 + 4 * vs.length ≤ SizedValue.maxNarrow) :
    At (Enc.arrOut out vs) out.length (headerBytes 0x60 vs.length false) ∧
      (Enc.arrOut out vs).length = out.length + hdrLen vs.length + vs.length * 2 ∧
      ∀ (j : Nat) (s : SizedValue), vs[j]? = some s → At (Enc.arrOut out vs) (out.length + hdrLen vs.length + j * 2)
        (slotBytes false (Enc.relSlot s (out.length + hdrLen vs.length + j * 2))) := by
  have hmw : SizedValue.maxNarrow < 2 ^ 32 := by decide
  have hw : vs.any (Enc.slotFar out.length) = false := by
    rw [List.any_eq_false]; intro v _; rw [slotFar_small (by omega) v]; simp
  unfold Enc.arrOut
  rw [hw]
  dsimp only
  have hol := padHeader_length he 0x60 (n := vs.length) (by omega) false
  have hat := padHeader_at out 0x60 vs.length false
    ((Enc.relArray false (padEven (out ++ headerBytes 0x60 vs.length false)).length vs).map (slotBytes false)).flatten
  generalize padEven (out ++ headerBytes 0x60 vs.length false) = o at *
  have hh : hdrLen vs.length ≤ 12 := hdrLen_le (by omega)
  have hall : ∀ x ∈ (Enc.relArray false o.length vs).map (slotBytes false), x.length = 2 := by
    intro x hx
    obtain ⟨i, hi⟩ := List.mem_iff_getElem?.mp hx
    rw [List.getElem?_map, relArray_get] at hi
    simp only [Option.map_map, Option.map_eq_some_iff] at hi
    obtain ⟨v, hv, rfl⟩ := hi
    have hi : i < vs.length := (List.getElem?_eq_some_iff.mp hv).1
    exact narrow_slot_length (by simp only [wof, Bool.false_eq_true, if_false]; omega)
  have hlen : ((Enc.relArray false o.length vs).map (slotBytes false)).flatten.length = vs.length * 2 := by
    rw [flatten_const hall, List.length_map, Enc.relArray_length]
  refine ⟨hat, by rw [List.length_append, hlen, hol], fun j s hj => ?_⟩
  rw [← hol]
  refine At_flatten hall ?_
  rw [List.getElem?_map, relArray_get, hj]
  rfl

theorem arr_broken {out : List UInt8} {vs : List SizedValue} {s : SizedValue} (he : out.length % 2 = 0)
    (hsz : out.length + 12 + 4 * vs.length ≤ SizedValue.maxNarrow) (hm : s ∈ vs) (hs : SlotBad out s) :
    Broken (Enc.arrOut out vs) out.length := by
  have hmw : SizedValue.maxNarrow < 2 ^ 32 := by decide
  have hh : hdrLen vs.length ≤ 12 := hdrLen_le (by omega)
  obtain ⟨h1, h2, h3⟩ := arr_layout vs he hsz
  obtain ⟨j, hj⟩ := List.mem_iff_getElem?.mp hm
  have hjl : j < vs.length := (List.getElem?_eq_some_iff.mp hj).1
  exact slot_broken (s := s) (n := vs.length) (j := j) (d := false) (arrOut_prefix out vs) h1 (by omega) hjl
    (by rw [h2]; exact Nat.le_refl _) he (by omega) hs (h3 j s hj)

/-- Where a dict is in the output, if it is narrow. -/
theorem dict_layout {out : List UInt8} (els : List DictElem) (he : out.length % 2 = 0)
    (hsz : out.length + 12 + 8 * els.length ≤ SizedValue.maxNarrow) (hb : ∀ el ∈ els, el.key.Bounded out.length) :
    At (Enc.dictOut out false els) out.length (headerBytes 0x70 els.length false) ∧
      (Enc.dictOut out false els).length = out.length + hdrLen els.length + els.length * 2 * 2 ∧
      ∀ (j : Nat) (el : DictElem), els[j]? = some el →
        At (Enc.dictOut out false els) (out.length + hdrLen els.length + 2 * j * 2)
          (slotBytes false (Enc.keySlotVal (Enc.relKey el.key (out.length + hdrLen els.length + 2 * j * 2)))) ∧
        At (Enc.dictOut out false els) (out.length + hdrLen els.length + (2 * j + 1) * 2)
          (slotBytes false (Enc.relSlot el.val (out.length + hdrLen els.length + (2 * j + 1) * 2))) := by
  have hmw : SizedValue.maxNarrow < 2 ^ 32 := by decide
  unfold Enc.dictOut
  dsimp only
  have hol := padHeader_length he 0x70 (n := els.length) (by omega) false
  have hat := padHeader_at out 0x70 els.length false
    (Enc.pairsBytes false (Enc.relDict false (padEven (out ++ headerBytes 0x70 els.length false)).length els))
  generalize padEven (out ++ headerBytes 0x70 els.length false) = o at *
  have hh : hdrLen els.length ≤ 12 := hdrLen_le (by omega)
  unfold Enc.pairsBytes at *
  have each : ∀ (i : Nat) (x : DictElem), els[i]? = some x →
      (slotBytes false (Enc.keySlotVal (Enc.relKey x.key (o.length + 2 * i * 2)))).length = 2 ∧
      (slotBytes false (Enc.relSlot x.val (o.length + (2 * i + 1) * 2))).length = 2 := by
    intro i x hx
    have hi : i < els.length := (List.getElem?_eq_some_iff.mp hx).1
    exact ⟨narrow_key_length ((hb x (List.mem_of_getElem? hx)).mono (by omega)) (by omega), narrow_slot_length (by omega)⟩
  have hall : ∀ x ∈ (Enc.relDict false o.length els).map
      (fun el => slotBytes false (Enc.keySlotVal el.key) ++ slotBytes false el.val), x.length = 4 := by
    intro x hx
    obtain ⟨i, hi⟩ := List.mem_iff_getElem?.mp hx
    rw [List.getElem?_map, relDict_get] at hi
    simp only [Option.map_map, Option.map_eq_some_iff] at hi
    obtain ⟨v, hv, rfl⟩ := hi
    obtain ⟨h1, h2⟩ := each i v hv
    simp only [Function.comp, List.length_append, wof, Bool.false_eq_true, if_false]
    rw [h1, h2]
  have hlen : ((Enc.relDict false o.length els).map
      (fun el => slotBytes false (Enc.keySlotVal el.key) ++ slotBytes false el.val)).flatten.length = els.length * 4 := by
    rw [flatten_const hall, List.length_map, relDict_length]
  refine ⟨hat, by rw [List.length_append, hlen, hol]; omega, fun j el hj => ?_⟩
  rw [← hol]
  have hp := At_flatten (pre := o) hall (i := j)
    (x := slotBytes false (Enc.keySlotVal (Enc.relKey el.key (o.length + 2 * j * 2))) ++
      slotBytes false (Enc.relSlot el.val (o.length + (2 * j + 1) * 2)))
    (by rw [List.getElem?_map, relDict_get, hj]; rfl)
  have hk : slotBytes false (Enc.keySlotVal (Enc.relKey el.key (o.length + 2 * j * 2))) ++
      slotBytes false (Enc.relSlot el.val (o.length + (2 * j + 1) * 2)) =
      [] ++ slotBytes false (Enc.keySlotVal (Enc.relKey el.key (o.length + 2 * j * 2))) ++
      slotBytes false (Enc.relSlot el.val (o.length + (2 * j + 1) * 2)) := rfl
  constructor
  · rw [hk] at hp
    have := hp.sub
    rwa [List.length_nil, show o.length + j * 4 + 0 = o.length + 2 * j * 2 by omega] at this
  · rw [← List.append_nil (slotBytes _ _ ++ _)] at hp
    have := hp.sub
    rw [(each j el hj).1] at this
    rwa [show o.length + j * 4 + 2 = o.length + (2 * j + 1) * 2 by omega] at this

theorem dict_broken {out : List UInt8} {els : List DictElem} {el : DictElem} (he : out.length % 2 = 0)
    (hsz : out.length + 12 + 8 * els.length ≤ SizedValue.maxNarrow) (hb : ∀ el ∈ els, el.key.Bounded out.length)
    (hm : el ∈ els) (hs : SlotBad out el.val) : Broken (Enc.dictOut out false els) out.length := by
  have hmw : SizedValue.maxNarrow < 2 ^ 32 := by decide
  have hh : hdrLen els.length ≤ 12 := hdrLen_le (by omega)
  obtain ⟨h1, h2, h3⟩ := dict_layout els he hsz hb
  obtain ⟨j, hj⟩ := List.mem_iff_getElem?.mp hm
  have hjl : j < els.length := (List.getElem?_eq_some_iff.mp hj).1
  exact slot_broken (s := el.val) (n := els.length) (j := 2 * j + 1) (d := true) (dictOut_prefix out false els) h1 (by omega)
    (by simp only [if_true]; omega) (by rw [h2]; exact Nat.le_refl _) he (by omega) hs (h3 j el hj).2

/-! ## One call -/

theorem Collection.put_slots {coll : Collection} {s : SizedValue} (hc : ∀ els, coll ≠ .dict els none) :
    (coll.put s).slots = coll.slots ++ [s] := by
  cases coll with
  | arr vs => rfl
  | dict els nk =>
    cases nk with
    | none => exact absurd rfl (hc els)
    | some k => simp [Collection.put, Collection.slots]

/-- Closing a collection. -/
theorem Enc.Bad.closeEnc {e : Enc} {off : Nat} (hwait : ∀ els rest, e.stack ≠ .dict els none :: rest)
    (he : e.out.length % 2 = 0) (hoe : off % 2 = 0) (hmax : e.out.length ≤ SizedValue.maxWide)
    (hoff : off ≤ SizedValue.maxWide)
    (h : Broken e.out off ∨ ∃ coll ∈ e.stack, ∃ s ∈ coll.slots, SlotBad e.out s) : (e.closeEnc off).Bad := by
  unfold Enc.closeEnc
  cases hs : e.stack with
  | nil =>
    rw [hs] at h
    rcases h with h | ⟨_, h, _⟩
    · exact .inr ⟨rfl, e.out, off, rfl, h, he, hoe, by omega⟩
    · cases h
  | cons coll rest =>
    rw [hs] at h
    have hps := Collection.put_slots (coll := coll) (s := ptrSlot off) (fun els h => hwait els rest (by rw [hs, h]))
    obtain ⟨_, p2, p3⟩ := ptrSlot_spec hoff
    left
    rcases h with h | ⟨x, hx, s, h1, h2⟩
    · exact ⟨_, List.mem_cons_self, ptrSlot off, by rw [hps]; simp, .inr ⟨p2, by rw [p3]; exact hoe, by rw [p3]; exact h⟩⟩
    · rcases List.mem_cons.mp hx with rfl | hx
      · exact ⟨_, List.mem_cons_self, s, by rw [hps]; simp [h1], h2⟩
      · exact ⟨x, List.mem_cons_of_mem _ hx, s, h1, h2⟩

theorem Enc.Bad.closeTop {c : Cfg} {e : Enc} (hw : e.WF) (hn : e.Nested) (hphi : e.phi ≤ SizedValue.maxNarrow) (h : e.Bad) :
    (e.closeTop c).Bad := by
  have hmn : SizedValue.maxNarrow ≤ SizedValue.maxWide := by decide
  have hmw : SizedValue.maxNarrow < 2 ^ 32 := by decide
  unfold Enc.closeTop
  cases hs : e.stack with
  | nil => exact h
  | cons coll rest =>
    have hph := Enc.phi_cons hs
    have h : ∃ coll' ∈ coll :: rest, ∃ s ∈ coll'.slots, SlotBad e.out s := by
      rcases h with h | ⟨hcl, _⟩
      · rw [hs] at h; exact h
      · rw [hw.notClosed hs] at hcl; cases hcl
    obtain ⟨x, hx, s, hsm, hsb⟩ := h
    cases coll with
    | arr vs =>
      simp only [Collection.cost] at hph
      have hlen := arrOut_length hw.even vs (by omega)
      refine Enc.Bad.closeEnc (hn.below hs) hlen.1 hw.even (by simp only; omega) (by omega) ?_
      rcases List.mem_cons.mp hx with rfl | hx
      · exact .inl (arr_broken hw.even (by omega) hsm hsb)
      · exact .inr ⟨x, hx, s, hsm, hsb.mono (arrOut_prefix _ _)⟩
    | dict els nk =>
      simp only [Collection.cost] at hph
      have hlen := dictOut_length hw.even false (c.sort.run els) (by rw [(c.sort.perm els).length_eq]; omega)
      rw [(c.sort.perm els).length_eq] at hlen
      dsimp only
      rw [pairsFar_small hw hphi hs]
      refine Enc.Bad.closeEnc (hn.below hs) hlen.1 hw.even (by simp only; omega) (by omega) ?_
      rcases List.mem_cons.mp hx with rfl | hx
      · obtain ⟨el, hel, rfl⟩ := List.mem_map.mp hsm
        have hbd := hw.bounded (.dict els nk) (by rw [hs]; simp)
        exact .inl (dict_broken hw.even (by rw [(c.sort.perm els).length_eq]; omega)
          (fun el hel => (hbd.1 el ((c.sort.perm els).mem_iff.mp hel)).1) ((c.sort.perm els).mem_iff.mpr hel) hsb)
      · exact .inr ⟨x, hx, s, hsm, hsb.mono (dictOut_prefix _ _ _)⟩

theorem Enc.Bad.closeN {c : Cfg} (n : Nat) : ∀ {e : Enc}, e.WF → e.Nested → e.phi ≤ SizedValue.maxNarrow → e.Bad →
    (e.closeN c n).Bad := by
  have hmn : SizedValue.maxNarrow ≤ SizedValue.maxWide := by decide
  induction n with
  | zero => intro e _ _ _ h; exact h
  | succ n ih =>
    intro e hw hn hp h
    obtain ⟨h1, h2, _⟩ := Enc.closeTop_inv (c := c) hw (by omega)
    refine ih h1 ?_ (by omega) (Enc.Bad.closeTop hw hn hp h)
    unfold Enc.closeTop
    cases hs : e.stack with
    | nil => exact hn
    | cons coll rest => cases coll <;> exact Enc.Nested.closeEnc (hn.rest hs rfl) _

/-- A call that succeeds does not repair anything. -/
theorem Trans.bad {c : Cfg} {e e' : Enc} {op : Op} {r : Except EncodeError Unit} (ht : Trans c e op e' r) (hr : r = .ok ())
    (hw : e.WF) (hn : e.Nested) (hphi : e.phi ≤ SizedValue.maxNarrow) (h : e.Bad) : e'.Bad := by
  have hst : ∀ {coll : Collection} {rest : List Collection}, e.stack = coll :: rest →
      ∃ x ∈ coll :: rest, ∃ s ∈ x.slots, SlotBad e.out s := by
    intro coll rest hs
    rcases h with h | ⟨hcl, _⟩
    · rw [hs] at h; exact h
    · rw [hw.notClosed hs] at hcl; cases hcl
  cases ht with
  | reject => cases hr
  | discard => cases hr
  | openArr hc _ =>
    rcases h with ⟨x, hx, h⟩ | ⟨hcl, _⟩
    · exact .inl ⟨x, List.mem_cons_of_mem _ hx, h⟩
    · rw [hc] at hcl; cases hcl
  | openDict hc _ =>
    rcases h with ⟨x, hx, h⟩ | ⟨hcl, _⟩
    · exact .inl ⟨x, List.mem_cons_of_mem _ hx, h⟩
    · rw [hc] at hcl; cases hcl
  | @key _ _ tail _ _ _ hs hk =>
    obtain ⟨x, hx, s, h1, h2⟩ := hst hs
    have h2 := h2.mono (List.prefix_append e.out tail)
    rcases List.mem_cons.mp hx with rfl | hx
    · exact .inl ⟨_, List.mem_cons_self, s, h1, h2⟩
    · exact .inl ⟨x, List.mem_cons_of_mem _ hx, s, h1, h2⟩
  | @value _ _ tail _ _ hs hc hv =>
    obtain ⟨x, hx, s, h1, h2⟩ := hst hs
    have h2 := h2.mono (List.prefix_append e.out tail)
    rcases List.mem_cons.mp hx with rfl | hx
    · exact .inl ⟨_, List.mem_cons_self, s, by rw [Collection.put_slots hc]; simp [h1], h2⟩
    · exact .inl ⟨x, List.mem_cons_of_mem _ hx, s, h1, h2⟩
  | endArr hs =>
    have := Enc.Bad.closeTop (c := c) hw hn hphi h
    unfold Enc.closeTop at this
    rw [hs] at this
    exact this
  | endDict hs =>
    have := Enc.Bad.closeTop (c := c) hw hn hphi h
    unfold Enc.closeTop at this
    rw [hs] at this
    exact this

/-- Data of one byte is where it begins. -/
theorem Trans.bad_data {c : Cfg} {e e' : Enc} {b : UInt8} {r : Except EncodeError Unit}
    (ht : Trans c e (.value (.data [b])) e' r) (hr : r = .ok ()) : e'.Bad := by
  cases ht with
  | reject => cases hr
  | value hs hc hv =>
    cases hv with
    | inline h =>
      simp only [Scalar.toSized, dataSized, Option.some.injEq] at h
      subst h
      refine .inl ⟨_, List.mem_cons_self, SizedValue.newNarrow (0x50 ||| 1) b, by rw [Collection.put_slots hc]; simp, .inl ?_⟩
      exact ⟨by show ValueType.fromByte (0x50 ||| 1) ≠ _; decide, by show (0x50 ||| 1 : UInt8) &&& 0xBF = _; decide⟩
    | pointer h => cases h

theorem Enc.Bad.run {c : Cfg} (ops : List Op) : ∀ {e e' : Enc} {rs : List (Except EncodeError Unit)},
    e.WF → e.Nested → e.phi + Op.total ops ≤ SizedValue.maxNarrow → e.run c ops = .ok (e', rs) → (∀ r ∈ rs, r = .ok ()) →
    e'.Nested ∧ ((e.Bad ∨ ∃ b, Op.value (.data [b]) ∈ ops) → e'.Bad) := by
  have hmn : SizedValue.maxNarrow ≤ SizedValue.maxWide := by decide
  have hmw : SizedValue.maxWide < 2 ^ 32 := by decide
  induction ops with
  | nil =>
    intro e e' rs _ hn _ h _
    cases h
    refine ⟨hn, fun h => ?_⟩
    rcases h with h | ⟨b, h⟩
    · exact h
    · cases h
  | cons op ops ih =>
    intro e e' rs hw hn hp h hr
    rw [Op.total_cons] at hp
    obtain ⟨e1, r, rs', h1, h2, rfl⟩ := Enc.run_cons h
    have ht := Enc.step_trans hw (by omega) (by omega) h1
    obtain ⟨hw1, hp1⟩ := ht.inv hw (by omega) (by omega)
    obtain ⟨g1, g2⟩ := ih hw1 (ht.nested hn) (by omega) h2 fun r hr' => hr r (List.mem_cons_of_mem _ hr')
    have hr1 := hr r (by simp)
    refine ⟨g1, fun h => g2 ?_⟩
    rcases h with h | ⟨b, h⟩
    · exact .inl (ht.bad hr1 hw hn (by omega) h)
    · rcases List.mem_cons.mp h with rfl | h
      · exact .inl (ht.bad_data hr1)
      · exact .inr ⟨b, h⟩

/-- The bytes of `finish` are rejected. -/
theorem Enc.Bad.finish {c : Cfg} {e : Enc} (hw : e.WF) (hn : e.Nested) (hphi : e.phi ≤ SizedValue.maxNarrow) (h : e.Bad) :
    ∃ out, e.finish c = .ok out ∧ ∀ m : Mem, m.data = out → m.base + out.length < 2 ^ 64 → ∀ v, fromBytes m ≠ .ok v := by
  have hmn : SizedValue.maxNarrow ≤ SizedValue.maxWide := by decide
  refine ⟨_, Enc.finish_eq hw (by omega), fun m hm hbase => ?_⟩
  obtain ⟨_, _, hl, _⟩ := Enc.closeN_inv (c := c) e.stack.length hw (by omega)
  have hnil : (e.closeN c e.stack.length).stack = [] := List.length_eq_zero_iff.mp (by omega)
  rcases Enc.Bad.closeN (c := c) e.stack.length hw hn hphi h with ⟨x, hx, _⟩ | ⟨_, pre, p, h1, h2, h3, h4, h5⟩
  · rw [hnil] at hx; cases hx
  · exact h2.document (by rw [hm]; exact hbase) (by rw [hm]; exact h1) h3 h4 h5

end Fleece
