import Verif.Proofs.Res
import Verif.Proofs.Varint

/-! # Safety of the reader -/

namespace Fleece
open Res

/-- The slice lies in the buffer. -/
def Val.In (m : Mem) (v : Val) : Prop := v.pos + v.len ≤ m.data.length

section basic
variable {m : Mem} {v : Val}

theorem mkSlice_ok {p l : Nat} {x : Val} (h : mkSlice m p l = .ok x) : x = ⟨p, l⟩ ∧ x.In m := by
  unfold mkSlice at h
  split at h
  · cases h; exact ⟨rfl, by assumption⟩
  · cases h

theorem mkSlice_eq {p l : Nat} (h : p + l ≤ m.data.length) : mkSlice m p l = .ok ⟨p, l⟩ := by
  simp [mkSlice, h]

theorem rawRead_eq {p l : Nat} (h : p + l ≤ m.data.length) :
    rawRead m p l = .ok ((m.data.drop p).take l) := by
  simp [rawRead, h]

theorem rawRead_ok {p l : Nat} {bs : List UInt8} (h : rawRead m p l = .ok bs) :
    p + l ≤ m.data.length ∧ bs = (m.data.drop p).take l := by
  unfold rawRead at h; split at h
  · cases h; exact ⟨by assumption, rfl⟩
  · cases h

theorem rawRead_length {p l : Nat} {bs : List UInt8} (h : rawRead m p l = .ok bs) : bs.length = l := by
  obtain ⟨h1, rfl⟩ := rawRead_ok h
  simp; omega

theorem byte_eq (hv : v.In m) {i : Nat} (hi : i < v.len) :
    ∃ b, m.data[v.pos + i]? = some b ∧ v.byte m i = .ok b := by
  unfold Val.In at hv
  have : v.pos + i < m.data.length := by omega
  refine ⟨m.data[v.pos + i], by simp [this], ?_⟩
  simp [Val.byte, hi, this]

theorem byte_safe (hv : v.In m) (i : Nat) : (v.byte m i).Safe := by
  by_cases hi : i < v.len
  · obtain ⟨b, _, h⟩ := byte_eq hv hi; simp [h]
  · simp [Val.byte, hi]

theorem byte_ok {i : Nat} {b : UInt8} (h : v.byte m i = .ok b) :
    i < v.len ∧ m.data[v.pos + i]? = some b := by
  unfold Val.byte at h
  split at h
  · split at h
    · cases h; exact ⟨by assumption, by assumption⟩
    · cases h
  · cases h

theorem slice_safe (hv : v.In m) (a b : Nat) : (v.slice m a b).Safe := by
  unfold Val.slice; unfold Val.In at hv
  apply Safe.ite
  · intro h; rw [rawRead_eq (by omega)]; trivial
  · intro _; trivial

theorem type_safe (hv : v.In m) : (v.type m).Safe := by
  unfold Val.type; exact Safe.bind (byte_safe hv 0) (by simp)

theorem type_ok_iff {t : ValueType} :
    v.type m = .ok t ↔ ∃ b, v.byte m 0 = .ok b ∧ ValueType.fromByte b = t := by
  simp [Val.type, bind_eq_ok]

theorem type_ok_len {t : ValueType} (h : v.type m = .ok t) : 0 < v.len := by
  obtain ⟨b, hb, _⟩ := type_ok_iff.mp h; exact (byte_ok hb).1

theorem type_eq (hv : v.In m) (hl : 0 < v.len) : ∃ t, v.type m = .ok t := by
  obtain ⟨b, _, hb⟩ := byte_eq hv hl
  exact ⟨_, type_ok_iff.mpr ⟨b, hb, rfl⟩⟩

theorem getShort_safe (hv : v.In m) : (v.getShort m).Safe := by
  unfold Val.getShort
  apply Safe.bind (slice_safe hv 0 2)
  intro a _; split <;> simp

theorem getShort_ok_len {s : Nat} (h : v.getShort m = .ok s) : 2 ≤ v.len := by
  unfold Val.getShort at h
  rw [bind_eq_ok] at h
  obtain ⟨a, ha, _⟩ := h
  unfold Val.slice at ha; split at ha
  · omega
  · cases ha

theorem readLoop_safe {ε : Type} (dbg : Bool) (bs : List UInt8) (i s r : Nat) :
    (Varint.readLoop (ε := ε) dbg bs i s r).Safe := by
  induction bs generalizing i s r with
  | nil => simp [Varint.readLoop]
  | cons b bs ih =>
    simp only [Varint.readLoop]
    split
    · simp
    · split
      · exact ih _ _ _
      · split <;> simp

theorem varint_safe {ε : Type} (dbg : Bool) (bs : List UInt8) : (Varint.read (ε := ε) dbg bs).Safe := by
  cases bs with
  | nil => simp [Varint.read]
  | cons b bs =>
    simp only [Varint.read]; split
    · simp
    · exact readLoop_safe ..

theorem usizeAdd_safe {ε : Type} (dbg : Bool) (a b : Nat) : (usizeAdd (ε := ε) dbg a b).Safe := by
  unfold usizeAdd; split
  · simp
  · split <;> simp

theorem usizeMul_safe {ε : Type} (dbg : Bool) (a b : Nat) : (usizeMul (ε := ε) dbg a b).Safe := by
  unfold usizeMul; split
  · simp
  · split <;> simp

theorem usizeSub_safe {ε : Type} (dbg : Bool) (a b : Nat) : (usizeSub (ε := ε) dbg a b).Safe := by
  unfold usizeSub; split
  · simp
  · split <;> simp

theorem getData_safe (hv : v.In m) : (v.getData m).Safe := by
  unfold Val.getData
  apply Safe.ite
  · intro _; trivial
  · intro _
    apply Safe.bind (byte_safe hv 0)
    intro b _
    apply Safe.ite
    · intro _
      apply Safe.bind (slice_safe hv _ _)
      intro rest _
      apply Safe.bind (varint_safe _ _)
      rintro ⟨n, size⟩ _
      apply Safe.ite
      · intro _; trivial
      · intro _
        apply Safe.bind (usizeAdd_safe _ _ _)
        intro e _; exact slice_safe hv _ _
    · intro _; exact slice_safe hv _ _

theorem requiredSize_safe (hv : v.In m) : (v.requiredSize m).Safe := by
  unfold Val.requiredSize
  apply Safe.bind (type_safe hv)
  intro t _
  cases t <;> try trivial
  · exact Safe.bind (byte_safe hv 0) (by simp)
  · exact Safe.bind (byte_safe hv 0) (by simp)
  · apply Safe.bind (getData_safe hv); intro d _; dsimp only; split
    · trivial
    · split <;> trivial
  · apply Safe.bind (getData_safe hv); intro d _; dsimp only; split
    · trivial
    · split <;> trivial

theorem isWide_safe (hv : v.In m) : (v.isWide m).Safe := by
  unfold Val.isWide; exact Safe.bind (byte_safe hv 0) (by simp)

theorem firstPos_safe (hv : v.In m) : (v.firstPos m).Safe := by
  unfold Val.firstPos
  apply Safe.ite
  · intro _; trivial
  · intro _
    apply Safe.bind (getShort_safe hv)
    intro s _
    apply Safe.ite
    · intro _
      apply Safe.bind (slice_safe hv _ _)
      intro rest _
      apply Safe.bind (varint_safe _ _)
      rintro ⟨n, size⟩ _
      dsimp only; split <;> trivial
    · intro _; trivial

theorem arrayLen_safe (hv : v.In m) : (v.arrayLen m).Safe := by
  unfold Val.arrayLen
  apply Safe.bind (getShort_safe hv)
  intro s _
  apply Safe.ite
  · intro _
    apply Safe.bind (slice_safe hv _ _)
    intro rest _
    apply Safe.bind (varint_safe _ _)
    rintro ⟨n, size⟩ _
    apply Safe.ite
    · intro _; trivial
    · intro _
      apply Safe.bind (type_safe hv)
      intro t _
      apply Safe.ite
      · intro _; exact usizeMul_safe _ _ _
      · intro _; trivial
  · intro _
    apply Safe.bind (type_safe hv)
    intro t _
    apply Safe.ite
    · intro _; exact usizeMul_safe _ _ _
    · intro _; trivial

theorem arrayLen_ok_len {n : Nat} (h : v.arrayLen m = .ok n) : 2 ≤ v.len := by
  unfold Val.arrayLen at h
  rw [bind_eq_ok] at h
  obtain ⟨a, ha, _⟩ := h
  exact getShort_ok_len ha

theorem firstPos_ge {n : Nat} (hl : 2 ≤ v.len) (h : v.firstPos m = .ok n) : 2 ≤ n := by
  unfold Val.firstPos at h
  rw [if_neg (by omega)] at h
  rw [bind_eq_ok] at h
  obtain ⟨s, _, h⟩ := h
  dsimp only at h
  split at h
  · rw [bind_eq_ok] at h
    obtain ⟨r, _, h⟩ := h
    rw [bind_eq_ok] at h
    obtain ⟨⟨a, b⟩, _, h⟩ := h
    dsimp only at h
    split at h <;> cases h <;> omega
  · cases h; omega

theorem getOffset_safe {wide : Bool} (h : v.pos + (if wide then 4 else 2) ≤ m.data.length) :
    (v.getOffset m wide).Safe := by
  unfold Val.getOffset
  cases wide
  · simp only [Bool.false_eq_true, if_false] at h ⊢
    rw [rawRead_eq h]; trivial
  · simp only [if_true] at h ⊢
    rw [rawRead_eq h]; trivial

theorem fromRaw_safe {p w : Nat} (h : p + w ≤ m.data.length) : (fromRaw m p w).Safe := by
  have hin : (⟨p, w⟩ : Val).In m := h
  unfold fromRaw
  rw [mkSlice_eq h]
  simp only [ok_bind]
  apply Safe.ite
  · intro _
    apply Safe.bind (type_safe hin); intro t _
    apply Safe.bind (requiredSize_safe hin); intro r _; trivial
  · intro _
    apply Safe.bind (requiredSize_safe hin); intro r _
    apply Safe.ite
    · intro _
      apply Safe.bind (type_safe hin); intro t _; trivial
    · intro _; trivial

theorem fromRaw_ok {p w : Nat} {e : Val} (h : fromRaw m p w = .ok e) :
    e = ⟨p, w⟩ ∧ e.In m ∧ 2 ≤ w ∧ ∃ r, e.requiredSize m = .ok r ∧ r ≤ w := by
  unfold fromRaw at h
  rw [bind_eq_ok] at h
  obtain ⟨x, hx, h⟩ := h
  obtain ⟨rfl, hin⟩ := mkSlice_ok hx
  split at h
  · rw [bind_eq_ok] at h; obtain ⟨t, _, h⟩ := h
    rw [bind_eq_ok] at h; obtain ⟨r, _, h⟩ := h; cases h
  · rw [bind_eq_ok] at h
    obtain ⟨r, hr, h⟩ := h
    split at h
    · rw [bind_eq_ok] at h; obtain ⟨t, _, h⟩ := h; cases h
    · cases h
      refine ⟨rfl, hin, ?_, r, hr, by omega⟩
      simp at *; omega

end basic

/-! ## Pointers -/

theorem derefCheckedGo_safe (m : Mem) (fuel : Nat) (wide : Bool) (v : Val) (hv : v.In m)
    (hf : v.pos < fuel) : (derefCheckedGo m fuel wide v).Safe := by
  induction fuel generalizing wide v with
  | zero => omega
  | succ f ih =>
    unfold derefCheckedGo
    apply Safe.ite
    · intro _; trivial
    · intro hlen
      apply Safe.bind
      · apply getOffset_safe
        unfold Val.In at hv
        cases wide <;> simp_all <;> omega
      · intro off _
        apply Safe.ite
        · intro _; trivial
        · intro hoff
          apply Safe.bind (byte_safe hv 0)
          intro b _
          apply Safe.ite
          · intro _; trivial
          · intro _
            apply Safe.ite
            · intro _; trivial
            · intro hpos
              unfold Val.In at hv
              rw [mkSlice_eq (by omega)]
              simp only [ok_bind]
              apply Safe.bind (type_safe (by unfold Val.In; simp; omega))
              intro t _
              apply Safe.ite
              · intro _
                apply ih
                · unfold Val.In; simp; omega
                · simp; omega
              · intro _; trivial

theorem derefChecked_safe (m : Mem) (wide : Bool) (v : Val) (hv : v.In m) : (derefChecked m wide v).Safe :=
  derefCheckedGo_safe m _ wide v hv (by omega)

/-- What a successful checked dereference gives: an in-bounds non-pointer before the pointer. -/
theorem derefCheckedGo_ok (m : Mem) (fuel : Nat) (wide : Bool) (v t : Val)
    (h : derefCheckedGo m fuel wide v = .ok t) :
    t.In m ∧ t.pos + t.len ≤ v.pos ∧ 2 ≤ t.len ∧ t.len % 2 = 0 ∧
      (∃ ty, t.type m = .ok ty ∧ ty ≠ .pointer) := by
  induction fuel generalizing wide v with
  | zero => cases h
  | succ f ih =>
    unfold derefCheckedGo at h
    split at h
    · cases h
    · rw [bind_eq_ok] at h
      obtain ⟨off, hoff, h⟩ := h
      split at h
      · cases h
      · rw [bind_eq_ok] at h
        obtain ⟨b, _, h⟩ := h
        split at h
        · cases h
        · split at h
          · cases h
          · rw [bind_eq_ok] at h
            obtain ⟨x, hx, h⟩ := h
            obtain ⟨rfl, hin⟩ := mkSlice_ok hx
            rw [bind_eq_ok] at h
            obtain ⟨ty, hty, h⟩ := h
            have hoff2 : off % 2 = 0 := by
              unfold Val.getOffset at hoff
              split at hoff <;> (rw [bind_eq_ok] at hoff; obtain ⟨_, _, h⟩ := hoff; cases h; omega)
            split at h
            · obtain ⟨h1, h2, h3⟩ := ih _ _ h
              simp at h2
              exact ⟨h1, by omega, h3⟩
            · cases h
              refine ⟨hin, ?_, ?_, ?_, ty, hty, by assumption⟩ <;> simp <;> omega

theorem derefChecked_ok {m : Mem} {wide : Bool} {v t : Val} (h : derefChecked m wide v = .ok t) :
    t.In m ∧ t.pos + t.len ≤ v.pos ∧ 2 ≤ t.len ∧ t.len % 2 = 0 ∧
      (∃ ty, t.type m = .ok ty ∧ ty ≠ .pointer) :=
  derefCheckedGo_ok _ _ _ _ _ h

/-- The unchecked dereference agrees with the checked one where the latter succeeds. -/
theorem derefUncheckedGo_eq (m : Mem) (fuel : Nat) (wide : Bool) (v t : Val)
    (h : derefCheckedGo m fuel wide v = .ok t) : derefUncheckedGo m fuel wide v = .ok t := by
  induction fuel generalizing wide v with
  | zero => cases h
  | succ f ih =>
    unfold derefCheckedGo at h
    split at h
    · cases h
    · rw [bind_eq_ok] at h
      obtain ⟨off, hoff, h⟩ := h
      split at h
      · cases h
      · rename_i h0
        rw [bind_eq_ok] at h
        obtain ⟨b, _, h⟩ := h
        split at h
        · cases h
        · split at h
          · cases h
          · rename_i hp
            rw [bind_eq_ok] at h
            obtain ⟨x, hx, h⟩ := h
            rw [bind_eq_ok] at h
            obtain ⟨ty, hty, h⟩ := h
            unfold derefUncheckedGo
            simp only [hoff, ok_bind, h0, decide_false, Bool.and_false, Bool.false_eq_true, if_false, hp, hx,
              hty]
            split at h
            · rw [if_pos (by assumption)]; exact ih _ _ h
            · rw [if_neg (by assumption)]; exact h

theorem derefUnchecked_eq {m : Mem} {wide : Bool} {v t : Val} (h : derefChecked m wide v = .ok t) :
    derefUnchecked m wide v = .ok t := derefUncheckedGo_eq _ _ _ _ _ h

/-! ## Validation is safe (checked profile) -/

theorem usizeMul_dbg {ε : Type} {a b c : Nat} (h : usizeMul (ε := ε) true a b = .ok c) : c = a * b := by
  unfold usizeMul at h; split at h
  · cases h; rfl
  · simp at h

theorem usizeAdd_dbg {ε : Type} {a b c : Nat} (h : usizeAdd (ε := ε) true a b = .ok c) : c = a + b := by
  unfold usizeAdd at h; split at h
  · cases h; rfl
  · simp at h

/-- Width of an element slot in bytes. -/
def wof (w : Bool) : Nat := if w = true then 4 else 2

/-- What success of `Array::validate` means in the checked profile. -/
theorem arrayValidate_ok {m : Mem} (hdbg : m.dbg = true) {rec : Bool → Val → Nat → R Unit} {v : Val} {de : Nat}
    (h : arrayValidate m rec v de = .ok ()) :
    ∃ w n fp, v.isWide m = .ok w ∧ v.arrayLen m = .ok n ∧ v.firstPos m = .ok fp ∧
      n * wof w < 2 ^ 64 ∧ m.base + (v.pos + fp) + n * wof w < 2 ^ 64 ∧ v.pos + fp + n * wof w ≤ de ∧
      validateElems m (rec w) (wof w) n (v.pos + fp) = .ok () := by
  unfold arrayValidate at h
  rw [bind_eq_ok] at h; obtain ⟨w, hw, h⟩ := h
  dsimp only at h
  change (do
    let elemCount ← v.arrayLen m
    let fp ← v.firstPos m
    let bytes ← usizeMul m.dbg elemCount (wof w)
    let e ← usizeAdd m.dbg (m.base + (v.pos + fp)) bytes
    if e > m.base + de then do
      let avail ← usizeSub m.dbg (m.base + de) (m.base + (v.pos + fp))
      Res.err (DecodeError.arrayOutOfBounds elemCount (wof w) avail)
    else validateElems m (rec w) (wof w) elemCount (v.pos + fp)) = _ at h
  rw [bind_eq_ok] at h; obtain ⟨n, hn, h⟩ := h
  rw [bind_eq_ok] at h; obtain ⟨fp, hfp, h⟩ := h
  rw [bind_eq_ok] at h; obtain ⟨bytes, hbytes, h⟩ := h
  rw [bind_eq_ok] at h; obtain ⟨e, he, h⟩ := h
  rw [hdbg] at hbytes he
  have h1 : n * wof w < 2 ^ 64 := by
    unfold usizeMul at hbytes; split at hbytes
    · assumption
    · simp at hbytes
  have := usizeMul_dbg hbytes; subst bytes
  have h2 : m.base + (v.pos + fp) + n * wof w < 2 ^ 64 := by
    unfold usizeAdd at he; split at he
    · assumption
    · simp at he
  have := usizeAdd_dbg he; subst e
  split at h
  · rw [bind_eq_ok] at h; obtain ⟨_, _, h⟩ := h; cases h
  · exact ⟨w, n, fp, hw, hn, hfp, h1, h2, by omega, h⟩

theorem arrayValidate_intro {m : Mem} {rec : Bool → Val → Nat → R Unit} {v : Val} {de n fp : Nat} {w : Bool}
    (hw : v.isWide m = .ok w) (hn : v.arrayLen m = .ok n) (hfp : v.firstPos m = .ok fp)
    (h1 : n * wof w < 2 ^ 64) (h2 : m.base + (v.pos + fp) + n * wof w < 2 ^ 64)
    (h3 : v.pos + fp + n * wof w ≤ de)
    (h4 : validateElems m (rec w) (wof w) n (v.pos + fp) = .ok ()) :
    arrayValidate m rec v de = .ok () := by
  unfold arrayValidate
  simp only [hw, hn, hfp, ok_bind]
  change (do
    let bytes ← usizeMul m.dbg n (wof w)
    let e ← usizeAdd m.dbg (m.base + (v.pos + fp)) bytes
    if e > m.base + de then do
      let avail ← usizeSub m.dbg (m.base + de) (m.base + (v.pos + fp))
      Res.err (DecodeError.arrayOutOfBounds n (wof w) avail)
    else validateElems m (rec w) (wof w) n (v.pos + fp)) = _
  unfold usizeMul usizeAdd
  rw [if_pos h1]
  simp only [ok_bind]
  rw [if_pos h2]
  simp only [ok_bind]
  rw [if_neg (by omega)]
  exact h4

theorem validateElems_safe (m : Mem) (rec : Val → Nat → R Unit) (w n cur : Nat) (bound : Nat)
    (hb : cur + n * w ≤ bound) (hbd : bound ≤ m.data.length)
    (hrec : ∀ e : Val, e.In m → e.len = w → cur ≤ e.pos → 2 ≤ w → e.pos + w ≤ bound →
      (rec e (e.pos + w)).Safe) :
    (validateElems m rec w n cur).Safe := by
  induction n generalizing cur with
  | zero => simp [validateElems]
  | succ n ih =>
    unfold validateElems
    have hsplit : (n + 1) * w = n * w + w := by rw [Nat.add_mul]; omega
    apply Safe.bind (fromRaw_safe (by omega))
    intro e he
    obtain ⟨rfl, hin, hw, _⟩ := fromRaw_ok he
    apply Safe.bind
    · exact hrec ⟨cur, w⟩ hin rfl (Nat.le_refl _) hw (by simp; omega)
    · intro _ _
      apply ih
      · omega
      · intro e h1 h2 h3 h4 h5
        exact hrec e h1 h2 (by omega) h4 h5

/-- Measure that decreases along the recursion of validation. -/
def vmeasure (L de pos : Nat) : Nat := de * (L + 1) + (L - pos)

theorem validateGo_safe (m : Mem) (hdbg : m.dbg = true) (fuel : Nat) (isArr wide : Bool) (v : Val) (de : Nat)
    (hv : v.In m) (hpos : v.pos < de) (hde : de ≤ m.data.length)
    (hfuel : vmeasure m.data.length de v.pos < fuel) :
    (validateGo m fuel isArr wide v de).Safe := by
  induction fuel generalizing isArr wide v de with
  | zero => omega
  | succ f ih =>
    unfold validateGo
    apply Safe.bind (type_safe hv)
    intro t ht
    have scalar : (if isArr then pure () else do
        let r ← v.requiredSize m
        if m.base + v.pos + r ≤ m.base + de then pure ()
        else do
          let t ← v.type m
          let avail ← usizeSub m.dbg (m.base + de) (m.base + v.pos)
          .err (.valueOutOfBounds t r avail) : R Unit).Safe := by
      apply Safe.ite
      · intro _; trivial
      · intro _
        apply Safe.bind (requiredSize_safe hv); intro r _
        apply Safe.ite
        · intro _; trivial
        · intro _
          apply Safe.bind (type_safe hv); intro t _
          apply Safe.bind (usizeSub_safe _ _ _); intro t _; trivial
    have arr : (arrayValidate m (fun w => validateGo m f true w) v de).Safe := by
      unfold arrayValidate
      apply Safe.bind (isWide_safe hv)
      intro w _
      apply Safe.bind (arrayLen_safe hv)
      intro n hn
      have hl := arrayLen_ok_len hn
      apply Safe.bind (firstPos_safe hv)
      intro fp hfp
      have hfp2 := firstPos_ge hl hfp
      apply Safe.bind (usizeMul_safe _ _ _)
      intro bytes hbytes
      apply Safe.bind (usizeAdd_safe _ _ _)
      intro e he
      rw [hdbg] at hbytes he
      have := usizeMul_dbg hbytes
      have := usizeAdd_dbg he
      subst bytes; subst e
      apply Safe.ite
      · intro _
        apply Safe.bind (usizeSub_safe _ _ _); intro t _; trivial
      · intro hle
        apply validateElems_safe (bound := de)
        · omega
        · exact hde
        · intro e hin hel hpe hw2 hend
          apply ih
          · exact hin
          · omega
          · omega
          · unfold vmeasure at hfuel ⊢
            generalize (if w = true then 4 else 2) = k at *
            have h1 : (e.pos + k) * (m.data.length + 1) ≤ de * (m.data.length + 1) :=
              Nat.mul_le_mul_right _ hend
            omega
    have ptr : (do
        let target ← derefChecked m wide v
        validateGo m f false wide target v.pos : R Unit).Safe := by
      apply Safe.bind (derefChecked_safe m wide v hv)
      intro target htgt
      obtain ⟨hin, hbefore, hlen2, _⟩ := derefChecked_ok htgt
      apply ih
      · exact hin
      · omega
      · omega
      · unfold vmeasure at hfuel ⊢
        have h1 : (v.pos + 1) * (m.data.length + 1) ≤ de * (m.data.length + 1) :=
          Nat.mul_le_mul_right _ hpos
        rw [Nat.add_mul] at h1
        omega
    cases t
    case array => exact arr
    case dict => exact arr
    case pointer => exact ptr
    all_goals exact scalar

theorem findRoot_safe (m : Mem) : (findRoot m).Safe := by
  unfold findRoot
  apply Safe.ite
  · intro _; trivial
  · intro hn
    have hin : (⟨m.data.length - 2, 2⟩ : Val).In m := by unfold Val.In; simp; omega
    apply Safe.bind (type_safe hin)
    intro t _
    apply Safe.ite
    · intro _; exact derefChecked_safe _ _ _ hin
    · intro _
      apply Safe.ite <;> (intro _; trivial)

theorem findRoot_ok {m : Mem} {v : Val} (h : findRoot m = .ok v) :
    v.In m ∧ v.pos < m.data.length ∧ 2 ≤ v.len ∧ v.len % 2 = 0 ∧
      ∃ t, v.type m = .ok t ∧ t ≠ .pointer := by
  unfold findRoot at h
  dsimp only at h
  split at h
  · cases h
  · rename_i hn
    rw [bind_eq_ok] at h
    obtain ⟨t, ht, h⟩ := h
    split at h
    · obtain ⟨h1, h2, h3, h5, h4⟩ := derefChecked_ok h
      refine ⟨h1, ?_, h3, h5, h4⟩
      simp at h2; omega
    · split at h
      · cases h
        refine ⟨?_, ?_, Nat.le_refl _, by simp, t, ht, by assumption⟩
        · unfold Val.In; simp; omega
        · simp; omega
      · cases h

theorem fromBytesGo_safe (m : Mem) (hdbg : m.dbg = true) (fuel : Nat) (hf : fuelFor m.data.length ≤ fuel) :
    (fromBytesGo m fuel).Safe := by
  unfold fromBytesGo
  apply Safe.bind (findRoot_safe m)
  intro root hroot
  obtain ⟨h1, h2, _⟩ := findRoot_ok hroot
  apply Safe.bind
  · apply validateGo_safe m hdbg fuel _ _ _ _ h1 h2 (Nat.le_refl _)
    unfold vmeasure; unfold fuelFor at hf
    rw [Nat.add_mul] at hf; omega
  · intro _ _; trivial

/-! ## Fuel only matters when it runs out -/

abbrev Res.LeDiv {ε α : Type} (x y : Res ε α) : Prop := Res.LeOr (fun {_} => .diverge) x y

theorem validateElems_mono (m : Mem) (rec rec' : Val → Nat → R Unit)
    (hrec : ∀ e d, LeDiv (rec e d) (rec' e d)) (w n cur : Nat) :
    LeDiv (validateElems m rec w n cur) (validateElems m rec' w n cur) := by
  induction n generalizing cur with
  | zero => exact LeOr.refl _ _
  | succ n ih =>
    unfold validateElems
    apply LeOr.bind_diverge (LeOr.refl _ _)
    intro e _
    apply LeOr.bind_diverge (hrec _ _)
    intro _ _
    exact ih _

theorem validateGo_mono (m : Mem) (f g : Nat) (hfg : f ≤ g) (a w : Bool) (v : Val) (de : Nat) :
    LeDiv (validateGo m f a w v de) (validateGo m g a w v de) := by
  induction f generalizing g a w v de with
  | zero => left; rfl
  | succ f ih =>
    obtain ⟨g, rfl⟩ : ∃ g', g = g' + 1 := ⟨g - 1, by omega⟩
    unfold validateGo
    apply LeOr.bind_diverge (LeOr.refl _ _)
    intro t _
    have arr : LeDiv (arrayValidate m (fun w => validateGo m f true w) v de)
        (arrayValidate m (fun w => validateGo m g true w) v de) := by
      unfold arrayValidate
      iterate 5
        apply LeOr.bind_diverge (LeOr.refl _ _)
        intro _ _
      dsimp only
      split
      · exact LeOr.refl _ _
      · exact validateElems_mono _ _ _ (fun e d => ih g (by omega) _ _ _ _) _ _ _
    cases t
    case array => exact arr
    case dict => exact arr
    case pointer =>
      apply LeOr.bind_diverge (LeOr.refl _ _)
      intro t _
      exact ih g (by omega) _ _ _ _
    all_goals exact LeOr.refl _ _

theorem fromBytesGo_mono (m : Mem) (f g : Nat) (hfg : f ≤ g) : LeDiv (fromBytesGo m f) (fromBytesGo m g) := by
  unfold fromBytesGo
  apply LeOr.bind_diverge (LeOr.refl _ _)
  intro r _
  apply LeOr.bind_diverge (validateGo_mono m f g hfg _ _ _ _)
  intro _ _
  exact LeOr.refl _ _

end Fleece
