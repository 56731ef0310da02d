import Verif.Proofs.Header
import Verif.Proofs.Total
import Verif.Proofs.ReadBack
import Verif.Proofs.KeyOrder
import Verif.Proofs.Shared

/-!
# Bytes that represent a document

`Rep data F P scope none p e t`: in `data` there is, from `p` to `e`, the encoding of a value whose content is `t`.
`Rep data F P scope (some w) q e t`: the slot at `q` of a collection of width `w` holds (or points to) such a value.
The order of the pairs of a dict in `t` is the stored one.
-/

namespace Fleece
open Res

variable {P : List UInt8 → Prop}

/-- The largest pointer offset of a slot: 30 or 14 bits, in units of two bytes. -/
def maxOff (w : Bool) : Nat := if w then 0x7ffffffe else 0x7ffe

/-- The key slot at `q` of a dict of width `w` holds the key `k`. -/
inductive KeyAt (data : List UInt8) (F : FloatOps) (w : Bool) (q : Nat) : Key → Prop where
  | shared {b0 b1 : UInt8} {tl : List UInt8} {c : Nat} (hat : At data q (b0 :: b1 :: tl)) (len : 2 + tl.length = wof w)
      (hb : b0.toNat < 8) (hc : c = b0.toNat * 256 + b1.toNat) : KeyAt data F w q (.shared c)
  | inline {s bs : List UInt8} {ty : ValueType} (hat : At data q bs) (len : bs.length = wof w)
      (hs : ScalarBytes F bs ty (.str s)) : KeyAt data F w q (.string s)
  | pointer {s bs : List UInt8} {ty : ValueType} {p : Nat} (hat : At data p bs) (hs : ScalarBytes F bs ty (.str s))
      (le : p + bs.length ≤ q) (even : (q - p) % 2 = 0) (max : q - p ≤ maxOff w) (ptr : At data q (ptrBytes w (q - p))) :
      KeyAt data F w q (.string s)

/-- The text of a stored key. -/
def Key.Text (scope : Option SharedKeys) : Key → List UInt8 → Prop
  | .shared c, s => ∃ sk, scope = some sk ∧ sk.decode c = some s
  | .string k, s => k = s

/-- See the module comment. -/
inductive Rep (data : List UInt8) (F : FloatOps) (P : List UInt8 → Prop) (scope : Option SharedKeys) : Option Bool → Nat → Nat → Tree → Prop where
  | scalar {p : Nat} {bs : List UInt8} {ty : ValueType} {t : Tree} (hat : At data p bs) (hs : ScalarBytes F bs ty t) :
      Rep data F P scope none p (p + bs.length) t
  | inline {w : Bool} {q : Nat} {bs : List UInt8} {ty : ValueType} {t : Tree} (hat : At data q bs)
      (len : bs.length = wof w) (hs : ScalarBytes F bs ty t) : Rep data F P scope (some w) q (q + wof w) t
  | ptr {w : Bool} {q p e : Nat} {t : Tree} (hat : At data q (ptrBytes w (q - p))) (lt : p < e) (le : e ≤ q)
      (even : (q - p) % 2 = 0) (max : q - p ≤ maxOff w) (tgt : Rep data F P scope none p e t) :
      Rep data F P scope (some w) q (q + wof w) t
  | empty {w : Bool} {q e : Nat} {t : Tree} (no : t = .arr [] ∨ t = .dict []) (le : e ≤ q + wof w)
      (fits : q + wof w ≤ data.length) (tgt : Rep data F P scope none q e t) : Rep data F P scope (some w) q (q + wof w) t
  | arr {p : Nat} {w : Bool} {xs : List Tree} (hat : At data p (headerBytes 0x60 xs.length w))
      (small : xs.length < 2 ^ 32) (fits : p + hdrLen xs.length + xs.length * wof w ≤ data.length)
      (each : ∀ (i : Nat) (t : Tree), xs[i]? = some t → Rep data F P scope (some w) (p + hdrLen xs.length + i * wof w)
        (p + hdrLen xs.length + i * wof w + wof w) t) :
      Rep data F P scope none p (p + hdrLen xs.length + xs.length * wof w) (.arr xs)
  | dict {p : Nat} {w : Bool} {ks : List Key} {kvs : List (List UInt8 × Tree)}
      (hat : At data p (headerBytes 0x70 kvs.length w)) (small : kvs.length < 2 ^ 32)
      (fits : p + hdrLen kvs.length + kvs.length * 2 * wof w ≤ data.length) (len : ks.length = kvs.length)
      (keys : ∀ (i : Nat) (k : Key), ks[i]? = some k → KeyAt data F w (p + hdrLen kvs.length + 2 * i * wof w) k)
      (text : ∀ (i : Nat) (k : Key) (s : List UInt8) (t : Tree), ks[i]? = some k → kvs[i]? = some (s, t) → k.Text scope s)
      (sorted : ks.Pairwise (fun a b => Key.Lt a b ∨ a = b))
      (strs : ∀ (i : Nat) (s : List UInt8), ks[i]? = some (.string s) → P s)
      (vals : ∀ (i : Nat) (s : List UInt8) (t : Tree), kvs[i]? = some (s, t) →
        Rep data F P scope (some w) (p + hdrLen kvs.length + (2 * i + 1) * wof w)
          (p + hdrLen kvs.length + (2 * i + 1) * wof w + wof w) t) :
      Rep data F P scope none p (p + hdrLen kvs.length + kvs.length * 2 * wof w) (.dict kvs)

/-! ## Growing -/

theorem KeyAt.mono {data data' : List UInt8} {F : FloatOps} {w : Bool} {q : Nat} {k : Key} (h : KeyAt data F w q k)
    (hd : data <+: data') : KeyAt data' F w q k := by
  cases h with
  | shared hat len hb hc => exact .shared (hat.mono hd) len hb hc
  | inline hat len hs => exact .inline (hat.mono hd) len hs
  | pointer hat hs le even max ptr => exact .pointer (hat.mono hd) hs le even max (ptr.mono hd)

/-- `s'` knows all codes of `s`. -/
def ScopeLe (s s' : Option SharedKeys) : Prop := ∀ sk, s = some sk → ∃ sk', s' = some sk' ∧ sk.Le sk'

theorem ScopeLe.refl (s : Option SharedKeys) : ScopeLe s s := fun sk h => ⟨sk, h, .refl _⟩

theorem Key.Text.mono {s s' : Option SharedKeys} (h : ScopeLe s s') {k : Key} {x : List UInt8} (ht : k.Text s x) :
    k.Text s' x := by
  cases k with
  | shared c =>
    obtain ⟨sk, h1, h2⟩ := ht
    obtain ⟨sk', h3, h4⟩ := h sk h1
    exact ⟨sk', h3, h4.decode h2⟩
  | string k => exact ht

theorem Rep.mono {data data' : List UInt8} {F : FloatOps} {scope scope' : Option SharedKeys} {k : Option Bool} {p e : Nat}
    {t : Tree} (h : Rep data F P scope k p e t) (hd : data <+: data') (hs : ScopeLe scope scope') :
    Rep data' F P scope' k p e t := by
  have hl := hd.length_le
  induction h with
  | scalar hat hb => exact .scalar (hat.mono hd) hb
  | inline hat len hb => exact .inline (hat.mono hd) len hb
  | ptr hat lt le even max _ ih => exact .ptr (hat.mono hd) lt le even max ih
  | empty no le fits _ ih => exact .empty no le (by omega) ih
  | arr hat small fits _ ih => exact .arr (hat.mono hd) small (by omega) ih
  | dict hat small fits len keys text sorted strs _ ih =>
    exact .dict (hat.mono hd) small (by omega) len (fun i k hk => (keys i k hk).mono hd)
      (fun i k s t h1 h2 => (text i k s t h1 h2).mono hs) sorted strs ih

theorem Rep.le {data : List UInt8} {F : FloatOps} {scope : Option SharedKeys} {k : Option Bool} {p e : Nat}
    {t : Tree} (h : Rep data F P scope k p e t) : e ≤ data.length ∧ p + 2 ≤ e := by
  cases h with
  | scalar hat hs => have := hat.le; have := hs.two; omega
  | @inline w q bs ty t hat len hs => have := hat.le; have := hs.two; omega
  | @ptr w q p e t hat lt le even max tgt =>
    have := hat.le
    rw [ptrBytes_length] at this
    cases w <;> simp [wof] at * <;> omega
  | @empty w q e t no le fits tgt => have := wof_pos w; cases w <;> simp [wof] at * <;> omega
  | @arr p w xs hat small fits each => have := hdrLen_ge xs.length; omega
  | @dict p w ks kvs hat small fits len keys text sorted strs vals => have := hdrLen_ge kvs.length; omega

/-! ## Pointers -/

theorem ptr_first {w : Bool} {off : Nat} (hm : off ≤ maxOff w) : ∃ b tl, ptrBytes w off = b :: tl ∧
    ValueType.fromByte b = .pointer ∧ b &&& 0x40 = 0 := by
  cases w with
  | false =>
    simp only [maxOff, Bool.false_eq_true, if_false] at hm
    refine ⟨_, _, rfl, fromByte_ge80 _ ?_, and40_small _ ?_⟩
    · rw [or80_toNat _ (by rw [ofNat_toNat]; omega)]; omega
    · rw [ofNat_toNat]; omega
  | true =>
    simp only [maxOff, if_true] at hm
    refine ⟨_, _, rfl, fromByte_ge80 _ ?_, and40_small _ ?_⟩
    · rw [or80_toNat _ (by rw [ofNat_toNat]; omega)]; omega
    · rw [ofNat_toNat]; omega

theorem ptr_value {w : Bool} {off : Nat} (hm : off ≤ maxOff w) (heven : off % 2 = 0) :
    (if w then beNat (ptrBytes w off) % 2 ^ 30 * 2 else beNat (ptrBytes w off) % 2 ^ 14 * 2) = off := by
  cases w with
  | false =>
    simp only [maxOff, Bool.false_eq_true, if_false] at hm ⊢
    unfold ptrBytes
    simp only [Bool.false_eq_true, if_false]
    rw [beNat2, or80_toNat _ (by rw [ofNat_toNat]; omega), ofNat_toNat, ofNat_toNat]
    omega
  | true =>
    simp only [maxOff, if_true] at hm ⊢
    unfold ptrBytes
    simp only [if_true]
    rw [beNat4, or80_toNat _ (by rw [ofNat_toNat]; omega)]
    simp only [ofNat_toNat]
    omega

section
variable {m : Mem} {v : Val}

theorem ptr_deref {w : Bool} {off : Nat} (h : Holds m v (ptrBytes w off)) (hm : off ≤ maxOff w) (heven : off % 2 = 0)
    (h0 : 0 < off) (hle : off ≤ v.pos) {ty : ValueType} (hty : Val.type m ⟨v.pos - off, off⟩ = .ok ty)
    (hnp : ty ≠ .pointer) :
    v.type m = .ok .pointer ∧ derefChecked m w v = .ok ⟨v.pos - off, off⟩ := by
  obtain ⟨b, tl, hb, ht, h40⟩ := ptr_first hm
  have hval := ptr_value hm heven
  have hl := ptrBytes_length w off
  have hraw := h.rawRead (a := 0) (n := (ptrBytes w off).length) (by omega)
  simp only [Nat.add_zero, List.drop_zero, List.take_length] at hraw
  have hin := h.hin
  have hle2 := h.le
  have htv : v.type m = .ok .pointer := by rw [hb] at h; rw [h.type, ht]
  have hbyte : v.byte m 0 = .ok b := by rw [hb] at h; exact h.byte rfl
  refine ⟨htv, ?_⟩
  have hoff : v.getOffset m w = .ok off := by
    unfold Val.getOffset
    cases w with
    | false =>
      simp only [Bool.false_eq_true, if_false] at hl hval ⊢
      rw [hl] at hraw
      rw [hraw]; simp only [ok_bind, pure_eq, hval]
    | true =>
      simp only [if_true] at hl hval ⊢
      rw [hl] at hraw
      rw [hraw]; simp only [ok_bind, pure_eq, hval]
  unfold derefChecked derefCheckedGo
  rw [if_neg (by cases w <;> simp_all <;> omega), hoff]
  simp only [ok_bind]
  rw [if_neg (by omega), hbyte]
  simp only [ok_bind, h40]
  unfold Val.In at hin
  rw [if_neg (by simp), if_neg (by omega), mkSlice_eq (by omega)]
  simp only [ok_bind, hty]
  rw [if_neg hnp]
  rfl

/-! ## Iteration -/

theorem Coll.collect_list {α : Type} (f : Val → R α) {w : Bool} {fp : Nat} {xs : List α}
    (h : Coll m v w xs.length fp)
    (he : ∀ (j : Nat) (t : α), xs[j]? = some t →
      ∃ e, resolve m w (slotAt (v.pos + fp) (wof w) j) = .ok e ∧ f e = .ok t) (i : Nat) (fuel : Nat)
    (hfuel : xs.length - i < fuel) :
    collect m f fuel (iterAt (v.pos + fp) (wof w) xs.length i) = .ok (xs.drop i) := by
  induction fuel generalizing i with
  | zero => omega
  | succ fuel ih =>
    unfold collect
    by_cases hi : i < xs.length
    · obtain ⟨e, h1, h2⟩ := he i xs[i] (List.getElem?_eq_getElem hi)
      rw [h.step hi h1]
      simp only [ok_bind, h2, ih (i + 1) (by omega), pure_eq]
      rw [List.drop_eq_getElem_cons hi]
    · rw [iterAt_step_end hi]
      rw [List.drop_eq_nil_of_le (by omega)]; rfl

/-- The key value `v` is read as the text `s`. -/
def KeyRead (m : Mem) (scope : Option SharedKeys) (v : Val) (s : List UInt8) : Prop :=
  (∃ c sk, v.type m = .ok .short ∧ scope = some sk ∧ v.getShort m = .ok c ∧ sk.decode c = some s) ∨
    (v.type m = .ok .string ∧ v.toStr m = .ok s)

theorem Coll.dictStep_pair {scope : Option SharedKeys} {w : Bool} {fp n i : Nat} {ek ev : Val} {s : List UInt8}
    (h : Coll m v w n fp) (hi : i + 1 < n) (hk : resolve m w (slotAt (v.pos + fp) (wof w) i) = .ok ek)
    (hr : KeyRead m scope ek s) (hv : resolve m w (slotAt (v.pos + fp) (wof w) (i + 1)) = .ok ev) :
    (iterAt (v.pos + fp) (wof w) n i).dictStep m scope =
      .ok (some (s, ev), iterAt (v.pos + fp) (wof w) n (i + 2)) := by
  unfold Iter.dictStep
  rw [h.step (by omega) hk]
  simp only [ok_bind]
  rcases hr with ⟨c, sk, ht, hsc, hg, hd⟩ | ⟨ht, hs⟩
  · simp only [ht, ok_bind, if_true, hsc, hg, pure_eq, hd]
    rw [h.step (by omega) hv]
    rfl
  · simp only [ht, ok_bind, reduceCtorEq, if_false, hs, pure_eq]
    rw [h.step (by omega) hv]
    rfl

theorem Coll.collectDict_list {α : Type} {scope : Option SharedKeys} (f : Val → R α) {w : Bool} {fp : Nat}
    {kvs : List (List UInt8 × α)} (h : Coll m v w (kvs.length * 2) fp)
    (he : ∀ (j : Nat) (s : List UInt8) (t : α), kvs[j]? = some (s, t) →
      ∃ ek ev, resolve m w (slotAt (v.pos + fp) (wof w) (2 * j)) = .ok ek ∧ KeyRead m scope ek s ∧
        resolve m w (slotAt (v.pos + fp) (wof w) (2 * j + 1)) = .ok ev ∧ f ev = .ok t) (i : Nat) (fuel : Nat)
    (hfuel : kvs.length - i < fuel) :
    collectDict m scope f fuel (iterAt (v.pos + fp) (wof w) (kvs.length * 2) (2 * i)) = .ok (kvs.drop i) := by
  induction fuel generalizing i with
  | zero => omega
  | succ fuel ih =>
    unfold collectDict
    by_cases hi : i < kvs.length
    · obtain ⟨ek, ev, h1, h2, h3, h4⟩ := he i kvs[i].1 kvs[i].2 (List.getElem?_eq_getElem hi)
      rw [h.dictStep_pair (by omega) h1 h2 h3]
      simp only [ok_bind, h4]
      rw [show 2 * i + 2 = 2 * (i + 1) by omega, ih (i + 1) (by omega)]
      simp only [ok_bind, pure_eq]
      rw [List.drop_eq_getElem_cons hi]
    · unfold Iter.dictStep
      rw [iterAt_step_end (by omega)]
      rw [List.drop_eq_nil_of_le (by omega)]; rfl

end

/-! ## Reading -/

/-- What the reader makes of a slot. -/
structure SlotOK (m : Mem) (w : Bool) (q : Nat) (P : Val → Prop) : Prop where
  raw : fromRaw m q (wof w) = .ok ⟨q, wof w⟩
  valid : ∀ f, q + 1 ≤ f → validateGo m f true w ⟨q, wof w⟩ (q + wof w) = .ok ()
  res : ∃ e, resolve m w ⟨q, wof w⟩ = .ok e ∧ P e

/-- What the reader makes of a value. -/
structure ValueOK (m : Mem) (F : FloatOps) (scope : Option SharedKeys) (v : Val) (e : Nat) (t : Tree) : Prop where
  type : ∃ ty, v.type m = .ok ty ∧ ty ≠ .pointer
  valid : ∀ f w de, e ≤ f → e ≤ de → validateGo m f false w v de = .ok ()
  read : ∀ f, e ≤ f → readTree m F scope f v = .ok t

theorem scalar_not {ty : ValueType} (h : ty.isScalar = true) : ty ≠ .pointer ∧ ty ≠ .array ∧ ty ≠ .dict := by
  cases ty <;> simp_all [ValueType.isScalar]

theorem validate_scalar {m : Mem} {v : Val} {f : Nat} {a w : Bool} {de r : Nat} {ty : ValueType} (ht : v.type m = .ok ty)
    (hs : ty.isScalar = true) (hr : v.requiredSize m = .ok r) (hd : a = true ∨ v.pos + r ≤ de) (hf : 0 < f) :
    validateGo m f a w v de = .ok () := by
  obtain ⟨f, rfl⟩ : ∃ k, f = k + 1 := ⟨f - 1, by omega⟩
  unfold validateGo
  rw [bind_eq_ok]
  refine ⟨ty, ht, ?_⟩
  have : (if a = true then (pure () : R Unit) else do
      let r ← v.requiredSize m
      if m.base + v.pos + r ≤ m.base + de then pure ()
      else do
        let t ← v.type m
        let avail ← usizeSub m.dbg (m.base + de) (m.base + v.pos)
        .err (.valueOutOfBounds t r avail)) = .ok () := by
    by_cases ha : a = true
    · rw [if_pos ha]; rfl
    · rw [if_neg ha, hr]
      simp only [ok_bind]
      rw [if_pos (by rcases hd with h | h; exact absurd h ha; omega)]
      rfl
  obtain ⟨h1, h2, h3⟩ := scalar_not hs
  cases ty <;> first | exact this | contradiction

theorem slot_scalar {m : Mem} {F : FloatOps} {w : Bool} {q : Nat} {bs : List UInt8} {ty : ValueType} {t : Tree}
    (hat : At m.data q bs) (len : bs.length = wof w) (hs : ScalarBytes F bs ty t) {P : Val → Prop}
    (hP : Holds m ⟨q, wof w⟩ bs → P ⟨q, wof w⟩) : SlotOK m w q P := by
  have hle := hat.le
  have hh : Holds m ⟨q, wof w⟩ bs := hat.holds rfl (by unfold Val.In; simp only; omega) (by simp only; omega)
  obtain ⟨r, hr, hrl⟩ := hs.req m _ hh
  have ht := hs.type m _ hh
  have h2 := wof_pos w
  refine ⟨?_, ?_, ?_⟩
  · unfold fromRaw
    rw [mkSlice_eq (by omega)]
    simp only [ok_bind]
    rw [if_neg (by omega), hr]
    simp only [ok_bind]
    rw [if_neg (by omega)]
    rfl
  · intro f hf
    exact validate_scalar ht hs.scalar hr (.inl rfl) (by omega)
  · exact ⟨_, resolve_of_not_pointer _ ht (scalar_not hs.scalar).1, hP hh⟩

theorem slot_ptr {m : Mem} {w : Bool} {q p : Nat} (hat : At m.data q (ptrBytes w (q - p))) (lt : p < q)
    (even : (q - p) % 2 = 0) (max : q - p ≤ maxOff w) {ty : ValueType} (hty : Val.type m ⟨p, q - p⟩ = .ok ty)
    (hnp : ty ≠ .pointer) (hval : ∀ f, q ≤ f → validateGo m f false w ⟨p, q - p⟩ q = .ok ()) {P : Val → Prop}
    (hP : P ⟨p, q - p⟩) : SlotOK m w q P := by
  have hle := hat.le
  have hpl := ptrBytes_length w (q - p)
  rw [hpl] at hle
  have hw : wof w = if w then 4 else 2 := by cases w <;> rfl
  rw [← hw] at hle hpl
  have h2 := wof_pos w
  have hh : Holds m ⟨q, wof w⟩ (ptrBytes w (q - p)) := hat.holds rfl (by unfold Val.In; simp only; omega) (by simp only; omega)
  have hq : q - (q - p) = p := by omega
  obtain ⟨h3, h4⟩ := ptr_deref hh max even (by omega) (by simp only; omega) (by simp only [hq]; exact hty) hnp
  simp only [hq] at h4
  refine ⟨?_, ?_, ?_⟩
  · unfold fromRaw
    rw [mkSlice_eq (by omega)]
    simp only [ok_bind]
    rw [if_neg (by omega)]
    have : Val.requiredSize m ⟨q, wof w⟩ = .ok 2 := by unfold Val.requiredSize; rw [h3]; rfl
    rw [this]
    simp only [ok_bind]
    rw [if_neg (by omega)]
    rfl
  · intro f hf
    obtain ⟨f, rfl⟩ : ∃ k, f = k + 1 := ⟨f - 1, by omega⟩
    unfold validateGo
    rw [h3]
    simp only [ok_bind, h4]
    exact hval f (by omega)
  · refine ⟨⟨p, q - p⟩, ?_, hP⟩
    unfold resolve
    rw [h3]
    simp only [ok_bind, if_true]
    exact derefUnchecked_eq h4

theorem value_scalar {m : Mem} {F : FloatOps} {scope : Option SharedKeys} {v : Val} {bs : List UInt8} {ty : ValueType}
    {t : Tree} (hh : Holds m v bs) (hs : ScalarBytes F bs ty t) : ValueOK m F scope v (v.pos + bs.length) t := by
  obtain ⟨r, hr, hrl⟩ := hs.req m _ hh
  have ht := hs.type m _ hh
  have h2 := hs.two
  refine ⟨⟨ty, ht, (scalar_not hs.scalar).1⟩, ?_, ?_⟩
  · intro f w de hf hde
    exact validate_scalar ht hs.scalar hr (.inr (by omega)) (by omega)
  · intro f hf
    obtain ⟨f, rfl⟩ : ∃ k, f = k + 1 := ⟨f - 1, by omega⟩
    exact hs.read m v scope f hh

theorem KeyAt.ok {m : Mem} {F : FloatOps} {w : Bool} {q : Nat} {k : Key} (h : KeyAt m.data F w q k) :
    SlotOK m w q (fun e => (∃ ty, e.type m = .ok ty ∧ (ty = .short ∨ ty = .string)) ∧ KeyValue m w e k) := by
  cases h with
  | @shared b0 b1 tl c hat len hb hc =>
    refine slot_scalar (F := F) hat (by simp only [List.length_cons]; omega) (short_bytes (by omega)) fun hh => ?_
    have ht : Val.type m ⟨q, wof w⟩ = .ok .short := by rw [hh.type, fromByte_short _ (by omega)]
    refine ⟨⟨_, ht, .inl rfl⟩, .short ht ?_⟩
    have hm : ∀ b : UInt8, b.toNat < 8 → (b &&& 0x0F).toNat = b.toNat := forall_byte (by decide +kernel)
    rw [hh.getShort, hc, hm b0 hb]
  | inline hat len hs =>
    refine slot_scalar hat len hs fun hh => ?_
    obtain ⟨h1, h2⟩ := hs.toStr hh
    exact ⟨⟨_, h2, .inr rfl⟩, .inline h2 h1⟩
  | @pointer s bs ty p hat hs le even max ptr =>
    have h2 := hs.two
    have hle := ptr.le
    have hh : Holds m ⟨p, q - p⟩ bs := hat.holds rfl (by unfold Val.In; simp only; omega) (by simp only; omega)
    obtain ⟨hstr, hty⟩ := hs.toStr hh
    refine slot_ptr ptr (by omega) even max hty (by simp) ?_ ⟨⟨_, hty, .inr rfl⟩, .inline hty hstr⟩
    intro f hf
    exact (value_scalar (scope := none) hh hs).valid f w q (by simp only; omega) (by simp only; omega)

theorem KeyValue.read {m : Mem} {w : Bool} {e : Val} {k : Key} {scope : Option SharedKeys} {s : List UInt8}
    (h : KeyValue m w e k) (ht : ∃ ty, e.type m = .ok ty ∧ (ty = .short ∨ ty = .string)) (hk : k.Text scope s) :
    KeyRead m scope e s := by
  obtain ⟨ty, hty, hor⟩ := ht
  cases h with
  | short h1 h2 =>
    obtain ⟨sk, h3, h4⟩ := hk
    exact .inl ⟨_, sk, h1, h3, h2, h4⟩
  | inline h1 h2 => cases hk; exact .inr ⟨h1, h2⟩
  | pointer h1 h2 h3 h4 => rw [h1] at hty; cases hty; rcases hor with h | h <;> cases h

/-- The header of an empty collection. -/
theorem Rep.empty_header {data : List UInt8} {F : FloatOps} {scope : Option SharedKeys} {q e : Nat} {t : Tree}
    (h : Rep data F P scope none q e t) (no : t = .arr [] ∨ t = .dict []) :
    ∃ d w' : Bool, At data q (headerBytes (if d then 0x70 else 0x60) 0 w') ∧ t = (if d then .dict [] else .arr []) ∧ e = q + 2 := by
  cases h with
  | scalar hat hs =>
    exfalso
    rcases no with rfl | rfl
    · cases hs.form
    · cases hs.form
  | @arr p w xs hat small fits each =>
    rcases no with h | h
    · cases h; exact ⟨false, w, hat, rfl, by simp [hdrLen, headerSize]⟩
    · cases h
  | @dict p w ks kvs hat small fits len keys text sorted strs vals =>
    rcases no with h | h
    · cases h
    · cases h; exact ⟨true, w, hat, rfl, by simp [hdrLen, headerSize]⟩

/-- A slot that holds an empty collection. -/
theorem slot_empty {m : Mem} (hbase : m.base + m.data.length < 2 ^ 64) {w w' d : Bool} {q : Nat}
    (hat : At m.data q (headerBytes (if d then 0x70 else 0x60) 0 w')) (fits : q + wof w ≤ m.data.length) :
    fromRaw m q (wof w) = .ok ⟨q, wof w⟩ ∧ resolve m w ⟨q, wof w⟩ = .ok ⟨q, wof w⟩ ∧
    (∀ f a x, validateGo m (f + 1) a x ⟨q, wof w⟩ (q + wof w) = .ok ()) ∧
    ∀ F scope f, readTree m F scope (f + 1) ⟨q, wof w⟩ = .ok (if d then .dict [] else .arr []) := by
  have h2 : 2 ≤ wof w := by cases w <;> decide
  have hl := headerBytes_length (if d then 0x70 else 0x60) (n := 0) (by omega) w'
  have hs : headerSize 0 = 2 := rfl
  have hd2 : hdrLen 0 = 2 := rfl
  have hin : Val.In m ⟨q, wof w⟩ := by unfold Val.In; simp only; omega
  have hh : Holds m ⟨q, wof w⟩ (headerBytes (if d then 0x70 else 0x60) 0 w') := hat.holds rfl hin (by simp only; omega)
  obtain ⟨h3, h4, h5, h6⟩ := header_read d (n := 0) (by omega) hh
  have h5' : Val.arrayLen m ⟨q, wof w⟩ = .ok 0 := by rw [h5]; cases d <;> rfl
  rw [hd2] at h6
  have hcoll : Coll m ⟨q, wof w⟩ w' 0 2 := ⟨hin, h4, h5', h6, by omega, by simp only; omega⟩
  have hreq : Val.requiredSize m ⟨q, wof w⟩ = .ok 2 := by
    unfold Val.requiredSize; rw [h3]; cases d <;> rfl
  refine ⟨?_, ?_, ?_, ?_⟩
  · unfold fromRaw
    rw [mkSlice_eq (by omega)]
    simp only [ok_bind]
    rw [if_neg (by omega), hreq]
    simp only [ok_bind]
    rw [if_neg (by omega)]
    rfl
  · exact resolve_of_not_pointer _ h3 (by cases d <;> simp)
  · intro f a x
    have : arrayValidate m (fun w v de => validateGo m f true w v de) ⟨q, wof w⟩ (q + wof w) = .ok () :=
      arrayValidate_intro h4 h5' h6 (by omega) (by simp only; omega) (by simp only; omega) (validateElems_intro fun i hi => by omega)
    unfold validateGo
    rw [h3]
    cases d <;> exact this
  · intro F scope f
    unfold readTree
    rw [h3]
    cases d with
    | false =>
      simp only [Bool.false_eq_true, if_false, ok_bind]
      rw [hcoll.iter]
      rfl
    | true =>
      simp only [if_true, ok_bind]
      unfold Val.dictIter
      rw [hcoll.iter]
      rfl

/-- What `Rep` says is what the reader sees. -/
theorem Rep.ok {m : Mem} (hbase : m.base + m.data.length < 2 ^ 64) {F : FloatOps} {scope : Option SharedKeys}
    {k : Option Bool} {p e : Nat} {t : Tree} (h : Rep m.data F P scope k p e t) :
    match k with
    | none => ∀ v : Val, v.pos = p → v.In m → e ≤ p + v.len → ValueOK m F scope v e t
    | some w => SlotOK m w p (fun x => ∀ f, p + 1 ≤ f → readTree m F scope f x = .ok t) := by
  induction h with
  | @scalar p bs ty t hat hs =>
    intro v hp hin hl
    have := value_scalar (scope := scope) (hat.holds hp hin (by omega)) hs
    rw [hp] at this
    exact this
  | @inline w q bs ty t hat len hs =>
    dsimp only
    refine slot_scalar hat len hs fun hh f hf => ?_
    obtain ⟨f, rfl⟩ : ∃ k, f = k + 1 := ⟨f - 1, by omega⟩
    exact hs.read m _ scope f hh
  | @ptr w q p e t hat lt le even max tgt ih =>
    dsimp only at ih ⊢
    have hle := hat.le
    have := ih ⟨p, q - p⟩ rfl (by unfold Val.In; simp only; omega) (by simp only; omega)
    obtain ⟨ty, h1, h2⟩ := this.type
    refine slot_ptr hat (by omega) even max h1 h2 (fun f hf => this.valid f w q (by omega) le) fun f hf => ?_
    exact this.read f (by omega)
  | @empty w q e t no le fits tgt ih =>
    obtain ⟨d, w', hat, rfl, _⟩ := tgt.empty_header no
    obtain ⟨h1, h2, h3, h4⟩ := slot_empty hbase (w := w) hat fits
    refine ⟨h1, fun f hf => ?_, _, h2, fun f hf => ?_⟩
    · obtain ⟨f, rfl⟩ : ∃ k, f = k + 1 := ⟨f - 1, by omega⟩
      exact h3 f true w
    · obtain ⟨f, rfl⟩ : ∃ k, f = k + 1 := ⟨f - 1, by omega⟩
      exact h4 F scope f
  | @arr p w xs hat small fits each ih =>
    dsimp only at ih ⊢
    intro v hp hin hl
    have hhl := headerBytes_length 0x60 (n := xs.length) (by omega) w
    have hge := hdrLen_ge xs.length
    have hhd : headerSize xs.length ≤ hdrLen xs.length := by unfold hdrLen; omega
    have hh : Holds m v (headerBytes 0x60 xs.length w) := hat.holds hp hin (by omega)
    obtain ⟨h1, h2, h3, h4⟩ := header_read false (n := xs.length) (by omega) hh
    simp only [Bool.false_eq_true, if_false] at h1 h3
    have hw := wof_pos w
    have hcoll : Coll m v w xs.length (hdrLen xs.length) := ⟨hin, h2, h3, h4, by omega, by omega⟩
    have slotle : ∀ i, i < xs.length → i * wof w + wof w ≤ xs.length * wof w := by
      intro i hi
      have := Nat.mul_le_mul_right (wof w) (show i + 1 ≤ xs.length from hi)
      rw [Nat.add_mul] at this; omega
    refine ⟨⟨_, h1, by simp⟩, ?_, ?_⟩
    · intro f w' de hf hde
      obtain ⟨f, rfl⟩ : ∃ k, f = k + 1 := ⟨f - 1, by omega⟩
      unfold validateGo
      rw [h1]
      simp only [ok_bind]
      refine arrayValidate_intro h2 h3 h4 (by omega) (by omega) (by omega) ?_
      refine validateElems_intro fun i hi => ?_
      have := ih i _ (List.getElem?_eq_getElem hi)
      have hsl := slotle i hi
      rw [hp]
      exact ⟨_, this.raw, this.valid f (by omega)⟩
    · intro f hf
      obtain ⟨f, rfl⟩ : ∃ k, f = k + 1 := ⟨f - 1, by omega⟩
      unfold readTree
      rw [h1]
      simp only [ok_bind]
      rw [hcoll.iter]
      simp only [ok_bind]
      rw [hcoll.collect_list (readTree m F scope f) _ 0]
      · simp
      · simp [iterAt]
      · intro j t ht
        have hj : j < xs.length := (List.getElem?_eq_some_iff.mp ht).1
        obtain ⟨x, hx, hr⟩ := (ih j t ht).res
        have hsl := slotle j hj
        refine ⟨x, ?_, hr f (by omega)⟩
        unfold slotAt
        rw [hp]; exact hx
  | @dict p w ks kvs hat small fits len keys text sorted strs vals ih =>
    dsimp only at ih ⊢
    intro v hp hin hl
    have hhl := headerBytes_length 0x70 (n := kvs.length) (by omega) w
    have hge := hdrLen_ge kvs.length
    have hhd : headerSize kvs.length ≤ hdrLen kvs.length := by unfold hdrLen; omega
    have hh : Holds m v (headerBytes 0x70 kvs.length w) := hat.holds hp hin (by omega)
    obtain ⟨h1, h2, h3, h4⟩ := header_read true (n := kvs.length) (by omega) hh
    simp only [if_true] at h1 h3
    have hw := wof_pos w
    have hcoll : Coll m v w (kvs.length * 2) (hdrLen kvs.length) := ⟨hin, h2, h3, h4, by omega, by omega⟩
    have slotle : ∀ i, i < kvs.length * 2 → i * wof w + wof w ≤ kvs.length * 2 * wof w := by
      intro i hi
      have := Nat.mul_le_mul_right (wof w) (show i + 1 ≤ kvs.length * 2 from hi)
      rw [Nat.add_mul] at this; omega
    refine ⟨⟨_, h1, by simp⟩, ?_, ?_⟩
    · intro f w' de hf hde
      obtain ⟨f, rfl⟩ : ∃ k, f = k + 1 := ⟨f - 1, by omega⟩
      unfold validateGo
      rw [h1]
      simp only [ok_bind]
      refine arrayValidate_intro h2 h3 h4 (by omega) (by omega) (by omega) ?_
      refine validateElems_intro fun i hi => ?_
      have hsl := slotle i hi
      rw [hp]
      rcases Nat.mod_two_eq_zero_or_one i with hi2 | hi2
      · obtain ⟨j, rfl⟩ : ∃ j, i = 2 * j := ⟨i / 2, by omega⟩
        have := (keys j _ (List.getElem?_eq_getElem (by omega))).ok
        exact ⟨_, this.raw, this.valid f (by omega)⟩
      · obtain ⟨j, rfl⟩ : ∃ j, i = 2 * j + 1 := ⟨i / 2, by omega⟩
        have := ih j _ _ (List.getElem?_eq_getElem (show j < kvs.length by omega))
        exact ⟨_, this.raw, this.valid f (by omega)⟩
    · intro f hf
      obtain ⟨f, rfl⟩ : ∃ k, f = k + 1 := ⟨f - 1, by omega⟩
      unfold readTree
      rw [h1]
      simp only [ok_bind]
      unfold Val.dictIter
      rw [hcoll.iter]
      simp only [ok_bind]
      have := hcoll.collectDict_list (scope := scope) (readTree m F scope f) (kvs := kvs) ?_ 0
        (kvs.length * 2 + 1) (by omega)
      · simp only [iterAt] at this ⊢
        rw [this]
        simp
      · intro j s t ht
        have hj : j < kvs.length := (List.getElem?_eq_some_iff.mp ht).1
        obtain ⟨x, hx, hr⟩ := (ih j s t ht).res
        have hk := List.getElem?_eq_getElem (show j < ks.length by omega)
        obtain ⟨y, hy, hty, hkv⟩ := (keys j _ hk).ok.res
        have hsl := slotle (2 * j + 1) (by omega)
        refine ⟨y, x, ?_, hkv.read hty (text j _ s t hk ht), ?_, hr f (by omega)⟩
        · unfold slotAt; rw [hp]; exact hy
        · unfold slotAt; rw [hp]; exact hx

end Fleece
