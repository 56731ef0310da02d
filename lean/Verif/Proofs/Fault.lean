import Verif.Spec.Fault
import Verif.Proofs.Groups
import Verif.Proofs.NoPanic
import Verif.Proofs.EncBasic

/-! # The errors of the decoder are true (for C70) -/

namespace Fleece.Fault
open Fleece Res Spec Format

variable {m : Mem}

theorem wof_width (w : Bool) : wof w = width w := rfl

theorem bigEndian_beNat (bs : List UInt8) : bigEndian bs = beNat bs := by
  simp [bigEndian, littleEndian, beNat, List.foldr_reverse]

theorem low_bit (b : UInt8) (h : 128 ≤ b.toNat) : b &&& 0x40 = 0 → b.toNat < 192 := by
  revert b; exact forall_byte (by decide +kernel)

theorem here_take (p n : Nat) : Here m.data p ((m.data.drop p).take n) := List.take_prefix _ _

/-- What a pointer's slot holds. -/
theorem pointerAt {v : Val} {w : Bool} {o : Nat} {b : UInt8} (ho : v.getOffset m w = .ok o) (hb : m.data[v.pos]? = some b)
    (h : 128 ≤ b.toNat) : ∃ ext off, PointerAt m.data w v.pos ext off ∧ o = 2 * off ∧ (b.toNat < 192 → ext = false) := by
  have l := b.toNat_lt
  cases w with
  | false =>
    simp only [Val.getOffset, Bool.false_eq_true, if_false] at ho
    obtain ⟨bs, hbs, ho⟩ := bind_eq_ok.mp ho
    cases ho
    have hlen := rawRead_length hbs
    obtain ⟨_, rfl⟩ := rawRead_ok hbs
    have hh := here_take (m := m) v.pos 2
    have h0 : ((m.data.drop v.pos).take 2)[0]? = some b := by simpa using hb
    generalize (m.data.drop v.pos).take 2 = bs at *
    match bs, hlen with
    | [c, d], _ =>
      simp at h0; subst h0
      have l1 := d.toNat_lt
      refine ⟨decide (192 ≤ c.toNat), (c.toNat * 256 + d.toNat) % 2 ^ 14, ⟨_, hh, rfl, ?_, Nat.mod_lt _ (by decide)⟩, ?_, ?_⟩
      · rw [bigEndian_beNat, beNat2]
        simp only [width, Bool.false_eq_true, if_false, decide_eq_true_eq]
        split <;> omega
      · rw [beNat2]; omega
      · intro hl; simp; omega
  | true =>
    simp only [Val.getOffset, if_true] at ho
    obtain ⟨bs, hbs, ho⟩ := bind_eq_ok.mp ho
    cases ho
    have hlen := rawRead_length hbs
    obtain ⟨_, rfl⟩ := rawRead_ok hbs
    have hh := here_take (m := m) v.pos 4
    have h0 : ((m.data.drop v.pos).take 4)[0]? = some b := by simpa using hb
    generalize (m.data.drop v.pos).take 4 = bs at *
    match bs, hlen with
    | [c, d, e, f], _ =>
      simp at h0; subst h0
      have l1 := d.toNat_lt; have l2 := e.toNat_lt; have l3 := f.toNat_lt
      refine ⟨decide (192 ≤ c.toNat), (((c.toNat * 256 + d.toNat) * 256 + e.toNat) * 256 + f.toNat) % 2 ^ 30,
        ⟨_, hh, rfl, ?_, Nat.mod_lt _ (by decide)⟩, ?_, ?_⟩
      · rw [bigEndian_beNat, beNat4]
        simp only [width, if_true, decide_eq_true_eq]
        split <;> omega
      · rw [beNat4]; omega
      · intro hl; simp; omega

theorem pointer_byte {v : Val} (h : v.type m = .ok .pointer) : ∃ b, v.byte m 0 = .ok b ∧ m.data[v.pos]? = some b ∧ 128 ≤ b.toNat := by
  obtain ⟨b, hb, ht⟩ := type_ok_iff.mp h
  exact ⟨b, hb, by simpa using (byte_ok hb).2, (fromByte_ptr b).mp ht⟩

theorem getOffset_noerr {v : Val} {w : Bool} {e : DecodeError} (h : v.getOffset m w = .err e) : False := by
  unfold Val.getOffset rawRead at h
  split at h <;> split at h <;> cases h

theorem byte_noerr {v : Val} {i : Nat} {e : DecodeError} (h : v.byte m i = .err e) : False := by
  unfold Val.byte at h; split at h
  · split at h <;> cases h
  · cases h

theorem type_noerr {v : Val} {e : DecodeError} (h : v.type m = .err e) : False := by
  unfold Val.type at h
  cases hb : v.byte m 0 with
  | err _ => exact byte_noerr hb
  | _ => simp [hb] at h <;> cases h

theorem mkSlice_noerr {p l : Nat} {e : DecodeError} (h : mkSlice m p l = .err e) : False := by
  unfold mkSlice at h; split at h <;> cases h

theorem derefCheckedGo_fault (fuel : Nat) (w : Bool) (v : Val) (e : DecodeError) (h : derefCheckedGo m fuel w v = .err e)
    (ht : v.type m = .ok .pointer) (hl : 2 ≤ v.len)
    (hs : w = true → v.len < 4 → v.len = 2 ∧ ∃ w', PointerAt m.data w' (v.pos + 2) false 1) : Fault m.data m.base e := by
  induction fuel generalizing w v with
  | zero => cases h
  | succ f ih =>
    obtain ⟨b, hb, hd, hp⟩ := pointer_byte ht
    unfold derefCheckedGo at h
    split at h
    · rename_i hc
      cases h
      cases w
      · simp at hc; omega
      · simp at hc
        obtain ⟨h2, w', hw'⟩ := hs rfl (by omega)
        rw [h2]
        exact .small hw' hd hp
    · cases ho : v.getOffset m w with
      | ok o =>
        simp only [ho, ok_bind] at h
        obtain ⟨ext, off, hpa, rfl, hext⟩ := pointerAt ho hd hp
        split at h
        · rename_i h0
          cases h
          have : off = 0 := by omega
          subst this
          exact .zero hpa
        · simp only [hb, ok_bind] at h
          split at h
          · cases h
          · rename_i hx
            have := hext (low_bit b hp (by simpa using hx))
            subst this
            split at h
            · cases h
              exact .target hpa (by assumption)
            · cases hm : mkSlice m (v.pos - 2 * off) (2 * off) with
              | ok t =>
                obtain ⟨rfl, hin⟩ := mkSlice_ok hm
                simp only [hm, ok_bind] at h
                cases hty : (⟨v.pos - 2 * off, 2 * off⟩ : Val).type m with
                | ok ty =>
                  simp only [hty, ok_bind] at h
                  split at h
                  · rename_i hpt
                    subst hpt
                    refine ih _ _ h hty (by simp; omega) ?_
                    intro _ h4
                    simp only at h4
                    have : off = 1 := by omega
                    subst this
                    refine ⟨rfl, w, ?_⟩
                    simp only
                    rwa [show v.pos - 2 * 1 + 2 = v.pos by omega]
                  · cases h
                | err _ => exact (type_noerr hty).elim
                | _ => simp [hty] at h <;> cases h
              | err _ => exact (mkSlice_noerr hm).elim
              | _ => simp [hm] at h <;> cases h
      | err _ => exact (getOffset_noerr ho).elim
      | _ => simp [ho] at h <;> cases h

/-! ## What the getters cannot do -/

theorem bind_eq_err' {ε α β : Type} {x : Res ε α} {f : α → Res ε β} {e : ε} (h : (x >>= f) = .err e) :
    x = .err e ∨ ∃ a, x = .ok a ∧ f a = .err e := by
  cases x with
  | ok a => exact .inr ⟨a, rfl, h⟩
  | err a => left; cases h; rfl
  | _ => cases h

/-- The computation does not end in an error of its own. -/
def NE {α : Type} (x : R α) : Prop := ∀ e, x ≠ .err e

theorem NE.bind {α β : Type} {x : R α} {f : α → R β} (hx : NE x) (hf : ∀ a, x = .ok a → NE (f a)) : NE (x >>= f) := by
  intro e h
  rcases bind_eq_err' h with h | ⟨a, ha, h⟩
  · exact hx e h
  · exact hf a ha e h

theorem NE.ok {α : Type} {a : α} : NE (.ok a : R α) := by intro e h; cases h
theorem NE.pure {α : Type} {a : α} : NE (Pure.pure a : R α) := by intro e h; cases h
theorem NE.panic {α : Type} : NE (.panic : R α) := by intro e h; cases h
theorem NE.ub {α : Type} : NE (.ub : R α) := by intro e h; cases h
theorem NE.ite {α : Type} {c : Prop} [Decidable c] {x y : R α} (hx : NE x) (hy : NE y) : NE (if c then x else y) := by
  split <;> assumption

theorem ne_byte (v : Val) (i : Nat) : NE (v.byte m i) := fun _ h => byte_noerr h
theorem ne_type (v : Val) : NE (v.type m) := fun _ h => type_noerr h

theorem ne_rawRead (p n : Nat) : NE (rawRead m p n) := .ite .ok .ub
theorem ne_slice (v : Val) (a b : Nat) : NE (v.slice m a b) := .ite (ne_rawRead _ _) .panic
theorem ne_usizeAdd (d : Bool) (a b : Nat) : NE (usizeAdd d a b) := .ite .ok (.ite .panic .ok)
theorem ne_usizeMul (d : Bool) (a b : Nat) : NE (usizeMul d a b) := .ite .ok (.ite .panic .ok)
theorem ne_usizeSub (d : Bool) (a b : Nat) : NE (usizeSub d a b) := .ite .ok (.ite .panic .ok)

theorem ne_readLoop (d : Bool) (bs : List UInt8) (i s r : Nat) : NE (Varint.readLoop d bs i s r) := by
  induction bs generalizing i s r with
  | nil => intro e h; simp [Varint.readLoop] at h
  | cons b bs ih =>
    simp only [Varint.readLoop]
    exact .ite .panic (.ite (ih _ _ _) (.ite .ok .ok))

theorem ne_read (d : Bool) (bs : List UInt8) : NE (Varint.read d bs) := by
  cases bs with
  | nil => intro e h; simp [Varint.read] at h
  | cons b bs =>
    simp only [Varint.read]
    exact .ite .ok (ne_readLoop _ _ _ _ _)

theorem ne_getShort (v : Val) : NE (v.getShort m) := by
  refine .bind (ne_slice _ _ _) fun bs _ => ?_
  split
  · exact .pure
  · exact .panic

theorem ne_getData (v : Val) : NE (v.getData m) := by
  unfold Val.getData
  refine .ite .pure (.bind (ne_byte _ _) fun b _ => .ite (.bind (ne_slice _ _ _) fun r _ => .bind (ne_read _ _) fun p _ => ?_) (ne_slice _ _ _))
  exact .ite .pure (.bind (ne_usizeAdd _ _ _) fun _ _ => ne_slice _ _ _)

theorem ne_requiredSize (v : Val) : NE (v.requiredSize m) := by
  refine .bind (ne_type _) fun t _ => ?_
  cases t
  all_goals first
    | exact .pure
    | exact .bind (ne_byte _ _) fun _ _ => .pure
    | exact .bind (ne_getData _) fun _ _ => .ite .pure (.ite .pure .pure)

theorem ne_isWide (v : Val) : NE (v.isWide m) := .bind (ne_byte _ _) fun _ _ => .pure

theorem ne_firstPos (v : Val) : NE (v.firstPos m) := by
  unfold Val.firstPos
  exact .ite .pure (.bind (ne_getShort _) fun s _ => .ite (.bind (ne_slice _ _ _) fun _ _ => .bind (ne_read _ _) fun _ _ =>
    .ite .pure .pure) .pure)

theorem ne_arrayLen (v : Val) : NE (v.arrayLen m) := by
  unfold Val.arrayLen
  refine .bind (ne_getShort _) fun s _ => .ite (.bind (ne_slice _ _ _) fun _ _ => .bind (ne_read _ _) fun _ _ =>
    .ite .pure (.bind (ne_type _) fun _ _ => .ite (ne_usizeMul _ _ _) .pure)) (.bind (ne_type _) fun _ _ => .ite (ne_usizeMul _ _ _) .pure)

/-! ## Values -/

theorem groups_bound {g : List UInt8} {n : Nat} (h : Groups g n) : n < 2 ^ (7 * g.length) := by
  induction h with
  | last h => simpa using h
  | @more b bs n h t ih =>
    have := b.toNat_lt
    rw [List.length_cons, Nat.mul_add, Nat.pow_add]
    omega

theorem sizeRequired_le {x k : Nat} (hk : 0 < k) (h : x < 2 ^ (7 * k)) : Varint.sizeRequired x ≤ k := by
  unfold Varint.sizeRequired
  split
  · exact hk
  · rename_i h0
    have h0 : x ≠ 0 := by simpa using h0
    have := (Nat.log2_lt h0).mpr h
    omega

/-- The bytes of a string or data that can be read fit. -/
theorem data_fits (hd : m.dbg = true) {v : Val} {d : List UInt8} (hl : 2 ≤ v.len) (h : v.getData m = .ok d) :
    (if d.length ≤ 1 then 2 else if d.length ≤ 14 then 1 + d.length else 1 + Varint.sizeRequired d.length + d.length) ≤ v.len := by
  unfold Val.getData at h
  rw [if_neg (by omega)] at h
  obtain ⟨b, hb, h⟩ := bind_eq_ok.mp h
  dsimp only at h
  split at h
  · obtain ⟨r, hr, h⟩ := bind_eq_ok.mp h
    obtain ⟨⟨k, x⟩, hk, h⟩ := bind_eq_ok.mp h
    dsimp only at h
    split at h
    · cases h; simpa using hl
    · obtain ⟨e, he, h⟩ := bind_eq_ok.mp h
      rw [hd] at he hk
      have := usizeAdd_dbg he; subst this
      unfold Val.slice at h
      split at h
      · rename_i hs
        have hlen := rawRead_length h
        have hlx : d.length = x := by omega
        rw [hlx]
        have hx : Varint.sizeRequired x ≤ k := by
          rcases Varint.groups_or r with ⟨g, n, rest, rfl, hg⟩ | hall
          · by_cases hg10 : g.length ≤ 10
            · rw [Varint.read_groups true hg hg10] at hk
              cases hk
              refine sizeRequired_le (Varint.Groups.pos hg) ?_
              exact Nat.lt_of_le_of_lt (Nat.mod_le _ _) (groups_bound hg)
            · rw [(Varint.read_long hg (by omega) rest).1] at hk
              cases hk
          · rw [Varint.read_all true r hall] at hk
            split at hk
            · cases hk
            · cases hk; omega
        split
        · exact hl
        · split <;> omega
      · cases h
  · unfold Val.slice at h
    split at h
    · rename_i hs
      have hlen := rawRead_length h
      have : (b &&& 0x0F).toNat < 15 := by
        have := byte_and0f b
        omega
      split
      · exact hl
      · split <;> omega
    · cases h

theorem sized_byte (b : UInt8) (t : ValueType) (h : ValueType.fromByte b = t) :
    (t = .int → b.toNat / 8 = 2) ∧ (t = .unsignedInt → b.toNat / 8 = 3) ∧ (t = .float → b.toNat / 4 = 8) ∧
    (t = .double32 → b.toNat / 4 = 9) ∧ (t = .double64 → b.toNat / 8 = 5) ∧ (b &&& 0x07).toNat = b.toNat % 8 := by
  subst h; revert b; exact forall_byte (by decide +kernel)

/-- If a value needs more than there is, then it is one of fixed size. -/
theorem required_fault (hd : m.dbg = true) {v : Val} {t : ValueType} {r : Nat} (hl : 2 ≤ v.len) (ht : v.type m = .ok t)
    (hr : v.requiredSize m = .ok r) (hgt : v.len < r) : ∃ b, m.data[v.pos]? = some b ∧ Sized b t r := by
  obtain ⟨b, hb, hf⟩ := type_ok_iff.mp ht
  refine ⟨b, by simpa using (byte_ok hb).2, ?_⟩
  obtain ⟨h1, h2, h3, h4, h5, h6⟩ := sized_byte b t hf
  unfold Val.requiredSize at hr
  simp only [ht, ok_bind] at hr
  have dat : ∀ d, v.getData m = .ok d → (if d.length ≤ 1 then (Pure.pure 2 : R Nat) else if d.length ≤ 14 then Pure.pure (1 + d.length)
      else Pure.pure (1 + Varint.sizeRequired d.length + d.length)) = .ok r → False := by
    intro d hg hr
    have := data_fits hd hl hg
    split at hr
    · rename_i hc; cases hr; rw [if_pos hc] at this; omega
    · rename_i hc
      rw [if_neg hc] at this
      split at hr
      · rename_i hc; cases hr; rw [if_pos hc] at this; omega
      · rename_i hc; cases hr; rw [if_neg hc] at this; omega
  cases t
  case int => simp only [hb, ok_bind] at hr; cases hr; rw [h6]; exact .int (h1 rfl)
  case unsignedInt => simp only [hb, ok_bind] at hr; cases hr; rw [h6]; exact .unsigned (h2 rfl)
  case float => cases hr; exact .float (h3 rfl)
  case double32 => cases hr; exact .double32 (h4 rfl)
  case double64 => cases hr; exact .double64 (h5 rfl)
  case string => obtain ⟨d, hg, hr⟩ := bind_eq_ok.mp hr; exact (dat d hg hr).elim
  case data => obtain ⟨d, hg, hr⟩ := bind_eq_ok.mp hr; exact (dat d hg hr).elim
  all_goals (cases hr; omega)

/-! ## Collections -/

theorem coll_byte (b : UInt8) (t : ValueType) (h : ValueType.fromByte b = t) (hc : t = .array ∨ t = .dict) :
    b.toNat / 16 = (if t = .dict then 7 else 6) := by
  subst h; revert b; exact forall_byte (by decide +kernel)

theorem wide_byte (b : UInt8) : b.toNat / 8 % 2 = if decide (b &&& 0x08 ≠ 0) = true then 1 else 0 := by
  revert b; exact forall_byte (by decide +kernel)

/-- What the decoder makes of a collection's header. -/
theorem header_says (hd : m.dbg = true) {v : Val} {t : ValueType} {n fp : Nat} {w : Bool} (hv : v.In m) (hl : 2 ≤ v.len)
    (ht : v.type m = .ok t) (hc : t = .array ∨ t = .dict) (hw : v.isWide m = .ok w) (hn : v.arrayLen m = .ok n)
    (hf : v.firstPos m = .ok fp) :
    (n = 0 ∧ fp = 2) ∨ ∃ dict k, Announces m.data v.pos dict w k (v.pos + fp) ∧ n = slots dict (k % 2 ^ 64) := by
  obtain ⟨b0, b1, h0, h1, hb, hs⟩ := getShort_bytes hv hl
  have l0 := b0.toNat_lt; have l1 := b1.toNat_lt
  obtain ⟨b', hb', hty⟩ := type_ok_iff.mp ht
  rw [hb] at hb'; cases hb'
  have kind := coll_byte b0 t hty hc
  have kind' : b0.toNat / 16 = if decide (t = .dict) = true then 7 else 6 := by rw [kind]; simp
  have hwide : w = decide (b0 &&& 0x08 ≠ 0) := by
    unfold Val.isWide at hw; simp only [hb, ok_bind] at hw; cases hw; rfl
  have wide := wide_byte b0
  rw [← hwide] at wide
  have mul : ∀ x : Nat, (if t = .dict then usizeMul m.dbg x 2 else Pure.pure x : R Nat) = .ok n → n = slots (decide (t = .dict)) x := by
    intro x hx
    split at hx
    · rename_i h; rw [hd] at hx; have := usizeMul_dbg hx; simp [slots, h]; omega
    · rename_i h; cases hx; simp [slots, h]
  unfold Val.arrayLen at hn
  unfold Val.firstPos at hf
  rw [if_neg (by omega)] at hf
  simp only [hs, ok_bind, ht, count_field] at hn hf
  split at hn
  · rename_i he
    rw [if_pos he] at hf
    obtain ⟨r, hr, hn⟩ := bind_eq_ok.mp hn
    rw [hr] at hf
    simp only [ok_bind] at hf
    obtain ⟨⟨k, x⟩, hk, hn⟩ := bind_eq_ok.mp hn
    rw [hk] at hf
    simp only [ok_bind] at hf
    dsimp only at hn hf
    rw [hd] at hk
    have hr' : r <+: m.data.drop (v.pos + 2) := by
      unfold Val.slice at hr
      split at hr
      · obtain ⟨_, rfl⟩ := rawRead_ok hr; exact List.take_prefix _ _
      · cases hr
    rcases Varint.groups_or r with ⟨g, num, rest, rfl, hg⟩ | hall
    · by_cases hg10 : g.length ≤ 10
      · rw [Varint.read_groups true hg hg10] at hk
        cases hk
        have := Varint.Groups.pos hg
        rw [if_neg (by omega)] at hn
        refine .inr ⟨decide (t = .dict), num, ?_, mul _ hn⟩
        have hfp : fp = 2 + (g.length + 1) / 2 * 2 := by
          split at hf <;> (cases hf; omega)
        have := Announces.long (dict := decide (t = .dict)) (w := w) h0 h1 kind' wide he ((List.prefix_append g rest).trans hr') hg
        rw [hfp, ← Nat.add_assoc]
        exact this
      · rw [(Varint.read_long hg (by omega) rest).1] at hk
        cases hk
    · rw [Varint.read_all true r hall] at hk
      split at hk
      · cases hk
      · cases hk
        rw [if_pos rfl] at hn
        rw [if_neg (by decide)] at hf
        cases hn; cases hf
        exact .inl ⟨rfl, rfl⟩
  · rename_i he
    rw [if_neg he] at hf
    cases hf
    refine .inr ⟨decide (t = .dict), b0.toNat % 8 * 256 + b1.toNat, .short h0 h1 kind' wide (by omega), ?_⟩
    rw [mul _ hn, Nat.mod_eq_of_lt (a := b0.toNat % 8 * 256 + b1.toNat) (b := 2 ^ 64) (by omega)]

theorem derefCheckedGo_pointer {fuel : Nat} {w : Bool} {v t : Val} (h : derefCheckedGo m fuel w v = .ok t)
    (ht : v.type m = .ok .pointer) : ∃ off, PointerAt m.data w v.pos false off := by
  obtain ⟨b, hb, hdat, hp⟩ := pointer_byte ht
  cases fuel with
  | zero => cases h
  | succ f =>
    unfold derefCheckedGo at h
    split at h
    · cases h
    · obtain ⟨o, ho, h⟩ := bind_eq_ok.mp h
      obtain ⟨ext, off, hpa, rfl, hext⟩ := pointerAt ho hdat hp
      split at h
      · cases h
      · simp only [hb, ok_bind] at h
        split at h
        · cases h
        · rename_i hx
          have := hext (low_bit b hp (by simpa using hx))
          subst this
          exact ⟨off, hpa⟩

theorem fromRaw_fault (hd : m.dbg = true) {p : Nat} {w : Bool} {e : DecodeError} (h : fromRaw m p (wof w) = .err e) :
    Fault m.data m.base e := by
  unfold fromRaw at h
  rcases bind_eq_err' h with h | ⟨t, ht, h⟩
  · exact (mkSlice_noerr h).elim
  · obtain ⟨rfl, hin⟩ := mkSlice_ok ht
    have hw2 : 2 ≤ wof w := by unfold wof; split <;> omega
    rw [if_neg (by simp only; omega)] at h
    rcases bind_eq_err' h with h | ⟨r, hr, h⟩
    · exact (ne_requiredSize _ _ h).elim
    · split at h
      · rename_i hgt
        rcases bind_eq_err' h with h | ⟨ty, hty, h⟩
        · exact (type_noerr h).elim
        · cases h
          obtain ⟨b, hb, hs⟩ := required_fault hd (by simpa using hw2) hty hr hgt
          have := Fault.value (base := m.base) hb hs (.slot (w := w) (by simpa [Val.In, wof_width] using hin)) (by omega)
            (show p + width w < p + r by rw [← wof_width]; omega)
          simpa [wof_width] using this
      · cases h

theorem validateElems_fault {rec : Val → Nat → R Unit} {k : Nat} {e : DecodeError} (P : DecodeError → Prop)
    (hraw : ∀ p e, fromRaw m p k = .err e → P e)
    (hrec : ∀ x : Val, x.In m → x.len = k → ∀ e, rec x (x.pos + k) = .err e → P e) :
    ∀ (n cur : Nat), validateElems m rec k n cur = .err e → P e := by
  intro n
  induction n with
  | zero => intro cur h; cases h
  | succ n ih =>
    intro cur h
    unfold validateElems at h
    rcases bind_eq_err' h with h | ⟨x, hx, h⟩
    · exact hraw _ _ h
    · obtain ⟨rfl, hin, _⟩ := fromRaw_ok hx
      rcases bind_eq_err' h with h | ⟨_, _, h⟩
      · exact hrec ⟨cur, k⟩ hin rfl _ h
      · exact ih _ h

theorem validateGo_fault (hd : m.dbg = true) (fuel : Nat) (isArr w : Bool) (v : Val) (de : Nat) (e : DecodeError)
    (hv : v.In m) (hl : 2 ≤ v.len) (hle : v.pos + v.len ≤ de) (edge : Edge m.data v.pos de)
    (hp : v.type m = .ok .pointer → v.len = wof w)
    (h : validateGo m fuel isArr w v de = .err e) : Fault m.data m.base e := by
  induction fuel generalizing isArr w v de e with
  | zero => cases h
  | succ f ih =>
    unfold validateGo at h
    rcases bind_eq_err' h with h | ⟨t, ht, h⟩
    · exact (type_noerr h).elim
    have scalar : (if isArr then Pure.pure () else do
        let r ← v.requiredSize m
        if m.base + v.pos + r ≤ m.base + de then Pure.pure ()
        else do
          let t ← v.type m
          let avail ← usizeSub m.dbg (m.base + de) (m.base + v.pos)
          .err (.valueOutOfBounds t r avail) : R Unit) = .err e → Fault m.data m.base e := by
      intro h
      split at h
      · cases h
      · rcases bind_eq_err' h with h | ⟨r, hr, h⟩
        · exact (ne_requiredSize _ _ h).elim
        · split at h
          · cases h
          · simp only [ht, ok_bind] at h
            rcases bind_eq_err' h with h | ⟨a, ha, h⟩
            · exact (ne_usizeSub _ _ _ _ h).elim
            · cases h
              obtain ⟨b, hb, hs⟩ := required_fault hd hl ht hr (by omega)
              unfold usizeSub at ha
              rw [if_pos (by omega)] at ha
              cases ha
              rw [show m.base + de - (m.base + v.pos) = de - v.pos by omega]
              exact .value hb hs edge (by omega) (by omega)
    have arr : t = .array ∨ t = .dict → arrayValidate m (fun w => validateGo m f true w) v de = .err e → Fault m.data m.base e := by
      intro hc h
      unfold arrayValidate at h
      rcases bind_eq_err' h with h | ⟨w, hw, h⟩
      · exact (ne_isWide _ _ h).elim
      dsimp only at h
      change (do
        let elemCount ← v.arrayLen m
        let fp ← v.firstPos m
        let bytes ← usizeMul m.dbg elemCount (wof w)
        let e ← usizeAdd m.dbg (m.base + (v.pos + fp)) bytes
        if e > m.base + de then do
          let avail ← usizeSub m.dbg (m.base + de) (m.base + (v.pos + fp))
          Res.err (DecodeError.arrayOutOfBounds elemCount (wof w) avail)
        else validateElems m (validateGo m f true w) (wof w) elemCount (v.pos + fp)) = _ at h
      rcases bind_eq_err' h with h | ⟨n, hn, h⟩
      · exact (ne_arrayLen _ _ h).elim
      rcases bind_eq_err' h with h | ⟨fp, hf, h⟩
      · exact (ne_firstPos _ _ h).elim
      rcases bind_eq_err' h with h | ⟨bytes, hby, h⟩
      · exact (ne_usizeMul _ _ _ _ h).elim
      rcases bind_eq_err' h with h | ⟨s, hs, h⟩
      · exact (ne_usizeAdd _ _ _ _ h).elim
      rw [hd] at hby hs
      have := usizeMul_dbg hby
      have := usizeAdd_dbg hs
      subst bytes; subst s
      split at h
      · rename_i hgt
        rcases bind_eq_err' h with h | ⟨a, ha, h⟩
        · exact (ne_usizeSub _ _ _ _ h).elim
        · cases h
          have hfe : v.pos + fp ≤ de ∧ a = de - (v.pos + fp) := by
            unfold usizeSub at ha
            split at ha
            · cases ha; omega
            · simp_all
          obtain ⟨hfe, rfl⟩ := hfe
          rcases header_says hd hv hl ht hc hw hn hf with ⟨rfl, rfl⟩ | ⟨dict, k, hk, rfl⟩
          · omega
          · exact .array hk edge hfe (by rw [← wof_width]; omega)
      · refine validateElems_fault (Fault m.data m.base) (fun p e h => fromRaw_fault hd (w := w) h) ?_ n _ h
        intro x hin hxl e h
        refine ih true w x (x.pos + wof w) e hin ?_ (by omega) ?_ (fun _ => hxl) h
        · rw [hxl]; unfold wof; split <;> omega
        · unfold Val.In at hin
          rw [hxl] at hin
          exact .slot (w := w) hin
    have ptr : t = .pointer → (do
        let target ← derefChecked m w v
        validateGo m f false w target v.pos : R Unit) = .err e → Fault m.data m.base e := by
      intro htp h
      subst htp
      have hlen := hp ht
      rcases bind_eq_err' h with h | ⟨x, hx, h⟩
      · refine derefCheckedGo_fault _ w v e h ht hl ?_
        intro hw h4
        subst hw
        rw [hlen] at h4
        simp [wof] at h4
      · obtain ⟨hin, hbef, hl2, _, ty, hty, hne⟩ := derefChecked_ok hx
        obtain ⟨off, hpa⟩ := derefCheckedGo_pointer hx ht
        refine ih false w x v.pos e hin hl2 hbef (.pointer (by omega) hpa) ?_ h
        intro hpt
        rw [hty] at hpt; cases hpt; exact absurd rfl hne
    cases t
    case array => exact arr (.inl rfl) h
    case dict => exact arr (.inr rfl) h
    case pointer => exact ptr rfl h
    all_goals exact scalar h

theorem findRoot_fault {e : DecodeError} (h : findRoot m = .err e) : Fault m.data m.base e := by
  unfold findRoot at h
  dsimp only at h
  split at h
  · cases h; exact .sized (by omega)
  · rcases bind_eq_err' h with h | ⟨t, ht, h⟩
    · exact (type_noerr h).elim
    · split at h
      · rename_i hp
        subst hp
        exact derefCheckedGo_fault _ _ _ _ h ht (by simp) (by simp)
      · rename_i hp
        split at h
        · cases h
        · cases h
          obtain ⟨b, hb, hf⟩ := type_ok_iff.mp ht
          have h1 := (byte_ok hb).2
          refine .root (b := b) (by omega) (by simpa using h1) ?_
          exact Nat.lt_of_not_le fun h => hp (hf ▸ (fromByte_ptr b).mpr h)

theorem fromBytesGo_fault (hd : m.dbg = true) {fuel : Nat} {e : DecodeError} (h : fromBytesGo m fuel = .err e) :
    Fault m.data m.base e := by
  unfold fromBytesGo at h
  rcases bind_eq_err' h with h | ⟨v, hv, h⟩
  · exact findRoot_fault h
  · obtain ⟨hin, _, hl, _, t, ht, hne⟩ := findRoot_ok hv
    rcases bind_eq_err' h with h | ⟨_, _, h⟩
    · refine validateGo_fault hd fuel false false v _ e hin hl hin .all ?_ h
      intro hp; rw [ht] at hp; cases hp; exact absurd rfl hne
    · cases h

/-! ## Errors that come from elsewhere -/

/-- The errors that validation and pointers have. -/
def Inner : DecodeError → Prop
  | .inputIncorrectlySized | .rootNotPointer | .isNotArray | .isNotDict => False
  | _ => True

theorem derefCheckedGo_inner (fuel : Nat) (w : Bool) (v : Val) (e : DecodeError) (h : derefCheckedGo m fuel w v = .err e) : Inner e := by
  induction fuel generalizing w v with
  | zero => cases h
  | succ f ih =>
    unfold derefCheckedGo at h
    split at h
    · cases h; trivial
    · rcases bind_eq_err' h with h | ⟨o, _, h⟩
      · exact (getOffset_noerr h).elim
      · split at h
        · cases h; trivial
        · rcases bind_eq_err' h with h | ⟨b, _, h⟩
          · exact (byte_noerr h).elim
          · split at h
            · cases h
            · split at h
              · cases h; trivial
              · rcases bind_eq_err' h with h | ⟨x, _, h⟩
                · exact (mkSlice_noerr h).elim
                · rcases bind_eq_err' h with h | ⟨t, _, h⟩
                  · exact (type_noerr h).elim
                  · split at h
                    · exact ih _ _ h
                    · cases h

theorem fromRaw_inner {p k : Nat} {e : DecodeError} (h : fromRaw m p k = .err e) : Inner e := by
  unfold fromRaw at h
  rcases bind_eq_err' h with h | ⟨t, _, h⟩
  · exact (mkSlice_noerr h).elim
  · split at h
    · rcases bind_eq_err' h with h | ⟨_, _, h⟩
      · exact (type_noerr h).elim
      · rcases bind_eq_err' h with h | ⟨_, _, h⟩
        · exact (ne_requiredSize _ _ h).elim
        · cases h; trivial
    · rcases bind_eq_err' h with h | ⟨_, _, h⟩
      · exact (ne_requiredSize _ _ h).elim
      · split at h
        · rcases bind_eq_err' h with h | ⟨_, _, h⟩
          · exact (type_noerr h).elim
          · cases h; trivial
        · cases h

theorem validateGo_inner (fuel : Nat) (isArr w : Bool) (v : Val) (de : Nat) (e : DecodeError)
    (h : validateGo m fuel isArr w v de = .err e) : Inner e := by
  induction fuel generalizing isArr w v de e with
  | zero => cases h
  | succ f ih =>
    unfold validateGo at h
    rcases bind_eq_err' h with h | ⟨t, _, h⟩
    · exact (type_noerr h).elim
    have scalar : (if isArr then Pure.pure () else do
        let r ← v.requiredSize m
        if m.base + v.pos + r ≤ m.base + de then Pure.pure ()
        else do
          let t ← v.type m
          let avail ← usizeSub m.dbg (m.base + de) (m.base + v.pos)
          .err (.valueOutOfBounds t r avail) : R Unit) = .err e → Inner e := by
      intro h
      split at h
      · cases h
      · rcases bind_eq_err' h with h | ⟨r, _, h⟩
        · exact (ne_requiredSize _ _ h).elim
        · split at h
          · cases h
          · rcases bind_eq_err' h with h | ⟨a, _, h⟩
            · exact (type_noerr h).elim
            · rcases bind_eq_err' h with h | ⟨a, _, h⟩
              · exact (ne_usizeSub _ _ _ _ h).elim
              · cases h; trivial
    have arr : arrayValidate m (fun w => validateGo m f true w) v de = .err e → Inner e := by
      intro h
      unfold arrayValidate at h
      rcases bind_eq_err' h with h | ⟨w, _, h⟩
      · exact (ne_isWide _ _ h).elim
      dsimp only at h
      change (do
        let elemCount ← v.arrayLen m
        let fp ← v.firstPos m
        let bytes ← usizeMul m.dbg elemCount (wof w)
        let e ← usizeAdd m.dbg (m.base + (v.pos + fp)) bytes
        if e > m.base + de then do
          let avail ← usizeSub m.dbg (m.base + de) (m.base + (v.pos + fp))
          Res.err (DecodeError.arrayOutOfBounds elemCount (wof w) avail)
        else validateElems m (validateGo m f true w) (wof w) elemCount (v.pos + fp)) = _ at h
      rcases bind_eq_err' h with h | ⟨n, _, h⟩
      · exact (ne_arrayLen _ _ h).elim
      rcases bind_eq_err' h with h | ⟨fp, _, h⟩
      · exact (ne_firstPos _ _ h).elim
      rcases bind_eq_err' h with h | ⟨bytes, _, h⟩
      · exact (ne_usizeMul _ _ _ _ h).elim
      rcases bind_eq_err' h with h | ⟨s, _, h⟩
      · exact (ne_usizeAdd _ _ _ _ h).elim
      split at h
      · rcases bind_eq_err' h with h | ⟨a, _, h⟩
        · exact (ne_usizeSub _ _ _ _ h).elim
        · cases h; trivial
      · exact validateElems_fault Inner (fun p e h => fromRaw_inner h) (fun x _ _ e h => ih true w x _ e h) n _ h
    have ptr : (do
        let target ← derefChecked m w v
        validateGo m f false w target v.pos : R Unit) = .err e → Inner e := by
      intro h
      rcases bind_eq_err' h with h | ⟨x, _, h⟩
      · exact derefCheckedGo_inner _ _ _ _ h
      · exact ih _ _ _ _ _ h
    cases t
    case array => exact arr h
    case dict => exact arr h
    case pointer => exact ptr h
    all_goals exact scalar h

/-- An error of `from_bytes` is one of these, or one about the ends of the document. -/
theorem fromBytesGo_outer {fuel : Nat} {e : DecodeError} (h : fromBytesGo m fuel = .err e) :
    Inner e ∨ (e = .inputIncorrectlySized ∨ e = .rootNotPointer) ∧ Fault m.data m.base e := by
  unfold fromBytesGo at h
  rcases bind_eq_err' h with h | ⟨v, _, h⟩
  · have hf := findRoot_fault h
    unfold findRoot at h
    dsimp only at h
    split at h
    · cases h; exact .inr ⟨.inl rfl, hf⟩
    · rcases bind_eq_err' h with h | ⟨t, _, h⟩
      · exact (type_noerr h).elim
      · split at h
        · exact .inl (derefCheckedGo_inner _ _ _ _ h)
        · split at h
          · cases h
          · cases h; exact .inr ⟨.inr rfl, hf⟩
  · rcases bind_eq_err' h with h | ⟨_, _, h⟩
    · exact .inl (validateGo_inner _ _ _ _ _ _ h)
    · cases h

/-! ## Numbers are read in one way only -/

theorem groups_unique {g g' l : List UInt8} {n n' : Nat} (h : Groups g n) (h' : Groups g' n') (hp : g <+: l) (hp' : g' <+: l) :
    g = g' ∧ n = n' := by
  induction h generalizing g' l n' with
  | @last b h =>
    cases h' with
    | @last b' _ =>
      obtain ⟨t, rfl⟩ := hp; obtain ⟨t', ht'⟩ := hp'
      simp at ht'; obtain ⟨rfl, _⟩ := ht'; exact ⟨rfl, rfl⟩
    | @more b' bs' k' h' t' =>
      obtain ⟨t, rfl⟩ := hp; obtain ⟨t', ht'⟩ := hp'
      simp at ht'; obtain ⟨rfl, _⟩ := ht'; omega
  | @more b bs k h t ih =>
    cases h' with
    | @last b' h' =>
      obtain ⟨t, rfl⟩ := hp; obtain ⟨t', ht'⟩ := hp'
      simp at ht'; obtain ⟨rfl, _⟩ := ht'; omega
    | @more b' bs' k' h' t' =>
      obtain ⟨r, rfl⟩ := hp; obtain ⟨r', hr'⟩ := hp'
      simp at hr'; obtain ⟨rfl, hr'⟩ := hr'
      obtain ⟨rfl, rfl⟩ := ih t' (List.prefix_append bs r) ⟨r', hr'⟩
      exact ⟨rfl, rfl⟩

end Fleece.Fault
