import Verif.Proofs.Reader

/-!
# Locality

The functions that do not follow pointers depend only on the bytes of the slice they are given: equal bytes
at another position, in another buffer, at another address give the same answer.
-/

namespace Fleece
open Res

/-- `v` in `m` and `v'` in `m'` are in-bounds slices with the same bytes, read in the same profile. -/
structure Same (m : Mem) (v : Val) (m' : Mem) (v' : Val) : Prop where
  inl : v.In m
  inr : v'.In m'
  len : v'.len = v.len
  bytes : ∀ i, i < v.len → m'.data[v'.pos + i]? = m.data[v.pos + i]?
  dbg : m'.dbg = m.dbg

theorem Same.symm {m m' : Mem} {v v' : Val} (h : Same m v m' v') : Same m' v' m v :=
  ⟨h.inr, h.inl, h.len.symm, fun i hi => (h.bytes i (h.len ▸ hi)).symm, h.dbg.symm⟩

section
variable {m m' : Mem} {v v' : Val} (h : Same m v m' v')
include h

theorem Same.byte (i : Nat) : v'.byte m' i = v.byte m i := by
  unfold Val.byte
  rw [h.len]
  by_cases hi : i < v.len
  · rw [if_pos hi, if_pos hi, h.bytes i hi]
  · rw [if_neg hi, if_neg hi]

theorem Same.rawRead (a n : Nat) (hn : a + n ≤ v.len) :
    rawRead m' (v'.pos + a) n = rawRead m (v.pos + a) n := by
  have h1 := h.inl; have h2 := h.inr; have hl := h.len
  unfold Val.In at h1 h2
  rw [rawRead_eq (by omega), rawRead_eq (by omega)]
  congr 1
  apply List.ext_getElem?
  intro i
  by_cases hi : i < n
  · rw [List.getElem?_take_of_lt hi, List.getElem?_take_of_lt hi, List.getElem?_drop, List.getElem?_drop,
      Nat.add_assoc, Nat.add_assoc, h.bytes (a + i) (by omega)]
  · rw [List.getElem?_eq_none (by simp; omega), List.getElem?_eq_none (by simp; omega)]

theorem Same.slice (a b : Nat) : v'.slice m' a b = v.slice m a b := by
  unfold Val.slice
  rw [h.len]
  by_cases hc : a ≤ b ∧ b ≤ v.len
  · rw [if_pos hc, if_pos hc, h.rawRead a (b - a) (by omega)]
  · rw [if_neg hc, if_neg hc]

theorem Same.type : v'.type m' = v.type m := by
  unfold Val.type; rw [h.byte]

theorem Same.getShort : v'.getShort m' = v.getShort m := by
  unfold Val.getShort; rw [h.slice]

theorem Same.getData : v'.getData m' = v.getData m := by
  unfold Val.getData
  simp only [h.len, h.byte, h.slice, h.dbg]

theorem Same.requiredSize : v'.requiredSize m' = v.requiredSize m := by
  unfold Val.requiredSize
  simp only [h.type, h.byte, h.getData]

theorem Same.isWide : v'.isWide m' = v.isWide m := by
  unfold Val.isWide; rw [h.byte]

theorem Same.width : v'.width m' = v.width m := by
  unfold Val.width; rw [h.isWide]

theorem Same.firstPos : v'.firstPos m' = v.firstPos m := by
  unfold Val.firstPos
  simp only [h.len, h.getShort, h.slice, h.dbg]

theorem Same.arrayLen : v'.arrayLen m' = v.arrayLen m := by
  unfold Val.arrayLen
  simp only [h.len, h.getShort, h.slice, h.dbg, h.type]

theorem Same.toStr : v'.toStr m' = v.toStr m := by
  unfold Val.toStr; simp only [h.type, h.getData]

theorem Same.toData : v'.toData m' = v.toData m := by
  unfold Val.toData; simp only [h.type, h.getData]

theorem Same.floatBits (F : FloatOps) (d : Bool) : v'.floatBits m' F d = v.floatBits m F d := by
  unfold Val.floatBits; simp only [h.slice]

theorem Same.shortInt : v'.shortInt m' = v.shortInt m := by
  unfold Val.shortInt; simp only [h.getShort]

theorem Same.getOffset (wide : Bool) (hl : (if wide then 4 else 2) ≤ v.len) :
    v'.getOffset m' wide = v.getOffset m wide := by
  unfold Val.getOffset
  have := h.rawRead 0 4
  have := h.rawRead 0 2
  cases wide <;> simp_all

end

/-- Shifting a value. -/
def Val.shift (k : Nat) (v : Val) : Val := ⟨k + v.pos, v.len⟩

@[simp] theorem Val.shift_pos (k : Nat) (v : Val) : (v.shift k).pos = k + v.pos := rfl
@[simp] theorem Val.shift_len (k : Nat) (v : Val) : (v.shift k).len = v.len := rfl

/-- `m'` holds the bytes of `m` at distance `k` (and perhaps more around them). -/
structure Embeds (m : Mem) (k : Nat) (m' : Mem) : Prop where
  len : k + m.data.length ≤ m'.data.length
  bytes : ∀ i, i < m.data.length → m'.data[k + i]? = m.data[i]?
  dbg : m'.dbg = m.dbg

theorem Embeds.same {m m' : Mem} {k : Nat} (h : Embeds m k m') {v : Val} (hv : v.In m) :
    Same m v m' (v.shift k) where
  inl := hv
  inr := by have := h.len; unfold Val.In at *; simp; omega
  len := rfl
  bytes := fun i hi => by
    unfold Val.In at hv
    simp only [Val.shift_pos, Nat.add_assoc]
    exact h.bytes (v.pos + i) (by omega)
  dbg := h.dbg

theorem Embeds.mkSlice {m m' : Mem} {k p l : Nat} (h : Embeds m k m') {v : Val}
    (hs : mkSlice m p l = .ok v) : mkSlice m' (k + p) l = .ok (v.shift k) := by
  obtain ⟨rfl, hin⟩ := mkSlice_ok hs
  have := h.len
  unfold Val.In at hin
  simp at hin
  rw [mkSlice_eq (by omega)]; rfl

theorem Embeds.fromRaw {m m' : Mem} {k p w : Nat} (h : Embeds m k m') {v : Val}
    (hs : fromRaw m p w = .ok v) : fromRaw m' (k + p) w = .ok (v.shift k) := by
  obtain ⟨rfl, hin, hw, r, hr, hrw⟩ := fromRaw_ok hs
  have hsame := h.same hin
  have hl := h.len
  unfold Val.In at hin
  simp at hin
  unfold Fleece.fromRaw
  rw [mkSlice_eq (by omega)]
  have : (⟨k + p, w⟩ : Val) = (⟨p, w⟩ : Val).shift k := rfl
  simp only [ok_bind, this, hsame.requiredSize, hr]
  rw [if_neg (by simp; omega), if_neg (by omega)]
  rfl

theorem derefCheckedGo_shift {m m' : Mem} {k : Nat} (h : Embeds m k m') (f g : Nat) (wide : Bool) (v t : Val)
    (hv : v.In m) (hd : derefCheckedGo m f wide v = .ok t) (hfg : f ≤ g) :
    derefCheckedGo m' g wide (v.shift k) = .ok (t.shift k) := by
  induction f generalizing g wide v with
  | zero => cases hd
  | succ f ih =>
    obtain ⟨g, rfl⟩ : ∃ g', g = g' + 1 := ⟨g - 1, by omega⟩
    have hs := h.same hv
    unfold derefCheckedGo at hd
    split at hd
    · cases hd
    · rename_i hlen
      rw [bind_eq_ok] at hd
      obtain ⟨off, hoff, hd⟩ := hd
      split at hd
      · cases hd
      · rename_i h0
        rw [bind_eq_ok] at hd
        obtain ⟨b, hb, hd⟩ := hd
        split at hd
        · cases hd
        · rename_i hb40
          split at hd
          · cases hd
          · rename_i hp
            rw [bind_eq_ok] at hd
            obtain ⟨x, hx, hd⟩ := hd
            rw [bind_eq_ok] at hd
            obtain ⟨ty, hty, hd⟩ := hd
            have hxin := (mkSlice_ok hx).2
            unfold derefCheckedGo
            rw [if_neg (by simp only [Val.shift_len]; exact hlen)]
            have ho : (v.shift k).getOffset m' wide = .ok off := by
              rw [hs.getOffset wide (by cases wide <;> simp_all)]; exact hoff
            rw [ho]
            simp only [ok_bind, h0, if_false, hs.byte, hb]
            rw [if_neg hb40, if_neg (by simp; omega)]
            have : (v.shift k).pos - off = k + (v.pos - off) := by simp; omega
            rw [this, h.mkSlice hx]
            simp only [ok_bind, (h.same hxin).type, hty]
            split at hd
            · rw [if_pos (by assumption)]
              exact ih _ _ _ hxin hd (by omega)
            · rw [if_neg (by assumption)]
              cases hd; rfl

theorem derefChecked_shift {m m' : Mem} {k : Nat} (h : Embeds m k m') (wide : Bool) (v t : Val)
    (hv : v.In m) (hd : derefChecked m wide v = .ok t) :
    derefChecked m' wide (v.shift k) = .ok (t.shift k) :=
  derefCheckedGo_shift h _ _ wide v t hv hd (by simp)

/-- Success of validation carries over to a buffer that embeds the document, in the checked profile. -/
theorem validateGo_shift {m m' : Mem} {k : Nat} (h : Embeds m k m') (hdbg : m.dbg = true)
    (hb' : m'.base + m'.data.length < 2 ^ 64)
    (f g : Nat) (a w : Bool) (v : Val) (de : Nat) (hv : v.In m) (hde : de ≤ m.data.length)
    (hok : validateGo m f a w v de = .ok ()) (hfg : f ≤ g) :
    validateGo m' g a w (v.shift k) (k + de) = .ok () := by
  induction f generalizing g a w v de with
  | zero => cases hok
  | succ f ih =>
    obtain ⟨g, rfl⟩ : ∃ g', g = g' + 1 := ⟨g - 1, by omega⟩
    have hs := h.same hv
    have hml := h.len
    unfold validateGo at hok ⊢
    rw [bind_eq_ok] at hok
    obtain ⟨t, ht, hok⟩ := hok
    rw [hs.type, ht]
    simp only [ok_bind]
    have arr : arrayValidate m (fun w => validateGo m f true w) v de = .ok () →
        arrayValidate m' (fun w => validateGo m' g true w) (v.shift k) (k + de) = .ok () := by
      intro hok
      obtain ⟨wd, n, fp, hwd, hn, hfp, hmul, _, hle, hok⟩ := arrayValidate_ok hdbg hok
      have elems : ∀ n cur, cur + n * wof wd ≤ de →
          validateElems m (validateGo m f true wd) (wof wd) n cur = .ok () →
          validateElems m' (validateGo m' g true wd) (wof wd) n (k + cur) = .ok () := by
        intro n
        induction n with
        | zero => intros; rfl
        | succ n ihn =>
          intro cur hle hok
          unfold validateElems at hok ⊢
          rw [bind_eq_ok] at hok; obtain ⟨x, hx, hok⟩ := hok
          rw [bind_eq_ok] at hok; obtain ⟨u, hu, hok⟩ := hok
          rw [h.fromRaw hx]
          obtain ⟨rfl, hin, hw2, _⟩ := fromRaw_ok hx
          rw [Nat.add_mul, Nat.one_mul] at hle
          simp only [ok_bind]
          have := ih g true wd _ (cur + wof wd) hin (by omega) hu (by omega)
          rw [Nat.add_assoc, this]
          simp only [ok_bind]
          exact ihn (cur + wof wd) (by omega) hok
      apply arrayValidate_intro (w := wd) (n := n) (fp := fp)
      · rw [hs.isWide, hwd]
      · rw [hs.arrayLen, hn]
      · rw [hs.firstPos, hfp]
      · exact hmul
      · simp only [Val.shift_pos]; omega
      · simp only [Val.shift_pos]; omega
      · have := elems n (v.pos + fp) hle hok
        simpa only [Val.shift_pos, Nat.add_assoc] using this
    cases t
    case array => exact arr hok
    case dict => exact arr hok
    case pointer =>
      simp only at hok ⊢
      rw [bind_eq_ok] at hok; obtain ⟨tg, htg, hok⟩ := hok
      rw [derefChecked_shift h w v tg hv htg]
      simp only [ok_bind]
      obtain ⟨hin, _⟩ := derefChecked_ok htg
      exact ih g false w tg v.pos hin (by unfold Val.In at hv; omega) hok (by omega)
    all_goals
      simp only at hok ⊢
      by_cases ha : a = true
      · simp [ha]
      · simp only [ha, if_false, hs.requiredSize, Bool.false_eq_true] at hok ⊢
        rw [bind_eq_ok] at hok; obtain ⟨r, hr, hok⟩ := hok
        rw [hr]
        simp only [ok_bind]
        split at hok
        · rw [if_pos (by simp only [Val.shift_pos]; omega)]; rfl
        · rw [bind_eq_ok] at hok; obtain ⟨t, _, hok⟩ := hok
          rw [bind_eq_ok] at hok; obtain ⟨_, _, hok⟩ := hok; cases hok

theorem findRoot_shift {m m' : Mem} {k : Nat} (h : Embeds m k m') (hlen : m'.data.length = k + m.data.length)
    (hk : k % 2 = 0) (h2 : k = 0 ∨ 2 < m.data.length) (v : Val) (hf : findRoot m = .ok v) :
    findRoot m' = .ok (v.shift k) := by
  unfold findRoot at hf ⊢
  dsimp only at hf ⊢
  split at hf
  · cases hf
  · rename_i hn
    rw [if_neg (by omega)]
    rw [bind_eq_ok] at hf
    obtain ⟨t, ht, hf⟩ := hf
    have hin : (⟨m.data.length - 2, 2⟩ : Val).In m := by unfold Val.In; simp; omega
    have hsh : (⟨m'.data.length - 2, 2⟩ : Val) = (⟨m.data.length - 2, 2⟩ : Val).shift k := by
      simp [Val.shift]; omega
    rw [hsh, (h.same hin).type, ht]
    simp only [ok_bind]
    split at hf
    · rw [if_pos (by assumption)]
      exact derefChecked_shift h _ _ _ hin hf
    · rw [if_neg (by assumption)]
      split at hf
      · rcases h2 with rfl | h2
        · rw [if_pos (by omega)]; cases hf; rfl
        · omega
      · cases hf

theorem fromBytesGo_shift {m m' : Mem} {k : Nat} (h : Embeds m k m') (hlen : m'.data.length = k + m.data.length)
    (hdbg : m.dbg = true) (hb' : m'.base + m'.data.length < 2 ^ 64)
    (hk : k % 2 = 0) (h2 : k = 0 ∨ 2 < m.data.length) (f g : Nat) (hfg : f ≤ g) (v : Val)
    (hok : fromBytesGo m f = .ok v) : fromBytesGo m' g = .ok (v.shift k) := by
  unfold fromBytesGo at hok ⊢
  rw [bind_eq_ok] at hok; obtain ⟨r, hr, hok⟩ := hok
  rw [bind_eq_ok] at hok; obtain ⟨u, hu, hok⟩ := hok
  cases hok
  rw [findRoot_shift h hlen hk h2 _ hr]
  simp only [ok_bind]
  obtain ⟨hin, _⟩ := findRoot_ok hr
  rw [hlen, validateGo_shift h hdbg hb' f g _ _ _ _ hin (Nat.le_refl _) hu hfg]
  rfl

end Fleece
