import Verif.Proofs.Profile

/-!
# What validation establishes

`DeepOK m v`: `v` is in bounds, and if it is a collection all its slots are, every slot resolves to a value, and
those values are `DeepOK` again. Being an inductive predicate it also says that the document is a finite tree.
-/

namespace Fleece
open Res

/-- Element slot `i` of a collection whose first element is at `first`. -/
def slotAt (first w i : Nat) : Val := ⟨first + i * w, w⟩

/-- Follow a slot if it is a pointer. -/
def resolve (m : Mem) (wide : Bool) (s : Val) : R Val := do
  let t ← s.type m
  if t = .pointer then derefUnchecked m wide s else pure s

/-- See the module comment. -/
inductive DeepOK (m : Mem) : Val → Prop where
  | scalar {v : Val} {t : ValueType} {r : Nat} (hin : v.In m) (len : 2 ≤ v.len) (ty : v.type m = .ok t)
      (na : t ≠ .array) (nd : t ≠ .dict) (np : t ≠ .pointer) (req : v.requiredSize m = .ok r)
      (fits : v.pos + r ≤ m.data.length) : DeepOK m v
  | coll {v : Val} {t : ValueType} {w : Bool} {n fp : Nat} (hin : v.In m) (ty : v.type m = .ok t)
      (ad : t = .array ∨ t = .dict) (wide : v.isWide m = .ok w) (len : v.arrayLen m = .ok n)
      (first : v.firstPos m = .ok fp) (small : fp + n * wof w < 2 ^ 64)
      (fits : v.pos + fp + n * wof w ≤ m.data.length)
      (slots : ∀ i, i < n → ∃ e, resolve m w (slotAt (v.pos + fp) (wof w) i) = .ok e)
      (elems : ∀ i e, i < n → resolve m w (slotAt (v.pos + fp) (wof w) i) = .ok e → DeepOK m e) : DeepOK m v

theorem DeepOK.inb {m : Mem} {v : Val} (h : DeepOK m v) : v.In m := by
  cases h <;> assumption

theorem DeepOK.len2 {m : Mem} {v : Val} (h : DeepOK m v) : 2 ≤ v.len := by
  cases h with
  | scalar _ len => exact len
  | coll _ _ _ _ len => exact arrayLen_ok_len len

theorem DeepOK.not_pointer {m : Mem} {v : Val} (h : DeepOK m v) : ∃ t, v.type m = .ok t ∧ t ≠ .pointer := by
  cases h with
  | scalar _ _ ty _ _ np => exact ⟨_, ty, np⟩
  | coll _ ty ad => exact ⟨_, ty, by rcases ad with rfl | rfl <;> simp⟩

theorem resolve_of_not_pointer {m : Mem} {v : Val} {t : ValueType} (w : Bool) (ht : v.type m = .ok t)
    (hp : t ≠ .pointer) : resolve m w v = .ok v := by
  simp [resolve, ht, hp]

theorem validateElems_ok {m : Mem} {rec : Val → Nat → R Unit} {w n cur : Nat}
    (h : validateElems m rec w n cur = .ok ()) (i : Nat) (hi : i < n) :
    ∃ e, fromRaw m (cur + i * w) w = .ok e ∧ rec e (cur + i * w + w) = .ok () := by
  induction n generalizing cur i with
  | zero => omega
  | succ n ih =>
    unfold validateElems at h
    rw [bind_eq_ok] at h; obtain ⟨x, hx, h⟩ := h
    rw [bind_eq_ok] at h; obtain ⟨u, hu, h⟩ := h
    cases i with
    | zero => exact ⟨x, by simpa using hx, by simpa using hu⟩
    | succ i =>
      obtain ⟨e, h1, h2⟩ := ih h i (by omega)
      have : cur + w + i * w = cur + (i + 1) * w := by rw [Nat.add_mul]; omega
      rw [this] at h1 h2
      exact ⟨e, h1, h2⟩

theorem validateElems_intro {m : Mem} {rec : Val → Nat → R Unit} {w n cur : Nat}
    (h : ∀ i, i < n → ∃ e, fromRaw m (cur + i * w) w = .ok e ∧ rec e (cur + i * w + w) = .ok ()) :
    validateElems m rec w n cur = .ok () := by
  induction n generalizing cur with
  | zero => rfl
  | succ n ih =>
    unfold validateElems
    obtain ⟨e, h1, h2⟩ := h 0 (by omega)
    simp at h1 h2
    rw [h1]; simp only [ok_bind]
    rw [h2]; simp only [ok_bind]
    apply ih
    intro i hi
    have : cur + w + i * w = cur + (i + 1) * w := by rw [Nat.add_mul]; omega
    rw [this]
    exact h (i + 1) (by omega)

/-- Validation success makes the value (or, for a pointer, its target) deeply valid. -/
theorem validateGo_deep {m : Mem} (hdbg : m.dbg = true) (f : Nat) (a w : Bool) (v : Val) (de : Nat)
    (hok : validateGo m f a w v de = .ok ()) (hv : v.In m) (hde : de ≤ m.data.length) (hl : 2 ≤ v.len)
    (ha : a = true → ∃ r, v.requiredSize m = .ok r ∧ r ≤ v.len) :
    ∃ e, resolve m w v = .ok e ∧ DeepOK m e := by
  induction f generalizing a w v de with
  | zero => cases hok
  | succ f ih =>
    unfold validateGo at hok
    rw [bind_eq_ok] at hok
    obtain ⟨t, ht, hok⟩ := hok
    have arr : (t = .array ∨ t = .dict) → arrayValidate m (fun w => validateGo m f true w) v de = .ok () →
        ∃ e, resolve m w v = .ok e ∧ DeepOK m e := by
      intro had hok
      obtain ⟨wd, n, fp, hwd, hn, hfp, hmul, hadd, hle, hok⟩ := arrayValidate_ok hdbg hok
      refine ⟨v, resolve_of_not_pointer _ ht (by rcases had with rfl | rfl <;> simp), ?_⟩
      have key : ∀ i, i < n → ∃ e, resolve m wd (slotAt (v.pos + fp) (wof wd) i) = .ok e ∧ DeepOK m e := by
        intro i hi
        obtain ⟨e, h1, h2⟩ := validateElems_ok hok i hi
        obtain ⟨rfl, hin, hw2, r, hr, hrw⟩ := fromRaw_ok h1
        have hiw : (i + 1) * wof wd ≤ n * wof wd := Nat.mul_le_mul_right _ hi
        rw [Nat.add_mul] at hiw
        exact ih true wd _ _ h2 hin (by omega) hw2 (fun _ => ⟨r, hr, hrw⟩)
      refine .coll hv ht had hwd hn hfp (by omega) (by omega) ?_ ?_
      · intro i hi; obtain ⟨e, h1, _⟩ := key i hi; exact ⟨e, h1⟩
      · intro i e hi he
        obtain ⟨e', h1, h2⟩ := key i hi
        rw [h1] at he; cases he; exact h2
    cases t
    case array => exact arr (Or.inl rfl) hok
    case dict => exact arr (Or.inr rfl) hok
    case pointer =>
      dsimp only at hok
      rw [bind_eq_ok] at hok
      obtain ⟨tg, htg, hok⟩ := hok
      obtain ⟨hin, hbefore, hl2, _, tt, htt, hnp⟩ := derefChecked_ok htg
      obtain ⟨e, he, hd⟩ := ih false w tg v.pos hok hin (by unfold Val.In at hv; omega) hl2 (by simp)
      rw [resolve_of_not_pointer w htt hnp] at he
      cases he
      refine ⟨tg, ?_, hd⟩
      simp [resolve, ht, derefUnchecked_eq htg]
    all_goals
      refine ⟨v, resolve_of_not_pointer _ ht (by simp), ?_⟩
      dsimp only at hok
      cases a with
      | true =>
        obtain ⟨r, hr, hrl⟩ := ha rfl
        unfold Val.In at hv
        exact .scalar hv hl ht (by simp) (by simp) (by simp) hr (by omega)
      | false =>
        simp only [Bool.false_eq_true, if_false] at hok
        rw [bind_eq_ok] at hok
        obtain ⟨r, hr, hok⟩ := hok
        split at hok
        · exact .scalar hv hl ht (by simp) (by simp) (by simp) hr (by omega)
        · rw [bind_eq_ok] at hok; obtain ⟨t, _, hok⟩ := hok
          rw [bind_eq_ok] at hok; obtain ⟨_, _, hok⟩ := hok; cases hok

theorem fromBytesGo_deep {m : Mem} (hdbg : m.dbg = true) (f : Nat) (v : Val)
    (hok : fromBytesGo m f = .ok v) : DeepOK m v := by
  unfold fromBytesGo at hok
  rw [bind_eq_ok] at hok; obtain ⟨r, hr, hok⟩ := hok
  rw [bind_eq_ok] at hok; obtain ⟨u, hu, hok⟩ := hok
  cases hok
  obtain ⟨hin, hlt, hl2, _, t, ht, hnp⟩ := findRoot_ok hr
  obtain ⟨e, he, hd⟩ := validateGo_deep hdbg f _ _ _ _ hu hin (Nat.le_refl _) hl2 (by simp)
  rw [resolve_of_not_pointer _ ht hnp] at he
  cases he; exact hd

theorem resolve_prof {m : Mem} (d : m.dbg = true) (w : Bool) (s : Val) :
    LePanic (resolve m w s) (resolve m.rel w s) := by
  unfold resolve
  apply LeOr.bind_panic (Or.inr rfl); intro t _
  apply LePanic.ite
  · intro _; exact derefUnchecked_prof d _ _
  · intro _; right; rfl

/-- Deep validity does not depend on the profile. -/
theorem DeepOK.rel {m : Mem} (d : m.dbg = true) {v : Val} (h : DeepOK m v) : DeepOK m.rel v := by
  induction h with
  | scalar hin len ty na nd np req fits =>
    exact .scalar hin len ty na nd np (LePanic.ok (requiredSize_prof d) req) fits
  | coll hin ty ad wide len first small fits slots elems ih =>
    refine .coll hin ty ad wide (LePanic.ok (arrayLen_prof d) len) (LePanic.ok (firstPos_prof d) first) small
      fits ?_ ?_
    · intro i hi
      obtain ⟨e, he⟩ := slots i hi
      exact ⟨e, LePanic.ok (resolve_prof d _ _) he⟩
    · intro i e hi he
      obtain ⟨e', he'⟩ := slots i hi
      have := LePanic.ok (resolve_prof d _ _) he'
      rw [this] at he; cases he
      exact ih i _ hi he'

/-! ## Accessors on deeply valid values -/

section
variable {m : Mem} {v : Val}

theorem width_eq {w : Bool} (h : v.isWide m = .ok w) : v.width m = .ok (wof w) := by
  simp [Val.width, h, wof]

/-- Collection facts in one place. -/
structure Coll (m : Mem) (v : Val) (w : Bool) (n fp : Nat) : Prop where
  hin : v.In m
  wide : v.isWide m = .ok w
  len : v.arrayLen m = .ok n
  first : v.firstPos m = .ok fp
  small : fp + n * wof w < 2 ^ 64
  fits : v.pos + fp + n * wof w ≤ m.data.length

theorem Coll.slot_in {w : Bool} {n fp i : Nat} (h : Coll m v w n fp) (hi : i < n) :
    (slotAt (v.pos + fp) (wof w) i).In m := by
  have hiw : (i + 1) * wof w ≤ n * wof w := Nat.mul_le_mul_right _ hi
  rw [Nat.add_mul] at hiw
  have := h.fits
  unfold Val.In slotAt
  simp; omega

theorem wof_pos (w : Bool) : 2 ≤ wof w := by cases w <;> simp [wof]

theorem wof_eq4 (w : Bool) : (wof w == 4) = w := by cases w <;> rfl

theorem Coll.getUnchecked {w : Bool} {n fp i : Nat} (h : Coll m v w n fp) (hi : i < n) :
    v.getUnchecked m i = resolve m w (slotAt (v.pos + fp) (wof w) i) := by
  have hiw : (i + 1) * wof w ≤ n * wof w := Nat.mul_le_mul_right _ hi
  rw [Nat.add_mul] at hiw
  have hs := h.small
  have hin := h.slot_in hi
  unfold Val.In slotAt at hin
  simp at hin
  have h1 : usizeMul (ε := DecodeError) m.dbg i (wof w) = .ok (i * wof w) := by
    unfold usizeMul; rw [if_pos (by omega)]
  have h2 : usizeAdd (ε := DecodeError) m.dbg fp (i * wof w) = .ok (fp + i * wof w) := by
    unfold usizeAdd; rw [if_pos (by omega)]
  unfold Val.getUnchecked resolve
  simp only [width_eq h.wide, h.first, h.wide, ok_bind, h1, h2]
  rw [mkSlice_eq (by omega)]
  simp only [ok_bind, slotAt, Nat.add_assoc]

/-- The state of the iterator over a collection after `i` steps. -/
def iterAt (first w n i : Nat) : Iter :=
  { next := if i < n then some (slotAt first w i) else none, width := w, index := i, len := n }

theorem Coll.iter {w : Bool} {n fp : Nat} (h : Coll m v w n fp) :
    v.iter m = .ok (iterAt (v.pos + fp) (wof w) n 0) := by
  unfold Val.iter Val.iterFirst
  simp only [h.len, width_eq h.wide, h.first, ok_bind]
  by_cases hn : n = 0
  · subst hn; simp [iterAt]
  · have hin := h.slot_in (show 0 < n by omega)
    unfold Val.In slotAt at hin
    simp at hin
    rw [if_neg hn, mkSlice_eq (by omega)]
    simp [iterAt, slotAt, Nat.pos_of_ne_zero hn]

theorem ite_bind' {ε α β : Type} {c : Prop} [Decidable c] (x y : Res ε α) (k : α → Res ε β) :
    ((if c then x else y) >>= k) = if c then x >>= k else y >>= k := by
  split <;> rfl

theorem Coll.step {w : Bool} {n fp i : Nat} {e : Val} (h : Coll m v w n fp) (hi : i < n)
    (he : resolve m w (slotAt (v.pos + fp) (wof w) i) = .ok e) :
    (iterAt (v.pos + fp) (wof w) n i).step m = .ok (some e, iterAt (v.pos + fp) (wof w) n (i + 1)) := by
  unfold Iter.step iterAt
  simp only [if_pos hi]
  rw [if_neg (by simp; omega)]
  unfold resolve at he
  rw [bind_eq_ok] at he
  obtain ⟨t, ht, he⟩ := he
  simp only [ht, ok_bind, wof_eq4]
  rw [← ite_bind', he]
  simp only [ok_bind]
  by_cases hi' : i + 1 < n
  · have hin := h.slot_in hi'
    unfold Val.In slotAt at hin
    simp at hin
    rw [Nat.add_mul] at hin
    rw [if_pos hi', mkSlice_eq (by simp [slotAt]; omega)]
    simp only [ok_bind, if_pos hi', slotAt, Nat.add_mul, Nat.one_mul, Nat.add_assoc]
    rfl
  · rw [if_neg hi']
    simp only [if_neg hi']
    rfl

theorem iterAt_step_end {first w n i : Nat} (h : ¬ i < n) :
    (iterAt first w n i).step m = .ok (none, iterAt first w n i) := by
  simp [Iter.step, iterAt, h]

end

/-- The collection case of `DeepOK`, packaged. -/
theorem DeepOK.coll_of {m : Mem} {v : Val} {t : ValueType} (h : DeepOK m v) (ht : v.type m = .ok t)
    (ad : t = .array ∨ t = .dict) :
    ∃ w n fp, Coll m v w n fp ∧
      (∀ i, i < n → ∃ e, resolve m w (slotAt (v.pos + fp) (wof w) i) = .ok e ∧ DeepOK m e) := by
  cases h with
  | scalar hin len ty na nd np req fits =>
    rw [ty] at ht; cases ht
    rcases ad with rfl | rfl <;> contradiction
  | coll hin ty ad wide len first small fits slots elems =>
    refine ⟨_, _, _, ⟨hin, wide, len, first, small, fits⟩, ?_⟩
    intro i hi
    obtain ⟨e, he⟩ := slots i hi
    exact ⟨e, he, elems i e hi he⟩

theorem DeepOK.scalar_of {m : Mem} {v : Val} {t : ValueType} (h : DeepOK m v) (ht : v.type m = .ok t)
    (na : t ≠ .array) (nd : t ≠ .dict) :
    2 ≤ v.len ∧ ∃ r, v.requiredSize m = .ok r ∧ v.pos + r ≤ m.data.length := by
  cases h with
  | scalar hin len ty _ _ _ req fits => exact ⟨len, _, req, fits⟩
  | coll hin ty ad =>
    rw [ty] at ht; cases ht
    rcases ad with rfl | rfl <;> contradiction

end Fleece
