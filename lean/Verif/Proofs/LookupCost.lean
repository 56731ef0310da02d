import Verif.Model.LookupCost
import Verif.Proofs.CostDoc
import Verif.Proofs.Lookup

/-! # Counting the steps of a lookup (C64) -/

namespace Fleece
open Res

/-- Forget the count. -/
def forget {α β : Type} (x : R (α × β)) : R α := x >>= fun a => .ok a.1

theorem forget_bind {α β γ : Type} (x : R γ) (f : γ → R (α × β)) : forget (x >>= f) = x >>= fun a => forget (f a) := by
  cases x <;> rfl

/-- The rest of a computation uses the first component only. -/
theorem forget_then {α β γ δ : Type} {x : R (α × β)} {y : R α} (h : forget x = y) {f : α × β → R (γ × δ)} {g : α → R γ}
    (hf : ∀ a b, forget (f (a, b)) = g a) : forget (x >>= f) = y >>= g := by
  subst h
  cases x with
  | ok a => exact hf a.1 a.2
  | _ => rfl

theorem forget_ok {α β : Type} {x : R (α × β)} {a : α} {b : β} (h : x = .ok (a, b)) : forget x = .ok a := by
  subst h; rfl

theorem derefCountGo_forget (m : Mem) (fuel : Nat) (w : Bool) (v : Val) :
    forget (derefCountGo m fuel w v) = derefUncheckedGo m fuel w v := by
  induction fuel generalizing w v with
  | zero => rfl
  | succ f ih =>
    unfold derefCountGo derefUncheckedGo
    rw [forget_bind]; congr 1; funext off
    split
    · rfl
    · split
      · rfl
      · rw [forget_bind]; congr 1; funext tg
        rw [forget_bind]; congr 1; funext t
        split
        · rw [← ih true tg]
          cases derefCountGo m f true tg <;> rfl
        · rfl

theorem derefCount_forget (m : Mem) (w : Bool) (v : Val) : forget (derefCount m w v) = derefUnchecked m w v :=
  derefCountGo_forget m _ w v

theorem getCount_forget (m : Mem) (v : Val) (i : Nat) : forget (v.getCount m i) = v.getUnchecked m i := by
  unfold Val.getCount Val.getUnchecked
  rw [forget_bind]; congr 1; funext wd
  rw [forget_bind]; congr 1; funext off
  rw [forget_bind]; congr 1; funext fp
  rw [forget_bind]; congr 1; funext o
  rw [forget_bind]; congr 1; funext tg
  rw [forget_bind]; congr 1; funext t
  split
  · rw [forget_bind]; congr 1; funext w
    exact derefCount_forget m w tg
  · rfl

theorem pairCount_forget (m : Mem) (v : Val) (i : Nat) : forget (v.pairCount m i) = v.pairUnchecked m i := by
  unfold Val.pairCount Val.pairUnchecked
  rw [forget_bind]; congr 1; funext o
  refine forget_then (getCount_forget m v o) fun a b => ?_
  exact forget_then (getCount_forget m v (o + 1)) fun c d => rfl

theorem dictKeyCmpCount_forget (m : Mem) (key : Key) (v : Val) (w : Bool) :
    forget (dictKeyCmpCount m key v w) = dictKeyCmp m key v w := by
  unfold dictKeyCmpCount dictKeyCmp
  rw [forget_bind]; congr 1; funext t
  split
  · rfl
  · cases key with
    | shared c =>
      cases t <;> first
        | rfl
        | (dsimp only; rw [forget_bind]; rfl)
    | string k =>
      cases t
      case string => dsimp only; rw [forget_bind]; rfl
      case pointer =>
        dsimp only
        refine forget_then (derefCount_forget m w v) fun a b => ?_
        dsimp only
        rw [forget_bind]; congr 1; funext s
        split <;> rfl
      all_goals rfl

theorem searchCountLoop_forget (m : Mem) (v : Val) (key : Key) (fuel left right : Nat) :
    forget (v.searchCountLoop m key fuel left right) = v.searchLoop m key fuel left right := by
  induction fuel generalizing left right with
  | zero => unfold Val.searchCountLoop Val.searchLoop; split <;> rfl
  | succ f ih =>
    unfold Val.searchCountLoop Val.searchLoop
    split
    · dsimp only
      refine forget_then (pairCount_forget m v _) fun a b => ?_
      obtain ⟨k, x⟩ := a
      dsimp only
      rw [forget_bind]; congr 1; funext w
      refine forget_then (dictKeyCmpCount_forget m key k w) fun o n => ?_
      cases o with
      | lt =>
        dsimp only
        rw [← ih]
        cases v.searchCountLoop m key f left (left + (right - left) / 2) <;> rfl
      | eq => rfl
      | gt =>
        dsimp only
        rw [← ih]
        cases v.searchCountLoop m key f (left + (right - left) / 2 + 1) right <;> rfl
    · rfl

theorem searchCount_forget (m : Mem) (v : Val) (key : Key) : forget (v.searchCount m key) = v.search m key := by
  unfold Val.searchCount Val.search
  rw [forget_bind]; congr 1; funext n
  exact searchCountLoop_forget m v key n 0 n

theorem usesCount_forget (m : Mem) (v : Val) : forget (v.usesCount m) = v.usesSharedKeys m := by
  unfold Val.usesCount Val.usesSharedKeys
  rw [forget_bind]; congr 1; funext n
  split
  · rfl
  · refine forget_then (pairCount_forget m v 0) fun a b => ?_
    obtain ⟨k, x⟩ := a
    dsimp only
    rw [forget_bind]; rfl

theorem encodeKeyCount_forget (m : Mem) (v : Val) (key : List UInt8) (given scope : Option SharedKeys) :
    forget (v.encodeKeyCount m key given scope) = v.encodeKey m key given scope := by
  unfold Val.encodeKeyCount Val.encodeKey
  cases given with
  | some sk => dsimp only; cases sk.encode key <;> rfl
  | none =>
    dsimp only
    refine forget_then (usesCount_forget m v) fun u a => ?_
    dsimp only
    split
    · cases scope.bind (·.encode key) <;> rfl
    · rfl

theorem lookupCount_forget (m : Mem) (v : Val) (key : List UInt8) (given scope : Option SharedKeys) :
    forget (v.lookupCount m key given scope) = (do
      let k ← v.encodeKey m key given scope
      v.search m k) := by
  unfold Val.lookupCount
  refine forget_then (encodeKeyCount_forget m v key given scope) fun k a => ?_
  dsimp only
  rw [← searchCount_forget]
  cases v.searchCount m k <;> rfl

/-! ## Comparisons -/

theorem searchCountLoop_cmps {m : Mem} {v : Val} {key : Key} {fuel left right : Nat} {r : Option Val} {c : Tally}
    (h : v.searchCountLoop m key fuel left right = .ok (r, c)) {k : Nat} (hk : right - left < 2 ^ k) : c.cmps ≤ k := by
  induction fuel generalizing left right r c k with
  | zero =>
    unfold Val.searchCountLoop at h
    split at h
    · cases h
    · cases h; exact Nat.zero_le _
  | succ f ih =>
    unfold Val.searchCountLoop at h
    split at h
    · rename_i hlt
      obtain ⟨k, rfl⟩ : ∃ j, k = j + 1 := by
        cases k with
        | zero => simp at hk; omega
        | succ k => exact ⟨k, rfl⟩
      rw [Nat.pow_succ] at hk
      dsimp only at h
      obtain ⟨⟨⟨a, x⟩, n⟩, _, h⟩ := bind_eq_ok.mp h
      obtain ⟨w, _, h⟩ := bind_eq_ok.mp h
      obtain ⟨⟨o, b⟩, _, h⟩ := bind_eq_ok.mp h
      cases o with
      | eq => cases h; simp
      | lt =>
        obtain ⟨⟨r', c'⟩, h1, h⟩ := bind_eq_ok.mp h
        cases h
        have := ih h1 (k := k) (by omega)
        simp only; omega
      | gt =>
        obtain ⟨⟨r', c'⟩, h1, h⟩ := bind_eq_ok.mp h
        cases h
        have := ih h1 (k := k) (by omega)
        simp only; omega
    · cases h; exact Nat.zero_le _

/-! ## Pointers -/

/-- Following a pointer leads to a value that ends where the last pointer followed begins. -/
theorem derefCountGo_end {m : Mem} {fuel : Nat} {w : Bool} {v e : Val} {n : Nat} (h : derefCountGo m fuel w v = .ok (e, n)) :
    e.pos + e.len ≤ v.pos ∧ 1 ≤ n ∧ (e.pos + e.len = v.pos → n = 1) ∧ e.pos + 2 * n ≤ v.pos := by
  induction fuel generalizing w v e n with
  | zero => cases h
  | succ f ih =>
    unfold derefCountGo at h
    obtain ⟨off, hoff, h⟩ := bind_eq_ok.mp h
    have heven : off % 2 = 0 := by
      unfold Val.getOffset at hoff
      split at hoff
      all_goals
        obtain ⟨_, _, hoff⟩ := bind_eq_ok.mp hoff
        cases hoff
        omega
    split at h
    · cases h
    · split at h
      · cases h
      · rename_i hle
        obtain ⟨tg, htg, h⟩ := bind_eq_ok.mp h
        obtain ⟨t, ht, h⟩ := bind_eq_ok.mp h
        have hp : tg = ⟨v.pos - off, off⟩ := by
          unfold mkSlice at htg
          split at htg
          · cases htg; rfl
          · cases htg
        subst hp
        have hpos : 0 < off := by
          cases off with
          | zero =>
            exfalso
            unfold Val.type at ht
            obtain ⟨b, hb, _⟩ := bind_eq_ok.mp ht
            unfold Val.byte at hb
            simp at hb
          | succ o => omega
        split at h
        · obtain ⟨⟨e', n'⟩, h1, h⟩ := bind_eq_ok.mp h
          cases h
          have h2 := ih h1
          simp only at h2
          refine ⟨by omega, by omega, fun he => by omega, by omega⟩
        · cases h
          exact ⟨by simp only; omega, Nat.le_refl _, fun _ => rfl, by simp only; omega⟩

/-- The value is in the slot `s`, or ends where it begins. -/
def Beside (s x : Val) : Prop := x = s ∨ x.pos + x.len = s.pos

/-- A slot, and the pointers followed. -/
theorem Coll.getCount_eq {m : Mem} {v : Val} {w : Bool} {n fp i : Nat} (h : Coll m v w n fp) (hi : i < n) :
    v.getCount m i = (do
      let t ← (slotAt (v.pos + fp) (wof w) i).type m
      if t = .pointer then derefCount m w (slotAt (v.pos + fp) (wof w) i)
      else pure (slotAt (v.pos + fp) (wof w) i, 0)) := by
  have hiw : (i + 1) * wof w ≤ n * wof w := Nat.mul_le_mul_right _ hi
  rw [Nat.add_mul] at hiw
  have hs := h.small
  have hin := h.slot_in hi
  unfold Val.In slotAt at hin
  simp only at hin
  have h2 : usizeAdd (ε := DecodeError) m.dbg fp (i * wof w) = .ok (fp + i * wof w) := by
    unfold usizeAdd; rw [if_pos (by omega)]
  unfold Val.getCount
  rw [width_eq h.wide]
  simp only [ok_bind]
  rw [usizeMul_eq _ (by omega)]
  simp only [ok_bind, h.first, h2]
  rw [mkSlice_eq (by omega)]
  simp only [ok_bind, h.wide]
  have he : (⟨v.pos + (fp + i * wof w), wof w⟩ : Val) = slotAt (v.pos + fp) (wof w) i := by
    unfold slotAt; congr 1; omega
  rw [he]

theorem Coll.getCount {m : Mem} {v : Val} {w : Bool} {n fp i : Nat} (h : Coll m v w n fp) (hi : i < n) {x : Val} {a : Nat}
    (hc : v.getCount m i = .ok (x, a)) : a = 0 ∨ derefCount m w (slotAt (v.pos + fp) (wof w) i) = .ok (x, a) := by
  rw [h.getCount_eq hi] at hc
  obtain ⟨t, _, hc⟩ := bind_eq_ok.mp hc
  split at hc
  · exact .inr hc
  · cases hc; exact .inl rfl

/-- One pointer at most, if the value is beside its slot. -/
theorem Coll.getCount_beside {m : Mem} {v : Val} {w : Bool} {n fp i : Nat} (h : Coll m v w n fp) (hi : i < n)
    (hb : ∀ x, resolve m w (slotAt (v.pos + fp) (wof w) i) = .ok x → Beside (slotAt (v.pos + fp) (wof w) i) x) {x : Val} {a : Nat}
    (hc : v.getCount m i = .ok (x, a)) : a ≤ 1 := by
  have hr := forget_ok hc
  rw [getCount_forget, h.getUnchecked hi] at hr
  rcases h.getCount hi hc with rfl | hd
  · exact Nat.zero_le _
  · obtain ⟨g1, g2, g3, _⟩ := derefCountGo_end hd
    rcases hb x hr with rfl | hx
    · have := wof_pos w
      simp only [slotAt] at g1
      omega
    · exact Nat.le_of_eq (g3 hx)

/-- Every pointer leads back by two bytes or more. -/
theorem Coll.getCount_half {m : Mem} {v : Val} {w : Bool} {n fp i : Nat} (h : Coll m v w n fp) (hi : i < n) {x : Val} {a : Nat}
    (hc : v.getCount m i = .ok (x, a)) : 2 * a ≤ m.data.length := by
  rcases h.getCount hi hc with rfl | hd
  · omega
  · obtain ⟨_, _, _, g4⟩ := derefCountGo_end hd
    have := h.slot_in hi
    unfold Val.In at this
    omega

/-- A value all of whose slots, all the way down, hold their value or a pointer to it, and which is covered by its reference. -/
inductive Direct (m : Mem) : Val → Prop where
  | leaf {v : Val} {t : ValueType} (ty : v.type m = .ok t) (na : t ≠ .array) (nd : t ≠ .dict)
      (req : t = .int ∨ t = .unsignedInt → ∀ r, v.requiredSize m = .ok r → r ≤ v.len) : Direct m v
  | coll {v : Val} {t : ValueType} {w : Bool} {n fp : Nat} (ty : v.type m = .ok t) (ad : t = .array ∨ t = .dict)
      (hc : Coll m v w n fp) (own : fp + n * wof w ≤ v.len)
      (slots : ∀ i x, i < n → resolve m w (slotAt (v.pos + fp) (wof w) i) = .ok x → Beside (slotAt (v.pos + fp) (wof w) i) x)
      (elems : ∀ i x, i < n → resolve m w (slotAt (v.pos + fp) (wof w) i) = .ok x → Direct m x) : Direct m v

theorem Direct.child {m : Mem} {scope : Option SharedKeys} {a x : Val} (ha : DeepOK m a) (h : Direct m a)
    (hc : Child m scope a x) : Direct m x := by
  obtain ⟨t, w, n, fp, i, ht, had, hcoll, hi, hr⟩ := ha.child hc
  cases h with
  | leaf ty na nd _ =>
    rw [ty] at ht; cases ht
    rcases had with rfl | rfl <;> contradiction
  | coll _ _ hc' _ slots elems =>
    have e1 := hcoll.wide; rw [hc'.wide] at e1; cases e1
    have e2 := hcoll.len; rw [hc'.len] at e2; cases e2
    have e3 := hcoll.first; rw [hc'.first] at e3; cases e3
    exact elems i x hi hr

theorem Direct.reach {m : Mem} {scope : Option SharedKeys} {root v : Val} (ha : DeepOK m root) (h : Direct m root)
    (hr : Reach m scope root v) : Direct m v := by
  induction hr with
  | root => exact h
  | child hr hc ih => exact ih.child (ha.reach hr) hc

section
variable {m : Mem} {v : Val} {w : Bool} {n fp : Nat}

/-- `b` pointers at most for every slot. -/
def Hops (m : Mem) (v : Val) (n b : Nat) : Prop := ∀ i x a, i < n → v.getCount m i = .ok (x, a) → a ≤ b

theorem Coll.pairCount (h : Coll m v w n fp) {b : Nat} (hb : Hops m v n b) {i : Nat} (hi : 2 * i + 1 < n) {p : Val × Val}
    {a : Nat} (hc : v.pairCount m i = .ok (p, a)) : a ≤ 2 * b := by
  have hs := h.small
  have : n * 2 ≤ n * wof w := Nat.mul_le_mul_left _ (wof_pos w)
  unfold Val.pairCount at hc
  rw [usizeMul_eq _ (by omega)] at hc
  simp only [ok_bind] at hc
  obtain ⟨⟨k, a1⟩, h1, hc⟩ := bind_eq_ok.mp hc
  obtain ⟨⟨x, a2⟩, h2, hc⟩ := bind_eq_ok.mp hc
  cases hc
  have := hb _ _ _ (by omega) h1
  have := hb _ _ _ hi h2
  omega

/-- A resolved key is compared without following a pointer. -/
theorem dictKeyCmpCount_hops {key : Key} {k : Val} {t : ValueType} (ht : k.type m = .ok t) (hnp : t ≠ .pointer) {o : Ordering}
    {b : Nat} (h : dictKeyCmpCount m key k w = .ok (o, b)) : b = 0 := by
  unfold dictKeyCmpCount at h
  rw [ht] at h
  simp only [ok_bind] at h
  split at h
  · cases h
  · cases key <;> cases t <;> first
      | contradiction
      | (cases h; rfl)
      | (obtain ⟨_, _, h⟩ := bind_eq_ok.mp h; cases h; rfl)
      | cases h

theorem Coll.searchCountLoop (h : Coll m v w n fp) (he : Elems m v w n fp) {B : Nat} (hb : Hops m v n B) {key : Key} {fuel left right : Nat} (hr : 2 * right ≤ n) {r : Option Val} {c : Tally}
    (hc : v.searchCountLoop m key fuel left right = .ok (r, c)) : c.hops ≤ 2 * B * c.cmps := by
  induction fuel generalizing left right r c with
  | zero =>
    unfold Val.searchCountLoop at hc
    split at hc
    · cases hc
    · cases hc; exact Nat.zero_le _
  | succ f ih =>
    unfold Val.searchCountLoop at hc
    split at hc
    · rename_i hlt
      dsimp only at hc
      obtain ⟨⟨⟨k, x⟩, a⟩, h1, hc⟩ := bind_eq_ok.mp hc
      obtain ⟨w', _, hc⟩ := bind_eq_ok.mp hc
      obtain ⟨⟨o, b⟩, h2, hc⟩ := bind_eq_ok.mp hc
      have hi : 2 * (left + (right - left) / 2) + 1 < n := by omega
      have ha := h.pairCount hb hi h1
      obtain ⟨k', x', g1, _, _, hd, _⟩ := h.pair he hi
      have g2 := forget_ok h1
      rw [pairCount_forget, g1] at g2
      cases g2
      obtain ⟨t, ht, hnp⟩ := hd.not_pointer
      have hb0 := dictKeyCmpCount_hops ht hnp h2
      subst hb0
      cases o with
      | eq => cases hc; simp only [Nat.mul_one]; omega
      | lt =>
        obtain ⟨⟨r', c'⟩, h3, hc⟩ := bind_eq_ok.mp hc
        cases hc
        have := ih (by omega) h3
        simp only [Nat.mul_add, Nat.mul_one]; omega
      | gt =>
        obtain ⟨⟨r', c'⟩, h3, hc⟩ := bind_eq_ok.mp hc
        cases hc
        have := ih hr h3
        simp only [Nat.mul_add, Nat.mul_one]; omega
    · cases hc; exact Nat.zero_le _

theorem encodeKeyCount_hops {key : List UInt8} {given scope : Option SharedKeys} {k : Key} {a b : Nat}
    (hp : ∀ p a l, v.arrayLen m = .ok l → l ≠ 0 → v.pairCount m 0 = .ok (p, a) → a ≤ b)
    (h : v.encodeKeyCount m key given scope = .ok (k, a)) : a ≤ b := by
  unfold Val.encodeKeyCount at h
  cases given with
  | some sk =>
    dsimp only at h
    split at h <;> cases h <;> exact Nat.zero_le _
  | none =>
    dsimp only at h
    obtain ⟨⟨u, a'⟩, h1, h⟩ := bind_eq_ok.mp h
    have : a' ≤ b := by
      unfold Val.usesCount at h1
      obtain ⟨l, h2, h1⟩ := bind_eq_ok.mp h1
      split at h1
      · cases h1; exact Nat.zero_le _
      · rename_i hl
        obtain ⟨⟨⟨x, y⟩, a2⟩, h3, h1⟩ := bind_eq_ok.mp h1
        obtain ⟨t, _, h1⟩ := bind_eq_ok.mp h1
        cases h1
        exact hp _ _ l h2 hl h3
    dsimp only at h
    split at h
    · split at h <;> cases h <;> exact this
    · cases h; exact this

/-- All of a lookup. -/
theorem Coll.lookupCount (hcoll : Coll m v w n fp) (he : Elems m v w n fp) (ht : v.type m = .ok .dict) {B : Nat}
    (hb : Hops m v n B) {key : List UInt8} {given scope : Option SharedKeys} {r : Option Val} {c : Tally}
    (hc : v.lookupCount m key given scope = .ok (r, c)) : c.hops ≤ 2 * B * (c.cmps + 1) := by
  have hev := arrayLen_even ht hcoll.len
  unfold Val.lookupCount at hc
  obtain ⟨⟨k, a⟩, h1, hc⟩ := bind_eq_ok.mp hc
  obtain ⟨⟨r', c'⟩, h2, hc⟩ := bind_eq_ok.mp hc
  cases hc
  have ha : a ≤ 2 * B := encodeKeyCount_hops (fun p a l hl h0 hp => by
    rw [hcoll.len] at hl; cases hl
    exact hcoll.pairCount hb (by omega) hp) h1
  unfold Val.searchCount Val.dictLen at h2
  rw [hcoll.len] at h2
  simp only [ok_bind, pure_eq] at h2
  have := hcoll.searchCountLoop he hb (by omega) h2
  simp only [Nat.mul_add, Nat.mul_one]; omega

theorem Direct.lookupCount (hd : DeepOK m v) (h : Direct m v) (ht : v.type m = .ok .dict) {key : List UInt8}
    {given scope : Option SharedKeys} {r : Option Val} {c : Tally} (hc : v.lookupCount m key given scope = .ok (r, c)) :
    c.hops ≤ 2 * (c.cmps + 1) := by
  cases h with
  | leaf ty na nd _ => rw [ty] at ht; cases ht; contradiction
  | @coll _ _ w n fp _ _ hcoll _ slots elems =>
    obtain ⟨w', n', fp', hc', he⟩ := hd.coll_of ht (.inr rfl)
    have e1 := hc'.wide; rw [hcoll.wide] at e1; cases e1
    have e2 := hc'.len; rw [hcoll.len] at e2; cases e2
    have e3 := hc'.first; rw [hcoll.first] at e3; cases e3
    exact hcoll.lookupCount he ht (B := 1) (fun i x a hi ha => hcoll.getCount_beside hi (fun x => slots i x hi) ha) hc

theorem DeepOK.lookupCount (hd : DeepOK m v) (ht : v.type m = .ok .dict) {key : List UInt8}
    {given scope : Option SharedKeys} {r : Option Val} {c : Tally} (hc : v.lookupCount m key given scope = .ok (r, c)) :
    c.hops ≤ m.data.length * (c.cmps + 1) := by
  obtain ⟨w, n, fp, hcoll, he⟩ := hd.coll_of ht (.inr rfl)
  have := hcoll.lookupCount he ht (B := m.data.length / 2) (fun i x a hi ha => by
    have := hcoll.getCount_half hi ha
    omega) hc
  exact Nat.le_trans this (Nat.mul_le_mul_right _ (by omega))

end

/-! ## Documents -/

variable {P : List UInt8 → Prop}

theorem KeyAt.beside {m : Mem} {F : FloatOps} {w : Bool} {q : Nat} {k : Key} (h : KeyAt m.data F w q k) {x : Val}
    (hr : resolve m w ⟨q, wof w⟩ = .ok x) : Beside ⟨q, wof w⟩ x ∧ Direct m x := by
  obtain ⟨y, hy, ⟨ty, hty, hor⟩, _⟩ := h.ok.res
  rw [hr] at hy; cases hy
  refine ⟨?_, .leaf hty (by rcases hor with rfl | rfl <;> simp) (by rcases hor with rfl | rfl <;> simp)
    (by rcases hor with rfl | rfl <;> simp)⟩
  cases h with
  | @shared b0 b1 tl c hat len hb hcc =>
    have hle := hat.le
    have hh : Holds m ⟨q, wof w⟩ (b0 :: b1 :: tl) := hat.holds rfl
      (by unfold Val.In; simp only [List.length_cons] at *; omega) (by simp only [List.length_cons]; omega)
    have ht : Val.type m ⟨q, wof w⟩ = .ok .short := by rw [hh.type, fromByte_short _ (by omega)]
    rw [resolve_of_not_pointer w ht (by simp)] at hr
    cases hr; exact .inl rfl
  | inline hat len hs =>
    have hle := hat.le
    have hh : Holds m ⟨q, wof w⟩ _ := hat.holds rfl (by unfold Val.In; simp only; omega) (by simp only; omega)
    rw [resolve_of_not_pointer w (hs.type m _ hh) (scalar_not hs.scalar).1] at hr
    cases hr; exact .inl rfl
  | @pointer s bs ty p hat hs le even max ptr =>
    have h2 := hs.two
    have hle := ptr.le
    have hh : Holds m ⟨p, q - p⟩ bs := hat.holds rfl (by unfold Val.In; simp only; omega) (by simp only; omega)
    have ht := hs.type m _ hh
    obtain ⟨h3, h4⟩ := Holds.ptr_tgt ptr (by omega) even max ht (scalar_not hs.scalar).1
    unfold resolve at hr
    rw [h3] at hr
    simp only [ok_bind, if_true] at hr
    rw [derefUnchecked_eq h4] at hr
    cases hr
    exact .inr (by simp only; omega)

theorem Rep.direct {m : Mem} (hbase : m.base + m.data.length < 2 ^ 64) {F : FloatOps} {scope : Option SharedKeys}
    {k : Option Bool} {p e : Nat} {t : Tree} (h : Rep m.data F P scope k p e t) :
    match k with
    | none => ∀ v : Val, v.pos = p → v.In m → e ≤ p + v.len → Direct m v
    | some w => ∀ x, resolve m w ⟨p, wof w⟩ = .ok x → Beside ⟨p, wof w⟩ x ∧ Direct m x := by
  induction h with
  | @scalar p bs ty t hat hs =>
    intro v hp hin hl
    obtain ⟨_, h2, h3⟩ := scalar_not hs.scalar
    have hh := hat.holds hp hin (by omega)
    refine .leaf (hs.type m _ hh) h2 h3 fun _ r hr => ?_
    obtain ⟨r', h4, h5⟩ := hs.req m _ hh
    rw [hr] at h4; cases h4
    omega
  | @inline w q bs ty t hat len hs =>
    intro x hx
    have hle := hat.le
    have hh : Holds m ⟨q, wof w⟩ bs := hat.holds rfl (by unfold Val.In; simp only; omega) (by simp only; omega)
    obtain ⟨h1, h2, h3⟩ := scalar_not hs.scalar
    have ht := hs.type m _ hh
    rw [resolve_of_not_pointer w ht h1] at hx
    cases hx
    refine ⟨.inl rfl, .leaf ht h2 h3 fun _ r hr => ?_⟩
    obtain ⟨r', h4, h5⟩ := hs.req m _ hh
    rw [hr] at h4; cases h4
    exact len ▸ h5
  | @ptr w q p e t hat lt le even max tgt ih =>
    dsimp only at ih ⊢
    intro x hx
    have hle := hat.le
    have hin : Val.In m ⟨p, q - p⟩ := by unfold Val.In; simp only; omega
    have hok := tgt.ok hbase
    dsimp only at hok
    obtain ⟨ty, h1, h2⟩ := (hok ⟨p, q - p⟩ rfl hin (by simp only; omega)).type
    obtain ⟨h3, h4⟩ := Holds.ptr_tgt hat (by omega) even max h1 h2
    unfold resolve at hx
    rw [h3] at hx
    simp only [ok_bind, if_true] at hx
    rw [derefUnchecked_eq h4] at hx
    cases hx
    exact ⟨.inr (by simp only; omega), ih _ rfl hin (by simp only; omega)⟩
  | @empty w q e t no le fits tgt ih =>
    dsimp only at ih ⊢
    intro x hx
    obtain ⟨d, w', hat, _, _⟩ := tgt.empty_header no
    rw [(slot_empty hbase (w := w) hat fits).2.1] at hx
    cases hx
    exact ⟨.inl rfl, ih _ rfl (by unfold Val.In; simp only; omega) le⟩
  | @arr p w xs hat small fits each ih =>
    dsimp only at ih ⊢
    intro v hp hin hl
    have hhl := headerBytes_length 0x60 (n := xs.length) (by omega) w
    have hge := hdrLen_ge xs.length
    have hhd : headerSize xs.length ≤ hdrLen xs.length := by unfold hdrLen; omega
    have hh : Holds m v (headerBytes 0x60 xs.length w) := hat.holds hp hin (by omega)
    obtain ⟨h1, h2, h3, h4⟩ := header_read false (n := xs.length) (by omega) hh
    simp only [Bool.false_eq_true, if_false] at h1 h3
    have hcoll : Coll m v w xs.length (hdrLen xs.length) := ⟨hin, h2, h3, h4, by omega, by omega⟩
    have key : ∀ i x, i < xs.length → resolve m w (slotAt (v.pos + hdrLen xs.length) (wof w) i) = .ok x →
        Beside (slotAt (v.pos + hdrLen xs.length) (wof w) i) x ∧ Direct m x := by
      intro i x hi hx
      rw [hp] at hx ⊢
      exact ih i _ (List.getElem?_eq_getElem hi) x hx
    exact .coll h1 (.inl rfl) hcoll (by omega) (fun i x hi hx => (key i x hi hx).1) fun i x hi hx => (key i x hi hx).2
  | @dict p w ks kvs hat small fits len keys text sorted strs vals ih =>
    dsimp only at ih ⊢
    intro v hp hin hl
    have hhl := headerBytes_length 0x70 (n := kvs.length) (by omega) w
    have hge := hdrLen_ge kvs.length
    have hhd : headerSize kvs.length ≤ hdrLen kvs.length := by unfold hdrLen; omega
    have hh : Holds m v (headerBytes 0x70 kvs.length w) := hat.holds hp hin (by omega)
    obtain ⟨h1, h2, h3, h4⟩ := header_read true (n := kvs.length) (by omega) hh
    simp only [if_true] at h1 h3
    have hcoll : Coll m v w (kvs.length * 2) (hdrLen kvs.length) := ⟨hin, h2, h3, h4, by omega, by omega⟩
    have key : ∀ i x, i < kvs.length * 2 → resolve m w (slotAt (v.pos + hdrLen kvs.length) (wof w) i) = .ok x →
        Beside (slotAt (v.pos + hdrLen kvs.length) (wof w) i) x ∧ Direct m x := by
      intro i x hi hx
      rw [hp] at hx ⊢
      rcases Nat.mod_two_eq_zero_or_one i with h0 | h0
      · obtain ⟨j, rfl⟩ : ∃ j, i = 2 * j := ⟨i / 2, by omega⟩
        exact (keys j _ (List.getElem?_eq_getElem (by omega))).beside hx
      · obtain ⟨j, rfl⟩ : ∃ j, i = 2 * j + 1 := ⟨i / 2, by omega⟩
        exact ih j _ _ (List.getElem?_eq_getElem (show j < kvs.length by omega)) x hx
    exact .coll h1 (.inr rfl) hcoll (by omega) (fun i x hi hx => (key i x hi hx).1) fun i x hi hx => (key i x hi hx).2

/-! ## A key before all others -/

theorem forget_inv {α β : Type} {x : R (α × β)} {a : α} (h : forget x = .ok a) : ∃ b, x = .ok (a, b) := by
  cases x with
  | ok y => cases h; exact ⟨y.2, rfl⟩
  | _ => cases h

theorem Pairs.searchCountLoop_low {m : Mem} {v : Val} {w : Bool} {fp : Nat} {ks : List Key} {u : Nat → Val}
    (h : Pairs m v w fp ks u) {probe : Key} (low : ∀ k ∈ ks, Key.Lt probe k) {fuel left right : Nat}
    (hf : right - left ≤ fuel) (hr : right ≤ ks.length) :
    ∃ c, v.searchCountLoop m probe fuel left right = .ok (none, c) ∧ ∀ k, 2 ^ k ≤ right - left → k < c.cmps := by
  have stop : ∀ k : Nat, ¬ 2 ^ k ≤ 0 := fun k hk => by have := Nat.two_pow_pos k; omega
  induction fuel generalizing left right with
  | zero =>
    refine ⟨⟨0, 0⟩, ?_, fun k hk => absurd hk (by rw [show right - left = 0 by omega]; exact stop k)⟩
    unfold Val.searchCountLoop
    rw [if_neg (by omega)]
  | succ f ih =>
    unfold Val.searchCountLoop
    by_cases hlt : left < right
    · rw [if_pos hlt]
      have hk := List.getElem?_eq_getElem (l := ks) (i := left + (right - left) / 2) (by omega)
      obtain ⟨e, h1, _, h3⟩ := h.pair hk
      obtain ⟨o, h4, h5⟩ := dictKeyCmp_compares h3 probe
      have hl := low _ (List.mem_of_getElem? hk)
      obtain ⟨a, g1⟩ := forget_inv ((pairCount_forget m v _).trans h1)
      obtain ⟨b, g2⟩ := forget_inv ((dictKeyCmpCount_forget m probe e w).trans h4)
      dsimp only
      rw [g1]
      simp only [ok_bind, h.coll.wide, g2]
      cases o with
      | eq => rw [h5] at hl; exact absurd hl (Key.lt_irrefl _)
      | gt => exact absurd (Key.lt_trans hl h5) (Key.lt_irrefl _)
      | lt =>
        obtain ⟨c, g3, g4⟩ := ih (left := left) (right := left + (right - left) / 2) (by omega) (by omega)
        refine ⟨⟨c.cmps + 1, c.hops + a + b⟩, by simp only [g3, ok_bind, pure_eq], fun k hk => ?_⟩
        cases k with
        | zero => exact Nat.succ_pos _
        | succ k =>
          rw [Nat.pow_succ] at hk
          exact Nat.succ_lt_succ (g4 k (by omega))
    · rw [if_neg hlt]
      exact ⟨⟨0, 0⟩, rfl, fun k hk => absurd hk (by rw [show right - left = 0 by omega]; exact stop k)⟩

/-- The keys of a represented dict. -/
theorem Rep.pairs {m : Mem} (hbase : m.base + m.data.length < 2 ^ 64) {F : FloatOps} {scope : Option SharedKeys} {p e : Nat}
    {kvs : List (List UInt8 × Tree)} (h : Rep m.data F P scope none p e (.dict kvs)) {v : Val} (hp : v.pos = p) (hin : v.In m)
    (hl : e ≤ p + v.len) : ∃ w fp ks u, Pairs m v w fp ks u ∧ ks.length = kvs.length ∧
      ∀ (i : Nat) (k : Key) (s : List UInt8) (t : Tree), ks[i]? = some k → kvs[i]? = some (s, t) → k.Text scope s := by
  cases h with
  | scalar hat hs => exact absurd hs.form (by intro h; cases h)
  | @dict _ w ks _ hat small fits len keys text sorted strs vals =>
    have hhl := headerBytes_length 0x70 (n := kvs.length) (by omega) w
    have hge := hdrLen_ge kvs.length
    have hhd : headerSize kvs.length ≤ hdrLen kvs.length := by unfold hdrLen; omega
    have hh : Holds m v (headerBytes 0x70 kvs.length w) := hat.holds hp hin (by omega)
    obtain ⟨h1, h2, h3, h4⟩ := header_read true (n := kvs.length) (by omega) hh
    simp only [if_true] at h1 h3
    have hcoll : Coll m v w (kvs.length * 2) (hdrLen kvs.length) := ⟨hin, h2, h3, h4, by omega, by omega⟩
    refine ⟨w, hdrLen kvs.length, ks, fun i => slotVal m w (slotAt (v.pos + hdrLen kvs.length) (wof w) (2 * i + 1)),
      ⟨by rw [len]; exact hcoll, ?_, ?_, sorted⟩, len, text⟩
    · intro i k hk
      obtain ⟨y, hy, hty, hkv⟩ := (keys i _ hk).ok.res
      exact ⟨y, by unfold slotAt; rw [hp]; exact hy, hty, hkv⟩
    · intro i hi
      have hok := (vals i _ _ (List.getElem?_eq_getElem (show i < kvs.length by omega))).ok hbase
      dsimp only at hok
      obtain ⟨x, hx, _⟩ := hok.res
      have hx' : resolve m w (slotAt (v.pos + hdrLen kvs.length) (wof w) (2 * i + 1)) = .ok x := by
        unfold slotAt; rw [hp]; exact hx
      rw [slotVal_eq hx']; exact hx'

/-! ## Pointers to pointers -/

theorem ptr_offset {m : Mem} {v : Val} {w : Bool} {off : Nat} (h : Holds m v (ptrBytes w off)) (hm : off ≤ maxOff w)
    (heven : off % 2 = 0) : v.getOffset m w = .ok off := by
  have hval := ptr_value hm heven
  have hl := ptrBytes_length w off
  have hraw := h.rawRead (a := 0) (n := (ptrBytes w off).length) (by omega)
  simp only [Nat.add_zero, List.drop_zero, List.take_length] at hraw
  unfold Val.getOffset
  cases w with
  | false =>
    simp only [Bool.false_eq_true, if_false] at hl hval ⊢
    rw [hl] at hraw
    rw [hraw]; simp only [ok_bind, pure_eq, hval]
  | true =>
    simp only [if_true] at hl hval ⊢
    rw [hl] at hraw
    rw [hraw]; simp only [ok_bind, pure_eq, hval]

/-- One step of `deref_unchecked`. -/
theorem derefCountGo_step {m : Mem} {v : Val} {w : Bool} {off fuel : Nat} (h : Holds m v (ptrBytes w off)) (hm : off ≤ maxOff w)
    (heven : off % 2 = 0) (h0 : 0 < off) (hle : off ≤ v.pos) {ty : ValueType}
    (hty : Val.type m ⟨v.pos - off, off⟩ = .ok ty) :
    derefCountGo m (fuel + 1) w v =
      if ty = .pointer then (do
        let (x, n) ← derefCountGo m fuel true ⟨v.pos - off, off⟩
        pure (x, n + 1)) else .ok (⟨v.pos - off, off⟩, 1) := by
  have hin := h.hin
  unfold Val.In at hin
  conv => lhs; unfold derefCountGo
  rw [ptr_offset h hm heven]
  simp only [ok_bind]
  rw [if_neg (by simp; omega), if_neg (by omega), mkSlice_eq (by omega)]
  simp only [ok_bind, hty]
  rfl

end Fleece
