import Verif.Model.Constants
import Verif.Spec.Tree
import Verif.Proofs.Res

/-! # Values lie at even offsets -/

namespace Fleece
open Res

theorem usizeMul_parity {ε : Type} {dbg : Bool} {a b r : Nat} (h : usizeMul (ε := ε) dbg a b = .ok r) (hb : b % 2 = 0) : r % 2 = 0 := by
  have : a * b % 2 = 0 := by rw [Nat.mul_mod, hb]; simp
  unfold usizeMul at h
  split at h
  · cases h; exact this
  · split at h
    · cases h
    · cases h; omega

theorem usizeAdd_even {ε : Type} {dbg : Bool} {a b r : Nat} (h : usizeAdd (ε := ε) dbg a b = .ok r) (ha : a % 2 = 0)
    (hb : b % 2 = 0) : r % 2 = 0 := by
  unfold usizeAdd at h
  split at h
  · cases h; omega
  · split at h
    · cases h
    · cases h; omega

theorem mkSlice_pos {m : Mem} {p l : Nat} {v : Val} (h : mkSlice m p l = .ok v) : v.pos = p := by
  unfold mkSlice at h
  split at h <;> cases h
  rfl

theorem getOffset_even {m : Mem} {v : Val} {w : Bool} {o : Nat} (h : v.getOffset m w = .ok o) : o % 2 = 0 := by
  unfold Val.getOffset at h
  split at h
  · obtain ⟨bs, _, h⟩ := bind_eq_ok.mp h; cases h; omega
  · obtain ⟨bs, _, h⟩ := bind_eq_ok.mp h; cases h; omega

theorem derefUncheckedGo_even {m : Mem} {fuel : Nat} {w : Bool} {v x : Val} (h : derefUncheckedGo m fuel w v = .ok x)
    (hv : v.pos % 2 = 0) : x.pos % 2 = 0 := by
  induction fuel generalizing w v with
  | zero => cases h
  | succ f ih =>
    unfold derefUncheckedGo at h
    obtain ⟨o, h1, h⟩ := bind_eq_ok.mp h
    have ho := getOffset_even h1
    split at h
    · cases h
    · split at h
      · cases h
      · obtain ⟨t, h2, h⟩ := bind_eq_ok.mp h
        have hp := mkSlice_pos h2
        have ht : t.pos % 2 = 0 := by omega
        obtain ⟨ty, _, h⟩ := bind_eq_ok.mp h
        split at h
        · exact ih h ht
        · cases h; exact ht

theorem derefCheckedGo_even {m : Mem} {fuel : Nat} {w : Bool} {v x : Val} (h : derefCheckedGo m fuel w v = .ok x)
    (hv : v.pos % 2 = 0) : x.pos % 2 = 0 := by
  induction fuel generalizing w v with
  | zero => cases h
  | succ f ih =>
    unfold derefCheckedGo at h
    split at h
    · cases h
    · obtain ⟨o, h1, h⟩ := bind_eq_ok.mp h
      have ho := getOffset_even h1
      split at h
      · cases h
      · obtain ⟨b0, _, h⟩ := bind_eq_ok.mp h
        split at h
        · cases h
        · split at h
          · cases h
          · obtain ⟨t, h2, h⟩ := bind_eq_ok.mp h
            have hp := mkSlice_pos h2
            have ht : t.pos % 2 = 0 := by omega
            obtain ⟨ty, _, h⟩ := bind_eq_ok.mp h
            split at h
            · exact ih h ht
            · cases h; exact ht

theorem firstPos_even {m : Mem} {v : Val} {n : Nat} (h : v.firstPos m = .ok n) : n % 2 = 0 := by
  unfold Val.firstPos at h
  split at h
  · cases h; rfl
  · obtain ⟨s, _, h⟩ := bind_eq_ok.mp h
    dsimp only at h
    split at h
    · obtain ⟨rest, _, h⟩ := bind_eq_ok.mp h
      obtain ⟨⟨rd, _⟩, _, h⟩ := bind_eq_ok.mp h
      dsimp only at h
      split at h <;> cases h <;> omega
    · cases h; rfl

theorem width_even {m : Mem} {v : Val} {n : Nat} (h : v.width m = .ok n) : n % 2 = 0 := by
  unfold Val.width at h
  obtain ⟨w, _, h⟩ := bind_eq_ok.mp h
  cases w <;> cases h <;> rfl

theorem getUnchecked_even {m : Mem} {v x : Val} {i : Nat} (h : v.getUnchecked m i = .ok x) (hv : v.pos % 2 = 0) :
    x.pos % 2 = 0 := by
  unfold Val.getUnchecked at h
  obtain ⟨w, h1, h⟩ := bind_eq_ok.mp h
  obtain ⟨o, h2, h⟩ := bind_eq_ok.mp h
  obtain ⟨f, h3, h⟩ := bind_eq_ok.mp h
  obtain ⟨p, h4, h⟩ := bind_eq_ok.mp h
  obtain ⟨t, h5, h⟩ := bind_eq_ok.mp h
  have hp := usizeAdd_even h4 (firstPos_even h3) (usizeMul_parity h2 (width_even h1))
  have ht : t.pos % 2 = 0 := by rw [mkSlice_pos h5]; omega
  obtain ⟨ty, _, h⟩ := bind_eq_ok.mp h
  split at h
  · obtain ⟨w, _, h⟩ := bind_eq_ok.mp h
    exact derefUncheckedGo_even h ht
  · cases h; exact ht

theorem pairUnchecked_even {m : Mem} {v : Val} {p : Val × Val} {i : Nat} (h : v.pairUnchecked m i = .ok p) (hv : v.pos % 2 = 0) :
    p.1.pos % 2 = 0 ∧ p.2.pos % 2 = 0 := by
  unfold Val.pairUnchecked at h
  obtain ⟨o, _, h⟩ := bind_eq_ok.mp h
  obtain ⟨k, h1, h⟩ := bind_eq_ok.mp h
  obtain ⟨x, h2, h⟩ := bind_eq_ok.mp h
  cases h
  exact ⟨getUnchecked_even h1 hv, getUnchecked_even h2 hv⟩

/-- The next slot of an iterator, and the width of slots. -/
def Iter.Even (it : Iter) : Prop := it.width % 2 = 0 ∧ ∀ v, it.next = some v → v.pos % 2 = 0

theorem iter_even {m : Mem} {v : Val} {it : Iter} (h : v.iter m = .ok it) (hv : v.pos % 2 = 0) : it.Even := by
  unfold Val.iter at h
  obtain ⟨nx, h1, h⟩ := bind_eq_ok.mp h
  obtain ⟨w, h2, h⟩ := bind_eq_ok.mp h
  obtain ⟨n, _, h⟩ := bind_eq_ok.mp h
  cases h
  refine ⟨width_even h2, ?_⟩
  rintro x hx
  dsimp only at hx
  subst hx
  unfold Val.iterFirst at h1
  obtain ⟨n, _, h1⟩ := bind_eq_ok.mp h1
  split at h1
  · cases h1
  · obtain ⟨f, h3, h1⟩ := bind_eq_ok.mp h1
    obtain ⟨w, _, h1⟩ := bind_eq_ok.mp h1
    obtain ⟨t, h4, h1⟩ := bind_eq_ok.mp h1
    cases h1
    have := firstPos_even h3
    rw [mkSlice_pos h4]; omega

theorem step_even {m : Mem} {it it' : Iter} {x : Option Val} (h : it.step m = .ok (x, it')) (hi : it.Even) :
    it'.Even ∧ ∀ v, x = some v → v.pos % 2 = 0 := by
  unfold Iter.step at h
  split at h
  · cases h; exact ⟨hi, by simp⟩
  · rename_i cur hcur
    have hc := hi.2 _ hcur
    split at h
    · cases h; exact ⟨hi, by simp⟩
    · obtain ⟨t, _, h⟩ := bind_eq_ok.mp h
      have fin : ∀ r : Val, r.pos % 2 = 0 → (if it.index + 1 < it.len then (do
            let n ← mkSlice m (cur.pos + it.width) it.width
            pure (some r, { it with next := some n, index := it.index + 1 }))
          else pure (some r, { it with next := none, index := it.index + 1 }) : R (Option Val × Iter)) = .ok (x, it') →
          it'.Even ∧ ∀ v, x = some v → v.pos % 2 = 0 := by
        intro r hr h
        split at h
        · obtain ⟨n, h2, h⟩ := bind_eq_ok.mp h
          cases h
          refine ⟨⟨hi.1, ?_⟩, by rintro v ⟨⟩; exact hr⟩
          rintro v ⟨⟩
          have := hi.1
          rw [mkSlice_pos h2]; omega
        · cases h
          exact ⟨⟨hi.1, by simp⟩, by rintro v ⟨⟩; exact hr⟩
      split at h
      · obtain ⟨r, h1, h⟩ := bind_eq_ok.mp h
        exact fin r (derefUncheckedGo_even h1 hc) h
      · exact fin cur hc h

theorem dictStep_even {m : Mem} {scope : Option SharedKeys} {it it' : Iter} {x : Option (List UInt8 × Val)}
    (h : it.dictStep m scope = .ok (x, it')) (hi : it.Even) : it'.Even ∧ ∀ k v, x = some (k, v) → v.pos % 2 = 0 := by
  unfold Iter.dictStep at h
  obtain ⟨⟨k, it1⟩, h1, h⟩ := bind_eq_ok.mp h
  obtain ⟨g1, g2⟩ := step_even h1 hi
  cases k with
  | none => cases h; exact ⟨g1, by simp⟩
  | some k =>
    dsimp only at h
    obtain ⟨t, _, h⟩ := bind_eq_ok.mp h
    have fin : ∀ key : Option (List UInt8), (match key with
          | none => pure (none, it1)
          | some key => do
            let (x, it2) ← it1.step m
            match x with
            | none => pure (none, it2)
            | some x => pure (some (key, x), it2) : R (Option (List UInt8 × Val) × Iter)) = .ok (x, it') →
        it'.Even ∧ ∀ k v, x = some (k, v) → v.pos % 2 = 0 := by
      intro key h
      cases key with
      | none => cases h; exact ⟨g1, by simp⟩
      | some key =>
        dsimp only at h
        obtain ⟨⟨y, it2⟩, h2, h⟩ := bind_eq_ok.mp h
        obtain ⟨k1, k2⟩ := step_even h2 g1
        cases y with
        | none => cases h; exact ⟨k1, by simp⟩
        | some y => cases h; exact ⟨k1, by rintro k v ⟨⟩; exact k2 _ rfl⟩
    split at h
    · cases scope with
      | none => exact fin none h
      | some sk =>
        obtain ⟨n, _, h⟩ := bind_eq_ok.mp h
        exact fin _ h
    · obtain ⟨n, _, h⟩ := bind_eq_ok.mp h
      exact fin (some n) h

theorem searchLoop_even {m : Mem} {v : Val} {key : Key} {fuel left right : Nat} {x : Val}
    (h : v.searchLoop m key fuel left right = .ok (some x)) (hv : v.pos % 2 = 0) : x.pos % 2 = 0 := by
  induction fuel generalizing left right with
  | zero => unfold Val.searchLoop at h; split at h <;> cases h
  | succ f ih =>
    unfold Val.searchLoop at h
    split at h
    · dsimp only at h
      obtain ⟨p, h1, h⟩ := bind_eq_ok.mp h
      obtain ⟨w, _, h⟩ := bind_eq_ok.mp h
      obtain ⟨o, _, h⟩ := bind_eq_ok.mp h
      cases o with
      | eq => cases h; exact (pairUnchecked_even h1 hv).2
      | lt => exact ih h
      | gt => exact ih h
    · cases h

theorem search_even {m : Mem} {v : Val} {key : Key} {x : Val} (h : v.search m key = .ok (some x)) (hv : v.pos % 2 = 0) :
    x.pos % 2 = 0 := by
  unfold Val.search at h
  obtain ⟨n, _, h⟩ := bind_eq_ok.mp h
  exact searchLoop_even h hv

theorem IterState.even {m : Mem} {a : Val} {it : Iter} (h : IterState m a it) (ha : a.pos % 2 = 0) : it.Even := by
  induction h with
  | start h => exact iter_even h ha
  | next _ h ih => exact (step_even h ih).1

theorem DictIterState.even {m : Mem} {scope : Option SharedKeys} {a : Val} {it : Iter} (h : DictIterState m scope a it)
    (ha : a.pos % 2 = 0) : it.Even := by
  induction h with
  | start h => exact iter_even h ha
  | next _ h ih => exact (dictStep_even h ih).1

theorem Child.even {m : Mem} {scope : Option SharedKeys} {a x : Val} (h : Child m scope a x) (ha : a.pos % 2 = 0) : x.pos % 2 = 0 := by
  cases h with
  | index _ _ _ h =>
    unfold Val.get at h
    obtain ⟨n, _, h⟩ := bind_eq_ok.mp h
    split at h
    · cases h
    · obtain ⟨y, h1, h⟩ := bind_eq_ok.mp h
      cases h
      exact getUnchecked_even h1 ha
  | item _ hs h => exact (step_even h (hs.even ha)).2 _ rfl
  | entry _ hs h => exact (dictStep_even h (hs.even ha)).2 _ _ rfl
  | firstKey _ h =>
    unfold Val.dictFirst at h
    obtain ⟨n, _, h⟩ := bind_eq_ok.mp h
    split at h
    · cases h
    · obtain ⟨p, h1, h⟩ := bind_eq_ok.mp h
      cases h
      exact (pairUnchecked_even h1 ha).1
  | firstValue _ h =>
    unfold Val.dictFirst at h
    obtain ⟨n, _, h⟩ := bind_eq_ok.mp h
    split at h
    · cases h
    · obtain ⟨p, h1, h⟩ := bind_eq_ok.mp h
      cases h
      exact (pairUnchecked_even h1 ha).2
  | lookup _ h =>
    unfold Val.dictGet at h
    obtain ⟨k, _, h⟩ := bind_eq_ok.mp h
    exact search_even h ha
  | lookupWith _ h =>
    unfold Val.dictGetWith at h
    obtain ⟨k, _, h⟩ := bind_eq_ok.mp h
    exact search_even h ha

theorem Reach.even {m : Mem} {scope : Option SharedKeys} {root v : Val} (h : Reach m scope root v) (hr : root.pos % 2 = 0) :
    v.pos % 2 = 0 := by
  induction h with
  | root => exact hr
  | child _ hc ih => exact hc.even ih

theorem root_even {m : Mem} {v : Val} (h : findRoot m = .ok v) : v.pos % 2 = 0 := by
  unfold findRoot at h
  dsimp only at h
  split at h
  · cases h
  · have hr : (m.data.length - 2) % 2 = 0 := by omega
    obtain ⟨t, _, h⟩ := bind_eq_ok.mp h
    split at h
    · exact derefCheckedGo_even h hr
    · split at h
      · cases h; exact hr
      · cases h

theorem fromBytes_even {m : Mem} {v : Val} (h : fromBytes m = .ok v) : v.pos % 2 = 0 := by
  unfold fromBytes fromBytesGo at h
  obtain ⟨r, h1, h⟩ := bind_eq_ok.mp h
  obtain ⟨_, _, h⟩ := bind_eq_ok.mp h
  cases h
  exact root_even h1

theorem fromBytesUnchecked_parity {m : Mem} {v : Val} (h : fromBytesUnchecked m = .ok v) (hl : m.data.length % 2 = 0) : v.pos % 2 = 0 := by
  unfold fromBytesUnchecked at h
  dsimp only at h
  split at h
  · cases h
  · have hr : (m.data.length - 2) % 2 = 0 := by omega
    obtain ⟨t, _, h⟩ := bind_eq_ok.mp h
    split at h
    · exact derefUncheckedGo_even h hr
    · split at h
      · cases h; exact hr
      · cases h

end Fleece
