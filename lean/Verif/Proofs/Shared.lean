import Verif.Model.SharedKeys

/-! # `SharedKeys`: codes are positions -/

namespace Fleece

/-- Invariant of every `SharedKeys` built through the API. -/
structure SharedKeys.WF (sk : SharedKeys) : Prop where
  code : ∀ (i : Nat) (k : List UInt8) (c : Nat), sk.entries[i]? = some (k, c) → c = i
  le : sk.entries.length ≤ 2048
  nodup : sk.entries.Pairwise (fun a b => a.1 ≠ b.1)

/-- `sk'` has been obtained from `sk` by adding entries. -/
def SharedKeys.Le (sk sk' : SharedKeys) : Prop := sk.entries <+: sk'.entries

namespace SharedKeys

theorem Le.refl (sk : SharedKeys) : sk.Le sk := List.prefix_refl _
theorem Le.trans {a b c : SharedKeys} (h1 : a.Le b) (h2 : b.Le c) : a.Le c := List.IsPrefix.trans h1 h2

theorem new_wf : new.WF := ⟨by simp [new], by simp [new], by simp [new]⟩

theorem WF.len {sk : SharedKeys} (h : sk.WF) : sk.len = sk.entries.length := by
  have := h.le
  unfold SharedKeys.len; omega

theorem lookup_none {sk : SharedKeys} {k : List UInt8} : sk.lookup k = none ↔ ∀ e ∈ sk.entries, e.1 ≠ k := by
  unfold lookup
  rw [Option.map_eq_none_iff, List.find?_eq_none]
  simp

theorem lookup_some_mem {sk : SharedKeys} {k : List UInt8} {c : Nat} (h : sk.lookup k = some c) :
    (k, c) ∈ sk.entries := by
  unfold lookup at h
  rw [Option.map_eq_some_iff] at h
  obtain ⟨⟨k', c'⟩, h1, h2⟩ := h
  have hk := List.find?_some h1
  simp only [beq_iff_eq] at hk
  cases hk; cases h2
  exact List.mem_of_find?_eq_some h1

theorem find_of_mem {l : List (List UInt8 × Nat)} (hn : l.Pairwise (fun a b => a.1 ≠ b.1)) {k : List UInt8} {c : Nat}
    (h : (k, c) ∈ l) : l.find? (fun e => e.1 == k) = some (k, c) := by
  induction l with
  | nil => cases h
  | cons a l ih =>
    rw [List.pairwise_cons] at hn
    rcases List.mem_cons.mp h with rfl | hm
    · simp
    · rw [List.find?_cons_of_neg, ih hn.2 hm]
      have := hn.1 _ hm
      simpa using this

/-- Under the invariant `lookup` and `decode` are inverse to each other. -/
theorem WF.lookup_iff {sk : SharedKeys} (h : sk.WF) {k : List UInt8} {c : Nat} :
    sk.lookup k = some c ↔ sk.decode c = some k := by
  constructor
  · intro hl
    have hm := lookup_some_mem hl
    obtain ⟨i, hi⟩ := List.mem_iff_getElem?.mp hm
    have := h.code _ _ _ hi
    subst this
    simp [decode, hi]
  · intro hd
    unfold decode at hd
    rw [Option.map_eq_some_iff] at hd
    obtain ⟨⟨k', c'⟩, h1, h2⟩ := hd
    have := h.code _ _ _ h1
    cases h2; subst this
    unfold lookup
    rw [find_of_mem h.nodup (List.mem_of_getElem? h1)]
    rfl

theorem decode_lt {sk : SharedKeys} {c : Nat} : (sk.decode c).isSome ↔ c < sk.entries.length := by
  simp [decode]

theorem Le.decode {sk sk' : SharedKeys} (h : sk.Le sk') {c : Nat} {k : List UInt8} (hd : sk.decode c = some k) :
    sk'.decode c = some k := by
  obtain ⟨tl, ht⟩ := h
  have hlt : c < sk.entries.length := decode_lt.mp (by simp [hd])
  unfold SharedKeys.decode at *
  rw [← ht, List.getElem?_append_left hlt]; exact hd

/-- `encode_and_insert` when it hands out a code. -/
theorem WF.insert_some (U : CharTable) {sk sk' : SharedKeys} (h : sk.WF) {key : List UInt8} {c : Nat}
    (hi : sk.encodeAndInsert U key = (sk', some c)) :
    sk'.WF ∧ sk.Le sk' ∧ sk'.decode c = some (zstr key) ∧ c < 2048 ∧ sk.entries.length < 2048 ∧ key.length ≤ 16 ∧
      canEncode U key = true ∧
      ((sk' = sk ∧ sk.lookup (zstr key) = some c) ∨
        (sk.lookup (zstr key) = none ∧ c = sk.entries.length ∧ sk'.entries = sk.entries ++ [(zstr key, c)])) := by
  have hle := h.le
  unfold encodeAndInsert at hi
  split at hi
  · cases hi
  · next hca =>
    simp only [canAdd, h.len, Bool.not_eq_true, Bool.not_eq_false', Bool.and_eq_true, decide_eq_true_eq,
      maxKeys, maxKeyLen] at hca
    obtain ⟨⟨hlt, hl16⟩, hce⟩ := hca
    replace hl16 := of_decide_eq_true hl16
    dsimp only at hi
    split at hi
    · next c' hc' =>
      cases hi
      have hd := h.lookup_iff.mp hc'
      have : c < sk.entries.length := decode_lt.mp (by simp [hd])
      exact ⟨h, Le.refl _, hd, by omega, hlt, hl16, hce, .inl ⟨rfl, hc'⟩⟩
    · next hn =>
      rw [h.len] at hi
      cases hi
      have hwf : SharedKeys.WF ⟨sk.entries ++ [(zstr key, sk.entries.length)]⟩ := by
        refine ⟨?_, ?_, ?_⟩
        · intro i k c hi
          simp only at hi
          rw [List.getElem?_append] at hi
          split at hi
          · exact h.code _ _ _ hi
          · next hge =>
            rw [List.getElem?_singleton] at hi
            split at hi
            · cases hi; omega
            · cases hi
        · simp; omega
        · rw [List.pairwise_append]
          refine ⟨h.nodup, by simp, ?_⟩
          intro a ha b hb
          simp only [List.mem_singleton] at hb
          subst hb
          exact lookup_none.mp hn a ha
      refine ⟨hwf, List.prefix_append _ _, ?_, by omega, hlt, hl16, hce, .inr ⟨hn, rfl, rfl⟩⟩
      simp [decode]

/-- `encode_and_insert` in general. -/
theorem WF.insert (U : CharTable) {sk : SharedKeys} (h : sk.WF) (key : List UInt8) :
    (sk.encodeAndInsert U key).1.WF ∧ sk.Le (sk.encodeAndInsert U key).1 := by
  cases hr : sk.encodeAndInsert U key with
  | mk sk' r =>
    cases r with
    | some c =>
      obtain ⟨h1, h2, _⟩ := h.insert_some U hr
      exact ⟨h1, h2⟩
    | none =>
      unfold encodeAndInsert at hr
      split at hr
      · cases hr; exact ⟨h, Le.refl _⟩
      · dsimp only at hr
        split at hr <;> cases hr

/-! ## NUL -/

theorem isCont_ne (b : UInt8) (h : isCont b = true) : b ≠ 0 := by
  rintro rfl; revert h; decide

theorem utf8_nul (n : Nat) : ∀ key : List UInt8, key.length ≤ n → ∀ cs, utf8Decode? key = some cs → 0 ∈ key →
    0 ∈ cs := by
  induction n with
  | zero => intro key hl cs _ h; cases key <;> simp_all
  | succ n ih =>
    intro key hl cs hd hz
    cases key with
    | nil => cases hz
    | cons b0 r0 =>
      rw [utf8Decode?.eq_def] at hd
      simp only at hd
      split at hd
      · rw [Option.map_eq_some_iff] at hd
        obtain ⟨cs', h1, rfl⟩ := hd
        rcases List.mem_cons.mp hz with rfl | hz
        · simp
        · exact List.mem_cons_of_mem _ (ih r0 (by simpa using hl) _ h1 hz)
      · next hb0 =>
        have hb0' : b0 ≠ 0 := by rintro rfl; exact hb0 (by decide)
        split at hd
        · cases hd
        · next b1 r1 =>
          simp only [List.length_cons] at hl
          split at hd
          · next hc =>
            simp only [Bool.and_eq_true] at hc
            have hb1 := isCont_ne _ hc.2
            rw [Option.map_eq_some_iff] at hd
            obtain ⟨cs', h1, rfl⟩ := hd
            have : 0 ∈ r1 := by simpa [hb0'.symm, hb1.symm] using hz
            exact List.mem_cons_of_mem _ (ih r1 (by omega) _ h1 this)
          · split at hd
            · cases hd
            · next b2 r2 =>
              simp only [List.length_cons] at hl
              split at hd
              · next hc =>
                simp only [Bool.and_eq_true] at hc
                have hb1 := isCont_ne _ hc.1.1
                have hb2 := isCont_ne _ hc.1.2
                rw [Option.map_eq_some_iff] at hd
                obtain ⟨cs', h1, rfl⟩ := hd
                have : 0 ∈ r2 := by simpa [hb0'.symm, hb1.symm, hb2.symm] using hz
                exact List.mem_cons_of_mem _ (ih r2 (by omega) _ h1 this)
              · split at hd
                · cases hd
                · next b3 r3 =>
                  simp only [List.length_cons] at hl
                  split at hd
                  · next hc =>
                    simp only [Bool.and_eq_true] at hc
                    have hb1 := isCont_ne _ hc.1.1.1
                    have hb2 := isCont_ne _ hc.1.1.2
                    have hb3 := isCont_ne _ hc.1.2
                    rw [Option.map_eq_some_iff] at hd
                    obtain ⟨cs', h1, rfl⟩ := hd
                    have : 0 ∈ r3 := by simpa [hb0'.symm, hb1.symm, hb2.symm, hb3.symm] using hz
                    exact List.mem_cons_of_mem _ (ih r3 (by omega) _ h1 this)
                  · cases hd

/-- A key that passes `can_encode` contains no NUL. -/
theorem canEncode_no_nul {U : CharTable} {key : List UInt8} (h : canEncode U key = true) : (0 : UInt8) ∉ key := by
  intro hz
  unfold canEncode at h
  split at h
  · next cs hcs =>
    have := utf8_nul key.length key (Nat.le_refl _) cs hcs hz
    have := List.all_eq_true.mp h 0 this
    simp [CharTable.keyChar] at this
  · cases h

theorem takeWhile_of_not_mem {l : List UInt8} (h : (0 : UInt8) ∉ l) : l.takeWhile (· != 0) = l := by
  induction l with
  | nil => rfl
  | cons a l ih =>
    simp only [List.mem_cons, not_or] at h
    rw [List.takeWhile_cons_of_pos (by simpa using fun h' => h.1 h'.symm), ih h.2]

/-- A key of at most 15 bytes without NUL is stored as it is. -/
theorem zstr_eq {key : List UInt8} (hl : key.length ≤ 15) (h0 : (0 : UInt8) ∉ key) : zstr key = key := by
  unfold zstr
  rw [List.take_of_length_le hl, takeWhile_of_not_mem h0]

end SharedKeys
end Fleece
