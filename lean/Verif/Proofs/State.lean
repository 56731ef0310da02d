import Verif.Model.State
import Verif.Proofs.LookupDoc

/-! # Saving and loading a table of shared keys -/

namespace Fleece
open Res

/-- Bytes a name takes in the saved state, besides its slot. -/
def storedSize (n : Nat) : Nat := if n ≤ 1 then 0 else if n ≤ 14 then (n + 2) / 2 * 2 else (n + 3) / 2 * 2

theorem storedSize_eq {n : Nat} (h2 : 2 ≤ n) (h15 : n ≤ 15) : dataSize n + dataSize n % 2 = storedSize n := by
  obtain ⟨k, rfl⟩ : ∃ k, n = k + 2 := ⟨n - 2, by omega⟩
  have : ∀ k, k < 14 → dataSize (k + 2) + dataSize (k + 2) % 2 = storedSize (k + 2) := by decide
  exact this k (by omega)

theorem storedSize_ge {n : Nat} (h2 : 2 ≤ n) : 4 ≤ storedSize n := by
  unfold storedSize
  rw [if_neg (by omega)]
  split <;> omega

theorem storedSize_even (n : Nat) : storedSize n % 2 = 0 := by
  unfold storedSize
  split
  · rfl
  · split <;> omega

/-- The same for a list of names. -/
def stateSize (ks : List (List UInt8)) : Nat := (ks.map fun k => storedSize k.length).sum

theorem stateSize_cons (k : List UInt8) (ks : List (List UInt8)) : stateSize (k :: ks) = storedSize k.length + stateSize ks := by
  simp [stateSize]

/-- Writing one name into the array. -/
theorem name_step {c : Cfg} {e e' : Enc} {vs : List SizedValue} {r : Except EncodeError Unit} {s : RStr}
    (hs : e.stack = [.arr vs]) (he : e.out.length % 2 = 0) (hlen : e.out.length ≤ SizedValue.maxWide)
    (h15 : s.bytes.length ≤ 15) (h : e.step c (.value (.str s)) = .ok (e', r)) :
    e'.out.length % 2 = 0 ∧ e'.out.length = e.out.length + storedSize s.bytes.length ∧ r = .ok () ∧
    ∃ x, e'.stack = [.arr (vs ++ [x])] ∧ e'.closed = e.closed ∧
      (2 ≤ s.bytes.length → x.type = .pointer ∧ x.pointerOffset = e.out.length) := by
  have hmw : SizedValue.maxWide < 2 ^ 32 := by decide
  simp only [Enc.step, Enc.writeValue, hs, List.isEmpty_cons, Bool.false_eq_true, if_false] at h
  cases hx : (Scalar.str s).toSized with
  | some x =>
    rw [hx] at h
    simp only [Enc.push, hs] at h
    cases h
    have : s.bytes.length ≤ 1 := by
      by_cases hl : 2 ≤ s.bytes.length
      · rw [show (Scalar.str s).toSized = none from dataSized_none.mpr hl] at hx; cases hx
      · omega
    refine ⟨he, ?_, rfl, x, rfl, rfl, by omega⟩
    unfold storedSize; rw [if_pos this]; rfl
  | none =>
    have h2 : 2 ≤ s.bytes.length := dataSized_none.mp hx
    rw [hx] at h
    obtain ⟨⟨e1, off⟩, h1, h⟩ := bind_eq_ok.mp h
    obtain ⟨bs, _, hbl, hoff, rfl⟩ := Enc.write_item_ok c e _ h1
    rw [Nat.mod_eq_of_lt (by omega)] at hoff
    subst hoff
    obtain ⟨p, g1, g2, g3⟩ := SizedValue.newPointer_spec hlen
    dsimp only at h
    rw [g1] at h
    simp only [Enc.push, hs] at h
    cases h
    refine ⟨padEven_even _, ?_, rfl, p, rfl, rfl, fun _ => ⟨g2, g3⟩⟩
    have : bs.length = dataSize s.bytes.length := hbl
    rw [← storedSize_eq h2 h15]
    show (padEven _).length = _
    rw [padEven_length, List.length_append, this]
    omega

/-- The names fit the width that will be chosen: more than 16383 bytes of them, or not too many and none of fewer than two
bytes. -/
def StateFits (ks : List (List UInt8)) : Prop :=
  16384 ≤ stateSize ks ∨ ((∀ k ∈ ks, 2 ≤ k.length) ∧ stateSize ks + hdrLen ks.length ≤ 16383)

theorem state_run {c : Cfg} (all : List (List UInt8)) (hfit : StateFits all) (hmax : stateSize all ≤ SizedValue.maxWide)
    (ss : List RStr) : ∀ {e : Enc} {vs : List SizedValue}, e.stack = [.arr vs] → e.out.length % 2 = 0 →
    (∀ s ∈ ss, s.bytes.length ≤ 15) → e.out.length + stateSize (ss.map (·.bytes)) = stateSize all →
    vs.length + ss.length = all.length → (∀ s ∈ ss, s.bytes ∈ all) →
    (e.out.length = 0 ∨ ∃ v ∈ vs, v.type = .pointer ∧ v.pointerOffset = 0) →
    ((∀ k ∈ all, 2 ≤ k.length) → 4 * vs.length ≤ e.out.length ∧
      ∀ (i : Nat) (v : SizedValue), vs[i]? = some v → v.type = .pointer ∧ 4 * i ≤ v.pointerOffset ∧ v.pointerOffset ≤ e.out.length) →
    RunOK c e (ss.map (.value <| .str ·) ++ [.endArray]) := by
  have hmn : SizedValue.maxNarrow = 0x3fff := rfl
  induction ss with
  | nil =>
    intro e vs hs he _ hsize hcount _ hfirst hall
    refine ⟨⟨by unfold Enc.waitingForKey; rw [hs], ?_⟩, fun _ _ _ => trivial⟩
    intro vs' rest hs'
    rw [hs] at hs'
    cases hs'
    have h0 : stateSize (([] : List RStr).map (·.bytes)) = 0 := rfl
    simp only [List.length_nil] at hcount
    intro hfar i v hi
    rcases hfit with hbig | ⟨h2, hsm⟩
    · exfalso
      rcases hfirst with h | ⟨v, hv, ht, ho⟩
      · omega
      · rw [List.any_eq_false] at hfar
        have := hfar v hv
        unfold Enc.slotFar at this
        rw [ht, ho] at this
        simp only [decide_true, Bool.true_and, decide_eq_true_eq] at this
        omega
    · obtain ⟨_, hv⟩ := hall h2
      obtain ⟨ht, ho, _⟩ := hv i v hi
      have hlen : vs.length = all.length := by omega
      refine ⟨fun h => absurd ht h, fun _ => ?_⟩
      rw [hlen]
      omega
  | cons s ss ih =>
    intro e vs hs he h15 hsize hcount hmem hfirst hall
    simp only [List.map_cons, stateSize_cons] at hsize
    simp only [List.length_cons] at hcount
    refine ⟨?_, fun e' r hstep => ?_⟩
    · show s.bytes.length < _
      have := h15 s (by simp); omega
    · obtain ⟨h1, h2, _, x, h3, _, h5⟩ := name_step hs he (by omega) (h15 s (by simp)) hstep
      refine ih (vs := vs ++ [x]) h3 h1 (fun t ht => h15 t (by simp [ht])) (by omega) (by simp; omega)
        (fun t ht => hmem t (by simp [ht])) ?_ ?_
      · rcases hfirst with h0 | ⟨v, hv, hv'⟩
        · by_cases hl : 2 ≤ s.bytes.length
          · right; exact ⟨x, by simp, (h5 hl).1, by rw [(h5 hl).2, h0]⟩
          · left; rw [h2, h0]; unfold storedSize; rw [if_pos (by omega)]
        · right; exact ⟨v, by simp [hv], hv'⟩
      · intro ha
        obtain ⟨g1, g2⟩ := hall ha
        have hl := ha s.bytes (hmem s (by simp))
        have := storedSize_ge hl
        obtain ⟨h6, h7⟩ := h5 hl
        refine ⟨by simp; omega, ?_⟩
        intro i v hi
        rw [List.getElem?_append] at hi
        split at hi
        · obtain ⟨a, b, d⟩ := g2 i v hi; exact ⟨a, b, by omega⟩
        · next hge =>
          rw [List.getElem?_singleton] at hi
          split at hi
          · cases hi; exact ⟨h6, by omega, by omega⟩
          · cases hi

/-! ## Loading -/

/-- Only a string reads as a string. -/
theorem readTree_str {m : Mem} {F : FloatOps} {scope : Option SharedKeys} {fuel : Nat} {v : Val} {k : List UInt8}
    (h : readTree m F scope fuel v = .ok (.str k)) : v.type m = .ok .string ∧ v.toStr m = .ok k := by
  cases fuel with
  | zero => cases h
  | succ fuel =>
    unfold readTree at h
    obtain ⟨ty, h1, h⟩ := bind_eq_ok.mp h
    cases ty <;> dsimp only at h
    case string =>
      obtain ⟨s, h2, h⟩ := bind_eq_ok.mp h
      cases h
      exact ⟨h1, h2⟩
    all_goals first
      | (cases h; done)
      | (obtain ⟨_, _, h⟩ := bind_eq_ok.mp h; cases h; done)
      | (obtain ⟨_, _, h⟩ := bind_eq_ok.mp h; obtain ⟨_, _, h⟩ := bind_eq_ok.mp h; cases h)

theorem insert_next {U : CharTable} {sk : SharedKeys} {k : List UInt8} {pre : List (List UInt8 × Nat)}
    {rest : List (List UInt8 × Nat)} (hw : sk.WF) (ht : sk.Tidy U) (he : sk.entries = pre ++ (k, pre.length) :: rest) :
    SharedKeys.encodeAndInsert U ⟨pre⟩ k = (⟨pre ++ [(k, pre.length)]⟩, some pre.length) := by
  obtain ⟨hz, hc⟩ := ht (k, pre.length) (by rw [he]; simp)
  dsimp only at hz hc
  have hle := hw.le
  rw [he] at hle
  simp only [List.length_append, List.length_cons] at hle
  have hl : k.length ≤ 15 := by
    rw [← hz]; unfold zstr
    refine Nat.le_trans (List.IsPrefix.length_le (List.takeWhile_prefix _)) ?_
    simp only [List.length_take]; omega
  have hlen : SharedKeys.len ⟨pre⟩ = pre.length := by unfold SharedKeys.len; simp only; omega
  have hca : SharedKeys.canAdd U ⟨pre⟩ k = true := by
    have hmk : SharedKeys.maxKeyLen = 16 := rfl
    have hmx : SharedKeys.maxKeys = 2048 := rfl
    unfold SharedKeys.canAdd
    rw [hlen]
    simp only [Bool.and_eq_true, decide_eq_true_eq]
    exact ⟨⟨by omega, by omega⟩, hc⟩
  have hlook : SharedKeys.lookup ⟨pre⟩ k = none := by
    rw [SharedKeys.lookup_none]
    intro x hx
    have := hw.nodup
    rw [he, List.pairwise_append] at this
    exact this.2.2 x hx (k, pre.length) (by simp)
  unfold SharedKeys.encodeAndInsert
  rw [hca]
  simp only [Bool.not_true, Bool.false_eq_true, if_false]
  have hz' : zstr k = k := hz
  rw [hz', hlook, hlen]

theorem load_loop {m : Mem} {F : FloatOps} {scope : Option SharedKeys} {U : CharTable} {sk : SharedKeys} (hw : sk.WF) (ht : sk.Tidy U) {n : Nat}
    (rest : List (List UInt8 × Nat)) : ∀ {pre : List (List UInt8 × Nat)} {fuel : Nat} {it : Iter}, sk.entries = pre ++ rest →
    collect m (readTree m F scope n) fuel it = .ok (rest.map fun e => .str e.1) →
    SharedKeys.loadLoop m U fuel it ⟨pre⟩ = .ok (some sk) := by
  induction rest with
  | nil =>
    intro pre fuel it he h
    cases fuel with
    | zero => cases h
    | succ fuel =>
      unfold collect at h
      obtain ⟨⟨x, it'⟩, h1, h⟩ := bind_eq_ok.mp h
      cases x with
      | some x =>
        dsimp only at h
        obtain ⟨_, _, h⟩ := bind_eq_ok.mp h
        obtain ⟨_, _, h⟩ := bind_eq_ok.mp h
        cases h
      | none =>
        unfold SharedKeys.loadLoop
        rw [h1]
        simp only [ok_bind, pure_eq]
        rw [List.append_nil] at he
        rw [← he]
  | cons a rest ih =>
    intro pre fuel it he h
    cases fuel with
    | zero => cases h
    | succ fuel =>
      unfold collect at h
      obtain ⟨⟨x, it'⟩, h1, h⟩ := bind_eq_ok.mp h
      cases x with
      | none => cases h
      | some x =>
        dsimp only at h
        obtain ⟨t, h2, h⟩ := bind_eq_ok.mp h
        obtain ⟨ts, h3, h⟩ := bind_eq_ok.mp h
        simp only [List.map_cons, pure_eq] at h
        cases h
        obtain ⟨g1, g2⟩ := readTree_str h2
        obtain ⟨k, code⟩ := a
        have hcode : code = pre.length := by
          refine hw.code pre.length k code ?_
          rw [he]; simp
        subst hcode
        unfold SharedKeys.loadLoop
        rw [h1]
        simp only [ok_bind, g1, g2]
        rw [if_neg (by simp), insert_next hw ht he]
        exact ih (by rw [he]; simp) h3

end Fleece
