import Verif.Proofs.DebugSafe

/-! # A traversal of a deeply valid value without short floats returns -/

namespace Fleece
open Res

section
variable {m : Mem} {v : Val}

theorem DeepOK.readTree_ok (F : FloatOps) (scope : Option SharedKeys) (h : DeepOK m v)
    (hfit : ∀ y, Reach m scope v y → FloatFits m y) : ∃ N, ∀ fuel, N ≤ fuel → ∃ t, readTree m F scope fuel v = .ok t := by
  induction h with
  | @scalar v t r hin len ty na nd np req fits =>
    have h : DeepOK m v := .scalar hin len ty na nd np req fits
    have hff := hfit v .root
    refine ⟨1, fun fuel hN => ?_⟩
    obtain ⟨fuel, rfl⟩ : ∃ k, fuel = k + 1 := ⟨fuel - 1, by omega⟩
    unfold readTree
    rw [ty]
    simp only [ok_bind]
    have hint := h.toInt_ok F hff
    cases t <;> first
      | contradiction
      | exact ⟨_, rfl⟩
      | (obtain ⟨i, hi⟩ := hint; simp only [hi]; exact ⟨_, rfl⟩)
      | (obtain ⟨i, hi⟩ := hint; unfold Val.toUnsignedInt; simp only [hi]; exact ⟨_, rfl⟩)
      | (obtain ⟨i, hi⟩ := h.toDouble_ok F hff; simp only [hi]; exact ⟨_, rfl⟩)
      | (obtain ⟨i, hi⟩ := h.toStr_ok; simp only [hi]; exact ⟨_, rfl⟩)
      | (obtain ⟨i, hi⟩ := h.toData_ok; simp only [hi]; exact ⟨_, rfl⟩)
  | @coll v t w n fp hin ty ad wide len first small fits slots elems ih =>
    have hc : Coll m v w n fp := ⟨hin, wide, len, first, small, fits⟩
    have he : Elems m v w n fp := fun i hi => by
      obtain ⟨e, h1⟩ := slots i hi; exact ⟨e, h1, elems i e hi h1⟩
    rcases ad with rfl | rfl
    · have has : v.asArray m = .ok (some v) := by unfold Val.asArray; simp only [ty, ok_bind, if_true]; rfl
      obtain ⟨N, hN⟩ := exists_bound n
        (fun i f => ∀ e, resolve m w (slotAt (v.pos + fp) (wof w) i) = .ok e →
          ∀ fuel, f ≤ fuel → ∃ s, readTree m F scope fuel e = .ok s)
        (fun i f g hfg hp e he k hk => hp e he k (by omega))
        (fun i hi => by
          obtain ⟨e, h1⟩ := slots i hi
          have hch : Child m scope v e := .index has hc.len hi (by
            unfold Val.get
            simp only [hc.len, ok_bind]
            rw [if_neg (by omega), hc.getUnchecked hi, h1]; rfl)
          obtain ⟨f, hf⟩ := ih i e hi h1 (fun y hy => hfit y (hy.head hch))
          refine ⟨f, fun e' he' => ?_⟩
          rw [h1] at he'; cases he'; exact hf)
      refine ⟨N + 1, fun fuel hfu => ?_⟩
      obtain ⟨fuel, rfl⟩ : ∃ k, fuel = k + 1 := ⟨fuel - 1, by omega⟩
      unfold readTree
      rw [ty]
      simp only [ok_bind]
      rw [hc.iter]
      simp only [ok_bind]
      have loop : ∀ (k i : Nat), n - i < k →
          ∃ ss, collect m (readTree m F scope fuel) k (iterAt (v.pos + fp) (wof w) n i) = .ok ss := by
        intro k
        induction k with
        | zero => intro i hk; omega
        | succ k ihk =>
          intro i hk
          unfold collect
          by_cases hi : i < n
          · obtain ⟨e, h1, _⟩ := he i hi
            rw [hc.step hi h1]
            obtain ⟨s, hs⟩ := hN i hi e h1 fuel (by omega)
            obtain ⟨ss, hss⟩ := ihk (i + 1) (by omega)
            exact ⟨s :: ss, by simp only [ok_bind, hs, hss, pure_eq]⟩
          · rw [iterAt_step_end hi]; exact ⟨[], rfl⟩
      obtain ⟨ss, hss⟩ := loop ((iterAt (v.pos + fp) (wof w) n 0).len + 1) 0 (by simp [iterAt])
      rw [hss]
      exact ⟨_, rfl⟩
    · have has : v.asDict m = .ok (some v) := by unfold Val.asDict; simp only [ty, ok_bind, if_true]; rfl
      have hstart : DictIterState m scope v (iterAt (v.pos + fp) (wof w) n 0) := .start (by
        unfold Val.dictIter; rw [hc.iter])
      have loop : ∀ (k i : Nat), n - i < k → DictIterState m scope v (iterAt (v.pos + fp) (wof w) n i) →
          ∃ N, ∀ fuel, N ≤ fuel →
            ∃ ss, collectDict m scope (readTree m F scope fuel) k (iterAt (v.pos + fp) (wof w) n i) = .ok ss := by
        intro k
        induction k with
        | zero => intro i hk; omega
        | succ k ihk =>
          intro i hk hst
          rcases hc.dictStep_cases scope he i with ⟨key, e, hi, _, hg, h1⟩ | ⟨j, _, h1⟩
          · have hch : Child m scope v e := .entry has hst h1
            rw [hc.getUnchecked hi] at hg
            obtain ⟨N, hN⟩ := ih (i + 1) e hi hg (fun y hy => hfit y (hy.head hch))
            obtain ⟨N', hN'⟩ := ihk (i + 2) (by omega) (hst.next h1)
            refine ⟨max N N', fun fuel hfu => ?_⟩
            unfold collectDict
            rw [h1]
            obtain ⟨s, hs⟩ := hN fuel (by omega)
            obtain ⟨ss, hss⟩ := hN' fuel (by omega)
            exact ⟨(key, s) :: ss, by simp only [ok_bind, hs, hss, pure_eq]⟩
          · refine ⟨0, fun fuel _ => ?_⟩
            unfold collectDict
            rw [h1]; exact ⟨[], rfl⟩
      obtain ⟨N, hN⟩ := loop (n + 1) 0 (by omega) hstart
      refine ⟨N + 1, fun fuel hfu => ?_⟩
      obtain ⟨fuel, rfl⟩ : ∃ k, fuel = k + 1 := ⟨fuel - 1, by omega⟩
      unfold readTree
      rw [ty]
      simp only [ok_bind, Val.dictIter]
      rw [hc.iter]
      simp only [ok_bind]
      obtain ⟨ss, hss⟩ := hN fuel (by omega)
      have : (iterAt (v.pos + fp) (wof w) n 0).len + 1 = n + 1 := rfl
      rw [this, hss]
      exact ⟨_, rfl⟩

end

end Fleece
