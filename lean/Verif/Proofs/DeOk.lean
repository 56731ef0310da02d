import Verif.Proofs.DeTy
import Verif.Spec.Fits
import Verif.Proofs.MutFrom
import Verif.Proofs.Debug

/-!
# Deserializing gives the value back, for all types
-/

namespace Fleece
open Res

variable {X : DeCtx} {probe : List UInt8 → Prop}

/-- Deserializing a value that shows `x` gives `x`, given enough depth. -/
def Gives (X : DeCtx) (probe : List UInt8 → Prop) (ty : Ty) (x : SVal) : Prop :=
  ∀ {v : Val} {t : Tree}, Matches X.m X.F X.scope probe v t → Tree.Same (x.tree X.F) t →
    ∃ N, ∀ fuel, N ≤ fuel → Ty.de X fuel ty ⟨v, false⟩ = .ok x

theorem Matches.scalar {v : Val} {t t' : Tree} (h : Matches X.m X.F X.scope probe v t') (hs : Tree.Same t t')
    (ha : ∀ xs, t ≠ .arr xs) (hd : ∀ kvs, t ≠ .dict kvs) : ∃ w, De.any X ⟨v, false⟩ = .ok w ∧ Sees X.F t w := by
  have := hs.leaf_inv ha hd
  subst this
  cases h with
  | leaf type na nd read => exact any_leaf type na nd read
  | arr => exact absurd rfl (ha _)
  | dict => exact absurd rfl (hd _)

theorem Matches.elems {v : Val} {xs : List Tree} (h : Matches X.m X.F X.scope probe v (.arr xs)) :
    ∃ u : Nat → Val, v.asArray X.m = .ok (some v) ∧ v.type X.m = .ok .array ∧
      v.arrayLen X.m = .ok xs.length ∧ (∀ i, i < xs.length → v.get X.m i = .ok (some (u i))) ∧
      (∃ it us, v.iter X.m = .ok it ∧ it.len = xs.length ∧ collect X.m (fun x => .ok x) (xs.length + 1) it = .ok us ∧
        us.length = xs.length ∧ ∀ (i : Nat) y, us[i]? = some y → y = u i) ∧
      ∀ (i : Nat) (x : Tree), xs[i]? = some x → Matches X.m X.F X.scope probe (u i) x := by
  generalize hd : Tree.arr xs = t at h
  cases h with
  | leaf type na nd read => subst hd; exact absurd rfl ((Props.leaf_read type na nd read).1 _)
  | dict => cases hd
  | arr u type len get iter each =>
    cases hd
    obtain ⟨it, h1, h2⟩ := iter
    have hc := (iter_counts h1).1
    rw [len] at hc
    have hc : xs.length = it.len := by injection hc
    refine ⟨u, type, asArray_type type, len, get, ⟨it, _, h1, hc.symm, h2, by simp, ?_⟩, each⟩
    intro i y hy
    rw [List.getElem?_mapIdx] at hy
    cases hg : xs[i]? with
    | none => rw [hg] at hy; cases hy
    | some z => rw [hg] at hy; simpa using hy.symm

theorem Matches.array {v : Val} {xs : List Tree} {t : Tree} (h : Matches X.m X.F X.scope probe v t)
    (hs : Tree.Same (.arr xs) t) : ∃ u : Nat → Val, v.asArray X.m = .ok (some v) ∧ v.type X.m = .ok .array ∧
      v.arrayLen X.m = .ok xs.length ∧ (∀ i, i < xs.length → v.get X.m i = .ok (some (u i))) ∧
      (∃ it us, v.iter X.m = .ok it ∧ it.len = xs.length ∧ collect X.m (fun x => .ok x) (xs.length + 1) it = .ok us ∧
        us.length = xs.length ∧ ∀ (i : Nat) y, us[i]? = some y → y = u i) ∧
      ∀ (i : Nat) (x : Tree), xs[i]? = some x → ∃ y, Tree.Same x y ∧ Matches X.m X.F X.scope probe (u i) y := by
  obtain ⟨ys, rfl, hl, he⟩ := hs.arr_inv
  generalize hd : Tree.arr ys = t at h
  cases h with
  | leaf type na nd read => subst hd; exact absurd rfl ((Props.leaf_read type na nd read).1 _)
  | dict => cases hd
  | arr u type len get iter each =>
    cases hd
    obtain ⟨it, h1, h2⟩ := iter
    have hc := (iter_counts h1).1
    rw [len] at hc
    have hc : ys.length = it.len := by injection hc
    refine ⟨u, type, asArray_type type, by rw [hl]; exact len, fun i hi => get i (by omega),
      ⟨it, _, h1, by omega, by rw [hl]; exact h2, by simp [hl], ?_⟩, ?_⟩
    · intro i y hy
      rw [List.getElem?_mapIdx] at hy
      cases hg : ys[i]? with
      | none => rw [hg] at hy; cases hy
      | some z => rw [hg] at hy; simpa using hy.symm
    · intro i x hx
      have hi : i < ys.length := by have := (List.getElem?_eq_some_iff.mp hx).1; omega
      exact ⟨ys[i], he i x ys[i] hx (by simp [hi]), each i ys[i] (by simp [hi])⟩

theorem struct_ok {fs : List (RStr × Ty)} {xs : List (RStr × SVal)} (names : xs.map (·.1) = fs.map (·.1))
    (distinct : (fs.map (·.1)).Nodup) (hkeys : ∀ x ∈ xs, x.1.bytes ≠ [])
    (ih : ∀ (i : Nat) (f : RStr × Ty) (x : RStr × SVal), fs[i]? = some f → xs[i]? = some x → Gives X probe f.2 x.2)
    {v : Val} {t : Tree} (hm : Matches X.m X.F X.scope probe v t) (hs : Tree.Same (.dict (SVal.fieldTrees X.F xs)) t) :
    v.asDict X.m = .ok (some v) ∧ v.dictLen X.m = .ok fs.length ∧
      (∀ k ∈ fs.map (·.1), probe k.bytes → ∃ r, v.Lookup X.m X.scope k.bytes (some r)) ∧
      ∃ it, De.map X ⟨v, false⟩ = .ok it ∧ ∃ N, ∀ fuel, N ≤ fuel → ∀ fuel',
        De.struct X fuel' (Ty.de X fuel) fs it = .ok xs := by
  obtain ⟨mid, lvs, rfl, perm, keys, each⟩ := hs.dict_inv
  rw [fieldTrees_eq] at perm
  have hkl : (xs.map fun x => x.1.bytes).Perm (lvs.map (·.1)) := by
    rw [← keys]
    have := perm.map (·.1)
    simpa [Function.comp_def] using this
  have hlenx : xs.length = fs.length := by simpa using congrArg List.length names
  have hlen : lvs.length = fs.length := by have := hkl.length_eq; simp at this; omega
  have hmem : ∀ k, k ∈ lvs.map (·.1) ↔ ∃ x ∈ xs, x.1.bytes = k := by
    intro k
    rw [← hkl.mem_iff]; simp
  obtain ⟨u, it, h1, h2, h3, h4, h5, h6, h7⟩ := dict_walk hm (fun e he => by
    obtain ⟨x, hx, hxe⟩ := (hmem e.1).mp (List.mem_map_of_mem he)
    rw [← hxe]; exact hkeys x hx)
  have hbytes : (fs.map fun f => f.1.bytes) = xs.map fun x => x.1.bytes := by
    have := congrArg (List.map RStr.bytes) names
    simpa [Function.comp_def] using this.symm
  refine ⟨h4, by rw [h5, hlen], ?_, it, h1, ?_⟩
  · intro k hk hp
    refine h6 k.bytes hp ?_
    rw [hmem]
    rw [← names] at hk
    obtain ⟨x, hx, rfl⟩ := List.mem_map.mp hk
    exact ⟨x, hx, rfl⟩
  · obtain ⟨N, hN⟩ := bound (P := fun j fuel => ∀ e, lvs[j]? = some e → ∃ (i : Nat) (fd : RStr × Ty) (x : RStr × SVal),
        fs[i]? = some fd ∧ xs[i]? = some x ∧ fd.1.bytes = e.1 ∧ Ty.de X fuel fd.2 ⟨u j, false⟩ = .ok x.2) lvs.length (by
      intro j hj
      have hjm : j < mid.length := by have := congrArg List.length keys; simp at this; omega
      have hmid : mid[j] ∈ xs.map fun x => (x.1.bytes, x.2.tree X.F) := perm.mem_iff.mpr (List.getElem_mem _)
      obtain ⟨x, hx, hxe⟩ := List.mem_map.mp hmid
      obtain ⟨i, hi, rfl⟩ := List.mem_iff_getElem.mp hx
      have hk : mid[j].1 = lvs[j].1 := by
        have := congrArg (·[j]?) keys
        simpa [hj, hjm] using this
      have hname : fs[i].1 = xs[i].1 := by
        have := congrArg (·[i]?) names
        simpa [hi, show i < fs.length by omega] using this.symm
      obtain ⟨N, hN⟩ := ih i fs[i] xs[i] (by simp) (by simp) (h7 j lvs[j].1 lvs[j].2 (by simp [hj]))
        (by have := each j mid[j] lvs[j] (by simp) (by simp); rw [← hxe] at this; exact this)
      refine ⟨N, fun fuel hf e he => ?_⟩
      have he : lvs[j] = e := by simpa [hj] using he
      subst he
      exact ⟨i, fs[i], xs[i], by simp, by simp, by rw [hname, ← hk, ← hxe], hN fuel hf⟩)
    refine ⟨N, fun fuel hf fuel' => ?_⟩
    have hes : (lvs.mapIdx fun i kv => (kv.1, u i)).map (·.1) = lvs.map (·.1) := by
      apply List.ext_getElem?
      intro i
      simp only [List.getElem?_map, List.getElem?_mapIdx]
      cases lvs[i]? <;> rfl
    have hnd : (lvs.map (·.1)).Nodup := by
      rw [← hkl.nodup_iff]
      rw [← names] at distinct
      have hb : (xs.map fun x => x.1.bytes) = (xs.map (·.1)).map RStr.bytes := by simp
      rw [hb, List.Nodup, List.pairwise_map]
      exact distinct.imp fun hab hc => hab (RStr.ext_bytes hc)
    have hf1 := fields_ok (fuel := fuel') (f := Ty.de X fuel) (vals := xs.map (·.2)) distinct (by simpa using hlenx) h2
      (n := it.len + 1) (got := fs.map fun _ => none) (by simp; omega) (by simp) (by rw [hes]; exact hnd)
      (by
        intro e he
        obtain ⟨j, hj, rfl⟩ := List.mem_iff_getElem.mp he
        simp only [List.length_mapIdx] at hj
        obtain ⟨i, fd, x, g1, g2, g3, g4⟩ := hN fuel hf j hj lvs[j] (by simp [hj])
        refine ⟨i, fd, x.2, g1, by simp [g2], ?_, ?_⟩
        · simpa using g3
        · simpa using g4)
      (by
        intro i fd x g1 g2
        rw [hes, if_pos]
        · simp [g1]
        · rw [hmem]
          obtain ⟨hi, rfl⟩ := List.getElem?_eq_some_iff.mp g1
          refine ⟨xs[i], List.getElem_mem _, ?_⟩
          have := congrArg (·[i]?) hbytes
          simpa [hi, show i < xs.length by omega] using this.symm)
    unfold De.struct
    simp only [hf1, ok_bind]
    have := build_ok (X := X) fs names
    simpa [Function.comp_def] using this

theorem tuple_ok {ts : List Ty} {xs : List SVal} (len : ts.length = xs.length)
    (ih : ∀ (i : Nat) t x, ts[i]? = some t → xs[i]? = some x → Gives X probe t x) {v : Val} {t : Tree}
    (hm : Matches X.m X.F X.scope probe v t) (hs : Tree.Same (.arr (SVal.trees X.F xs)) t) :
    v.asArray X.m = .ok (some v) ∧ v.arrayLen X.m = .ok ts.length ∧
      ∃ it, De.any X ⟨v, false⟩ = .ok (.seq it) ∧ De.seq X ⟨v, false⟩ = .ok it ∧
        ∃ N, ∀ fuel, N ≤ fuel → De.each X (Ty.de X fuel) ts it = .ok xs := by
  obtain ⟨u, h1, h2, h3, _, ⟨it, us, h5, h6, h7, h8, h9⟩, h10⟩ := hm.array hs
  have htl : (SVal.trees X.F xs).length = xs.length := by rw [trees_eq]; simp
  refine ⟨h1, by rw [h3, htl, len], it, ?_, ?_, ?_⟩
  · unfold De.any
    simp only [h2, dread_ok, ok_bind, h5, pure_eq]
  · unfold De.seq
    simp only [h1, dread_ok, ok_bind, h5]
  · obtain ⟨N, hN⟩ := bound (P := fun i fuel => ∀ t x, ts[i]? = some t → xs[i]? = some x →
        (u i).Direct X.m ∧ Ty.de X fuel t ⟨u i, false⟩ = .ok x) xs.length (by
      intro i hi
      obtain ⟨y, hy1, hy2⟩ := h10 i (xs[i].tree X.F) (by rw [trees_eq]; simp [hi])
      obtain ⟨N, hN⟩ := ih i ts[i] xs[i] (by simp) (by simp) hy2 hy1
      refine ⟨N, fun fuel hf t x ht hx => ?_⟩
      have ht : ts[i] = t := by simpa [show i < ts.length by omega] using ht
      have hx : xs[i] = x := by simpa [hi] using hx
      subst ht hx
      exact ⟨hy2.direct, hN fuel hf⟩)
    refine ⟨N, fun fuel hf => each_ok ts h7 (by omega) (by omega) ?_⟩
    intro i t w x g1 g2 g3
    cases h9 i w g2
    exact hN fuel hf i (List.getElem?_eq_some_iff.mp g3).1 t x g1 g3

theorem seq_ok {ty : Ty} {xs : List SVal} (ih : ∀ x ∈ xs, Gives X probe ty x) {v : Val} {t : Tree}
    (hm : Matches X.m X.F X.scope probe v t) (hs : Tree.Same (.arr (SVal.trees X.F xs)) t) :
    ∃ it, De.seq X ⟨v, false⟩ = .ok it ∧
      ∃ N, ∀ fuel, N ≤ fuel → De.all X (Ty.de X fuel ty) (it.len + 1) it = .ok xs := by
  obtain ⟨u, h1, h2, h3, _, ⟨it, us, h5, h6, h7, h8, h9⟩, h10⟩ := hm.array hs
  have htl : (SVal.trees X.F xs).length = xs.length := by rw [trees_eq]; simp
  refine ⟨it, ?_, ?_⟩
  · unfold De.seq
    simp only [h1, dread_ok, ok_bind, h5]
  · obtain ⟨N, hN⟩ := bound (P := fun i fuel => ∀ x, xs[i]? = some x →
        (u i).Direct X.m ∧ Ty.de X fuel ty ⟨u i, false⟩ = .ok x) xs.length (by
      intro i hi
      obtain ⟨y, hy1, hy2⟩ := h10 i (xs[i].tree X.F) (by rw [trees_eq]; simp [hi])
      obtain ⟨N, hN⟩ := ih xs[i] (List.getElem_mem _) hy2 hy1
      refine ⟨N, fun fuel hf x hx => ?_⟩
      have hx : xs[i] = x := by simpa [hi] using hx
      subst hx
      exact ⟨hy2.direct, hN fuel hf⟩)
    refine ⟨N, fun fuel hf => all_ok h7 (by omega) (by omega) ?_⟩
    intro i w x g2 g3
    cases h9 i w g2
    exact hN fuel hf i (List.getElem?_eq_some_iff.mp g3).1 x g3

theorem perm_map_inv {α β : Type} {f : α → β} {a b : List β} (h : a.Perm b) :
    ∀ {l : List α}, a = l.map f → ∃ l', l.Perm l' ∧ b = l'.map f := by
  induction h with
  | nil => intro l h; exact ⟨[], by cases l <;> simp_all, rfl⟩
  | cons x _ ih =>
    intro l h
    cases l with
    | nil => cases h
    | cons y l =>
      injection h with h1 h2
      obtain ⟨l', h3, h4⟩ := ih h2
      exact ⟨y :: l', h3.cons y, by rw [h4, h1]; rfl⟩
  | swap x y l0 =>
    intro l h
    cases l with
    | nil => cases h
    | cons p l =>
      injection h with h1 h2
      cases l with
      | nil => cases h2
      | cons q l =>
        injection h2 with h2 h3
        exact ⟨q :: p :: l, List.Perm.swap _ _ _, by rw [h1, h2, h3]; rfl⟩
  | trans _ _ ih1 ih2 =>
    intro l h
    obtain ⟨l1, h1, h2⟩ := ih1 h
    obtain ⟨l2, h3, h4⟩ := ih2 h2
    exact ⟨l2, h1.trans h3, h4⟩

theorem map_ok {ty : Ty} {kvs : List (RStr × SVal)} (sorted : Ascends kvs) (hkeys : ∀ x ∈ kvs, x.1.bytes ≠ [])
    (ih : ∀ e ∈ kvs, Gives X probe ty e.2) {v : Val} {t : Tree} (hm : Matches X.m X.F X.scope probe v t)
    (hs : Tree.Same (.dict (kvs.map fun e => (e.1.bytes, e.2.tree X.F))) t) :
    ∃ N, ∀ fuel, N ≤ fuel → Ty.de X fuel (.map ty) ⟨v, false⟩ = .ok (.map (kvs.map fun e => (.prim (.str e.1), e.2))) := by
  obtain ⟨mid, lvs, rfl, perm, keys, each⟩ := hs.dict_inv
  obtain ⟨es, hpe, rfl⟩ := perm_map_inv perm rfl
  have hlen : es.length = lvs.length := by simpa using congrArg List.length keys
  have hname : ∀ (j : Nat) (a : RStr × SVal) (e : List UInt8 × Tree), es[j]? = some a → lvs[j]? = some e → e.1 = a.1.bytes := by
    intro j a e h1 h2
    have := congrArg (·[j]?) keys
    simpa [h1, h2] using this.symm
  obtain ⟨u, it, h1, h2, h3, h4, h5, h6, h7⟩ := dict_walk hm (fun e he => by
    obtain ⟨j, hj, rfl⟩ := List.mem_iff_getElem.mp he
    rw [hname j es[j] lvs[j] (by simp) (by simp)]
    exact hkeys _ (hpe.mem_iff.mpr (List.getElem_mem _)))
  obtain ⟨N, hN⟩ := bound (P := fun j fuel => ∀ a, es[j]? = some a → Ty.de X fuel ty ⟨u j, false⟩ = .ok a.2) es.length (by
    intro j hj
    obtain ⟨N, hN⟩ := ih es[j] (hpe.mem_iff.mpr (List.getElem_mem _)) (h7 j lvs[j].1 lvs[j].2 (by simp [show j < lvs.length by omega]))
      (by have := each j (es[j].1.bytes, es[j].2.tree X.F) lvs[j] (by simp [hj]) (by simp); exact this)
    refine ⟨N, fun fuel hf a ha => ?_⟩
    have ha : es[j] = a := by simpa [hj] using ha
    subst ha
    exact hN fuel hf)
  refine ⟨N + 2, fun fuel hf => ?_⟩
  obtain ⟨fuel, rfl⟩ : ∃ f, fuel = f + 2 := ⟨fuel - 2, by omega⟩
  have hp := pairs_ok (fk := fun k => do
        match ← Ty.de X (fuel + 1) .string k with
        | .prim (.str s) => pure s
        | _ => .err .message) (fv := fun _ => Ty.de X (fuel + 1) ty) h2 (n := it.len + 1) (as := es) (by simp; omega)
    (by simpa using hlen) (by
      intro j e a g1 g2
      have hj := (List.getElem?_eq_some_iff.mp g2).1
      rw [List.getElem?_mapIdx] at g1
      have hlj : lvs[j]? = some lvs[j] := by simp [show j < lvs.length by omega]
      rw [hlj] at g1
      cases g1
      refine ⟨?_, hN (fuel + 1) (by omega) j hj a g2⟩
      intro d hd
      have hb : lvs[j].1 = a.1.bytes := hname j a lvs[j] g2 hlj
      dsimp only at hd
      rw [hb] at hd
      have hv := a.1.valid
      simp only [Ty.de, hd, ok_bind, hv, dite_true, pure_eq])
  unfold Ty.de
  simp only [h1, ok_bind]
  refine bind_eq_ok.mpr ⟨es, hp, ?_⟩
  simp only [pure_eq, foldl_insert_sorted hpe.symm sorted]

/-! ## Enums -/

/-- Formatting a value that can be read. -/
theorem Matches.debug (P : Printer) {v : Val} {t : Tree} (h : Matches X.m X.F X.scope probe v t) :
    ∃ N, ∀ fuel, N ≤ fuel → ∃ s, Val.debug P X.m X.F X.scope fuel v = .ok s := by
  induction h with
  | @leaf v ty t type na nd read =>
    refine ⟨1, fun fuel hf => ?_⟩
    obtain ⟨fuel, rfl⟩ : ∃ f, fuel = f + 1 := ⟨fuel - 1, by omega⟩
    unfold readTree at read
    unfold Val.debug
    simp only [type, ok_bind] at read ⊢
    suffices ∃ s, v.debugField P X.m X.F X.scope (Val.debug P X.m X.F X.scope fuel) ty = .ok s by
      obtain ⟨s, hs⟩ := this
      rw [hs]
      exact ⟨_, rfl⟩
    unfold Val.debugField
    cases ty <;> first
      | contradiction
      | exact ⟨_, rfl⟩
      | (cases read; done)
      | (obtain ⟨i, hi, _⟩ := bind_eq_ok.mp read
         first
         | (simp only [toShort_of_toInt type hi, ok_bind, pure_eq]; exact ⟨_, rfl⟩)
         | (simp only [hi, ok_bind, pure_eq]; exact ⟨_, rfl⟩))
  | @arr v xs u type len get iter each ih =>
    obtain ⟨it, h1, h2⟩ := iter
    obtain ⟨N, hN⟩ := bound (P := fun i fuel => ∃ s, Val.debug P X.m X.F X.scope fuel (u i) = .ok s) xs.length
      (fun i hi => ih i xs[i] (by simp [hi]))
    refine ⟨N + 1, fun fuel hf => ?_⟩
    obtain ⟨fuel, rfl⟩ : ∃ f, fuel = f + 1 := ⟨fuel - 1, by omega⟩
    have hc : xs.length = it.len := by
      have := (iter_counts h1).1
      rw [len] at this
      injection this
    unfold Val.debug Val.debugField Val.debugArray
    simp only [asArray_type type, ok_bind, h1]
    rw [hc] at h2
    obtain ⟨ss, hss⟩ := debugItems_ok (f := Val.debug P X.m X.F X.scope fuel) h2 fun y hy => by
      obtain ⟨i, hi, rfl⟩ := List.mem_iff_getElem.mp hy
      simp only [List.length_mapIdx] at hi
      simp only [List.getElem_mapIdx]
      exact hN fuel (by omega) i hi
    rw [hss]
    exact ⟨_, rfl⟩
  | @dict v kvs u type len iter order found absent each ih =>
    obtain ⟨it, h1, h2⟩ := iter
    obtain ⟨N, hN⟩ := bound (P := fun i fuel => ∃ s, Val.debug P X.m X.F X.scope fuel (u i) = .ok s) kvs.length
      (fun i hi => ih i kvs[i].1 kvs[i].2 (by simp [hi]))
    refine ⟨N + 1, fun fuel hf => ?_⟩
    obtain ⟨fuel, rfl⟩ : ∃ f, fuel = f + 1 := ⟨fuel - 1, by omega⟩
    have hc : kvs.length ≤ it.len := by
      have := (iter_counts h1).1
      unfold Val.dictLen at len
      simp only [this, ok_bind, pure_eq, ok.injEq] at len
      omega
    unfold Val.debug Val.debugField Val.debugDict
    simp only [asDict_type type, ok_bind, h1]
    obtain ⟨ss, hss⟩ := debugEntries_ok (P := P) (f := Val.debug P X.m X.F X.scope fuel) h2 fun y hy => by
      obtain ⟨i, hi, rfl⟩ := List.mem_iff_getElem.mp hy
      simp only [List.length_mapIdx] at hi
      simp only [List.getElem_mapIdx]
      exact hN fuel (by omega) i hi
    rw [debugEntries_mono hss (by omega)]
    exact ⟨_, rfl⟩

theorem format_ok {v : Val} {xs : List Tree} {t : Tree} (h : Matches X.m X.F X.scope probe v t)
    (hs : Tree.Same (.arr xs) t) : ∃ N, ∀ fuel, N ≤ fuel → De.format X fuel v = .ok () := by
  obtain ⟨N, hN⟩ := h.debug ⟨fun _ => [], fun _ => true⟩
  obtain ⟨_, _, ty, _⟩ := h.array hs
  refine ⟨N, fun fuel hf => ?_⟩
  obtain ⟨s, this⟩ := hN (fuel + 1) (by omega)
  unfold Val.debug at this
  simp only [ty, ok_bind, Val.debugField] at this
  obtain ⟨f, this, _⟩ := bind_eq_ok.mp this
  unfold De.format
  rw [this, dread_ok]
  rfl

theorem elem_ok {v u : Val} {i : Nat} {fuel : Nat} (hf : De.format X fuel v = .ok ()) (h : v.get X.m i = .ok (some u)) :
    De.elem X fuel v i = .ok u := by
  unfold De.elem
  simp only [h, dread_ok, ok_bind, hf, pure_eq]

theorem part_ok {v u : Val} (hv : v.Direct X.m) (hu : u.Direct X.m) {i : Nat} {fuel : Nat}
    (hf : De.format X fuel v = .ok ()) (h : v.get X.m i = .ok (some u)) : De.part X fuel v i = .ok ⟨u, false⟩ := by
  obtain ⟨ty, h1, h2⟩ := hu
  obtain ⟨ty', h1', h2'⟩ := hv
  obtain ⟨w, hw⟩ := isWide_ok h1'
  unfold De.part
  simp only [elem_ok hf h, dread_ok, ok_bind, hw, new_ok h1 h2]

/-- The name of a variant. -/
theorem variant_named {vs : List (RStr × Variant)} (distinct : (vs.map (·.1)).Nodup) {i : Nat} {name : RStr} {w : Variant} {tag : Tree}
    (decl : vs[i]? = some (name, w)) (called : tagNamed name tag) {v : Val} {t : Tree} {rest : List Tree} (hm : Matches X.m X.F X.scope probe v t)
    (hs : Tree.Same (.arr (tag :: rest)) t) :
    v.asArray X.m = .ok (some v) ∧ v.arrayLen X.m = .ok (rest.length + 1) ∧ v.Direct X.m ∧ ∃ M, ∀ fuel, M ≤ fuel →
      (∃ d, De.part X fuel v 0 = .ok d ∧ De.ident X (vs.map (·.1)) d = .ok (some i)) ∧
      ∀ r, rest[0]? = some r → ∃ u y, De.elem X fuel v 1 = .ok u ∧ De.part X fuel v 1 = .ok ⟨u, false⟩ ∧
        v.get X.m 1 = .ok (some u) ∧ Tree.Same r y ∧ Matches X.m X.F X.scope probe u y := by
  obtain ⟨u, h1, h2, h3, h4, _, h5⟩ := hm.array hs
  have hv : v.Direct X.m := ⟨_, h2, by simp⟩
  obtain ⟨M, hM⟩ := format_ok hm hs
  refine ⟨h1, h3, hv, M, fun fuel hf => ⟨?_, ?_⟩⟩
  · obtain ⟨y, hy1, hy2⟩ := h5 0 _ rfl
    refine ⟨⟨u 0, false⟩, part_ok hv hy2.direct (hM fuel hf) (h4 0 (by simp)), ?_⟩
    rcases called with rfl | rfl
    · obtain ⟨w, hw1, hw2⟩ := hy2.scalar hy1 (by simp) (by simp)
      cases hw2
      exact ident_ok distinct (by simp [decl]) hw1
    · obtain ⟨w, hw1, hw2⟩ := hy2.scalar hy1 (by simp) (by simp)
      cases hw2
      exact ident_data distinct (by simp [decl]) hw1
  · intro r hr
    obtain ⟨y, hy1, hy2⟩ := h5 1 r (by simpa using hr)
    have hl : 1 < (tag :: rest).length := by
      cases rest with
      | nil => cases hr
      | cons _ _ => simp
    exact ⟨u 1, y, elem_ok (hM fuel hf) (h4 1 hl), part_ok hv hy2.direct (hM fuel hf) (h4 1 hl), h4 1 hl, hy1, hy2⟩

/-- The name of a variant. -/
theorem variant_ok {vs : List (RStr × Variant)} (distinct : (vs.map (·.1)).Nodup) {i : Nat} {name : RStr} {w : Variant}
    (decl : vs[i]? = some (name, w)) {v : Val} {t : Tree} {rest : List Tree} (hm : Matches X.m X.F X.scope probe v t)
    (hs : Tree.Same (.arr (.str name.bytes :: rest)) t) :
    v.asArray X.m = .ok (some v) ∧ v.arrayLen X.m = .ok (rest.length + 1) ∧ v.Direct X.m ∧ ∃ M, ∀ fuel, M ≤ fuel →
      (∃ d, De.part X fuel v 0 = .ok d ∧ De.ident X (vs.map (·.1)) d = .ok (some i)) ∧
      ∀ r, rest[0]? = some r → ∃ u y, De.elem X fuel v 1 = .ok u ∧ De.part X fuel v 1 = .ok ⟨u, false⟩ ∧
        v.get X.m 1 = .ok (some u) ∧ Tree.Same r y ∧ Matches X.m X.F X.scope probe u y :=
  variant_named distinct decl (.inl rfl) hm hs

/-! ## All types -/

theorem depth {P : Nat → Prop} {N : Nat} (h : ∀ fuel, N ≤ fuel → P (fuel + 1)) : ∃ M, ∀ fuel, M ≤ fuel → P fuel :=
  ⟨N + 1, fun fuel hf => by
    obtain ⟨f, rfl⟩ : ∃ f, fuel = f + 1 := ⟨fuel - 1, by omega⟩
    exact h f (by omega)⟩

/-- Deserializing gives the value back, whatever the type. -/
theorem de_ok {ty : Ty} {x : SVal} (h : HasTy X.types ty x) (hr : x.Returns X.F)
    (he : x.Every (fun _ => True) fun k => k.bytes ≠ [] ∧ probe k.bytes) : Gives X probe ty x := by
  induction h with
  | named decl of ih =>
    intro v t hm hs
    obtain ⟨N, hN⟩ := ih hr he hm hs
    refine depth (N := N) fun fuel hf => ?_
    unfold Ty.de
    simp only [decl, hN fuel hf]
  | bool b =>
    intro v t hm hs
    obtain ⟨w, h1, h2⟩ := hm.scalar hs (by simp [SVal.tree, Prim.scalar, Scalar.tree]) (by simp [SVal.tree, Prim.scalar, Scalar.tree])
    cases h2
    refine depth (N := 0) fun fuel hf => ?_
    simp only [Ty.de, h1, ok_bind, pure_eq]
  | @int it n h =>
    obtain ⟨lo, hi⟩ := holds_iff.mp h
    intro v t hm hs
    have ht : (SVal.prim (.int it n)).tree X.F = .int n := by rw [SVal.tree]; exact intTy_tree X.F it n lo hi
    rw [ht] at hs
    obtain ⟨w, h1, h2⟩ := hm.scalar hs (by simp) (by simp)
    refine depth (N := 0) fun fuel hf => ?_
    cases h2 with
    | i64 => simp only [Ty.de, h1, ok_bind, pure_eq, lo, hi, and_self, if_true]
    | u64 => simp only [Ty.de, h1, ok_bind, pure_eq, hi, if_true]
  | f32 b =>
    intro v t hm hs
    have ht : (SVal.prim (.f32 b)).tree X.F = .float (X.F.widen b) := by simp [SVal.tree, Prim.scalar, Scalar.tree]
    rw [ht] at hs
    have hr : X.F.narrow (X.F.widen b) = b := hr
    obtain ⟨w, h1, h2⟩ := hm.scalar hs (by simp) (by simp)
    refine depth (N := 0) fun fuel hf => ?_
    generalize hd : Tree.float (X.F.widen b) = tt at h2
    cases h2 <;> first | (injection hd with hd) | injection hd
    case f32 b' => simp only [Ty.de, h1, ok_bind, pure_eq, ← hd, hr]
    case f64 d => simp only [Ty.de, h1, ok_bind, pure_eq, ← hd, hr]
  | f64 d =>
    intro v t hm hs
    have ht : (SVal.prim (.f64 d)).tree X.F = .float d := by simp [SVal.tree, Prim.scalar, Scalar.tree]
    rw [ht] at hs
    obtain ⟨w, h1, h2⟩ := hm.scalar hs (by simp) (by simp)
    refine depth (N := 0) fun fuel hf => ?_
    generalize hd : Tree.float d = tt at h2
    cases h2 <;> first | (injection hd with hd) | injection hd
    case f32 b' =>
      have hr : X.F.widen (X.F.narrow d) = d := hr b' hd.symm
      simp only [Ty.de, h1, ok_bind, pure_eq, ← hd, hr]
    case f64 d => simp only [Ty.de, h1, ok_bind, pure_eq, ← hd]
  | @char s one =>
    intro v t hm hs
    obtain ⟨w, h1, h2⟩ := hm.scalar hs (by simp [SVal.tree]) (by simp [SVal.tree])
    refine depth (N := 0) fun fuel hf => ?_
    rw [SVal.tree] at h2
    cases h2
    have hv := s.valid
    simp only [Ty.de, h1, ok_bind, pure_eq, hv, dite_true, one, if_true]
  | string s =>
    intro v t hm hs
    have ht : (SVal.prim (.str s)).tree X.F = .str s.bytes := by simp [SVal.tree, Prim.scalar, Scalar.tree]
    rw [ht] at hs
    obtain ⟨w, h1, h2⟩ := hm.scalar hs (by simp) (by simp)
    refine depth (N := 0) fun fuel hf => ?_
    cases h2
    have hv := s.valid
    simp only [Ty.de, h1, ok_bind, pure_eq, hv, dite_true]
  | bytes d =>
    intro v t hm hs
    have ht : (SVal.prim (.bytes d)).tree X.F = .data d := by simp [SVal.tree, Prim.scalar, Scalar.tree]
    rw [ht] at hs
    obtain ⟨w, h1, h2⟩ := hm.scalar hs (by simp) (by simp)
    refine depth (N := 0) fun fuel hf => ?_
    cases h2
    simp only [Ty.de, h1, ok_bind, pure_eq]
  | none ty =>
    intro v t hm hs
    rw [SVal.tree] at hs
    cases hs.leaf_inv (by simp) (by simp)
    obtain ⟨vt, h1, h2, h3⟩ := hm.type
    cases h3.mpr rfl
    refine depth (N := 0) fun fuel hf => ?_
    simp only [Ty.de, h1, dread_ok, ok_bind, pure_eq]
  | @some ty x of ih =>
    intro v t hm hs
    rw [SVal.Returns] at hr
    rw [SVal.tree] at hs
    obtain ⟨vt, h1, h2, h3⟩ := hm.type
    have hn : vt ≠ .null := by
      intro hc
      have := h3.mp hc
      subst this
      generalize hg : x.tree X.F = tt at hs
      cases hs
      exact hr.2 hg
    obtain ⟨N, hN⟩ := ih hr.1 (by simpa [SVal.Every] using he) hm hs
    refine depth (N := N) fun fuel hf => ?_
    unfold Ty.de
    simp only [h1, dread_ok, ok_bind, hN fuel hf, pure_eq]
  | unit =>
    intro v t hm hs
    rw [SVal.tree] at hs
    obtain ⟨w, h1, h2⟩ := hm.scalar hs (by simp) (by simp)
    refine depth (N := 0) fun fuel hf => ?_
    cases h2
    simp only [Ty.de, h1, ok_bind, pure_eq]
  | unitStruct => simp [SVal.Returns] at hr
  | newtypeStruct => simp [SVal.Returns] at hr
  | @seq ty xs of ih =>
    intro v t hm hs
    rw [SVal.Returns, returnsAll_mem] at hr
    rw [SVal.Every, everyOf_mem] at he
    rw [SVal.tree] at hs
    obtain ⟨it, h1, N, hN⟩ := seq_ok (fun x hx => ih x hx (hr x hx) (he.2 x hx)) hm hs
    refine depth (N := N) fun fuel hf => ?_
    simp only [Ty.de, h1, ok_bind, pure_eq, hN fuel hf]
  | @tuple ts xs len of ih =>
    intro v t hm hs
    rw [SVal.Returns, returnsAll_mem] at hr
    rw [SVal.Every, everyOf_mem] at he
    rw [SVal.tree] at hs
    obtain ⟨_, _, it, h1, _, N, hN⟩ := tuple_ok len (fun i t x a b => ih i t x a b (hr x (List.mem_of_getElem? b))
      (he x (List.mem_of_getElem? b))) hm hs
    refine depth (N := N) fun fuel hf => ?_
    simp only [Ty.de, h1, ok_bind, pure_eq, hN fuel hf]
  | @map ty kvs sorted of ih =>
    intro v t hm hs
    rw [SVal.Returns, returnsEntries_mem] at hr
    rw [SVal.Every, everyEntry_mem] at he
    rw [SVal.tree, entryTrees_eq] at hs
    have hke : ∀ s : RStr, (SVal.prim (.str s)).keyText = s := fun s => rfl
    simp only [List.map_map, Function.comp_def, hke] at hs
    simp only [List.mem_map, forall_exists_index, and_imp, forall_apply_eq_imp_iff₂, hke] at hr he
    exact map_ok sorted (fun e he' => (he e he').1.1) (fun e he' => ih e he' (hr e he') (he e he').2) hm hs
  | @struct fs xs names distinct of ih =>
    intro v t hm hs
    rw [SVal.Returns, returnsFields_mem] at hr
    rw [SVal.Every, everyField_mem] at he
    rw [SVal.tree] at hs
    obtain ⟨_, _, _, it, h1, N, hN⟩ := struct_ok names distinct (fun x hx => (he x hx).1.1)
      (fun i f x a b => ih i f x a b (hr x (List.mem_of_getElem? b)) (he x (List.mem_of_getElem? b)).2) hm hs
    refine depth (N := N) fun fuel hf => ?_
    simp only [Ty.de, h1, ok_bind, pure_eq, hN fuel hf fuel]
  | @unitVariant vs i name distinct decl =>
    intro v t hm hs
    rw [SVal.tree] at hs
    obtain ⟨h1, h2, _, M, hM⟩ := variant_ok distinct decl hm hs
    refine depth (N := M) fun fuel hf => ?_
    obtain ⟨⟨d, h3, h4⟩, _⟩ := hM fuel hf
    simp only [Ty.de, De.enum, h1, dread_ok, ok_bind, h3, h4, decl, h2, List.length_nil, Nat.zero_add, if_true, pure_eq]
  | @newtypeVariant vs i name ty x distinct decl of ih =>
    intro v t hm hs
    rw [SVal.tree] at hs
    rw [SVal.Returns] at hr
    rw [SVal.Every] at he
    obtain ⟨h1, h2, _, M, hM⟩ := variant_ok distinct decl hm hs
    obtain ⟨u, y, _, _, g1, h7, h8⟩ := (hM M (Nat.le_refl _)).2 _ rfl
    obtain ⟨N, hN⟩ := ih hr he.2 h8 h7
    refine depth (N := max M N) fun fuel hf => ?_
    obtain ⟨⟨d, h3, h4⟩, h5⟩ := hM fuel (by omega)
    obtain ⟨u', _, _, h6, g2, _⟩ := h5 _ rfl
    rw [g1] at g2; cases g2
    simp only [Ty.de, De.enum, h1, dread_ok, ok_bind, h3, h4, decl, h6, hN fuel (by omega), pure_eq]
  | @tupleVariant vs i name ts xs distinct decl len of ih =>
    intro v t hm hs
    rw [SVal.tree] at hs
    rw [SVal.Returns, returnsAll_mem] at hr
    rw [SVal.Every, everyOf_mem] at he
    obtain ⟨h1, h2, hv, M, hM⟩ := variant_ok distinct decl hm hs
    obtain ⟨u, y, _, _, e1, h8, h9⟩ := (hM M (Nat.le_refl _)).2 _ rfl
    obtain ⟨g1, g2, it, g3, g4, N, hN⟩ := tuple_ok len (fun i t x a b => ih i t x a b (hr x (List.mem_of_getElem? b))
      (he.2 x (List.mem_of_getElem? b))) h9 h8
    obtain ⟨ty', k1, k2⟩ := hv
    obtain ⟨w, hw⟩ := isWide_ok k1
    obtain ⟨ty'', k3, k4⟩ := h9.direct
    refine depth (N := max M N) fun fuel hf => ?_
    obtain ⟨⟨d, h3, h4⟩, h5⟩ := hM fuel (by omega)
    obtain ⟨u', _, h6, _, e2, _⟩ := h5 _ rfl
    rw [e1] at e2; cases e2
    simp only [Ty.de, De.enum, h1, dread_ok, ok_bind, h3, h4, decl, De.tupleVariant, h6, g1, g2, if_true, hw,
      new_ok k3 k4, g4, hN fuel (by omega), pure_eq]
  | @structVariant vs i name fs xs distinct decl names fields of ih =>
    intro v t hm hs
    rw [SVal.tree] at hs
    rw [SVal.Returns, returnsFields_mem] at hr
    rw [SVal.Every, everyField_mem] at he
    obtain ⟨h1, h2, hv, M, hM⟩ := variant_ok distinct decl hm hs
    obtain ⟨u, y, _, _, e1, h8, h9⟩ := (hM M (Nat.le_refl _)).2 _ rfl
    obtain ⟨g1, g2, g5, it, g3, N, hN⟩ := struct_ok names fields (fun x hx => (he.2 x hx).1.1)
      (fun i f x a b => ih i f x a b (hr x (List.mem_of_getElem? b)) (he.2 x (List.mem_of_getElem? b)).2) h9 h8
    have hk : De.hasKeys X u (fs.map (·.1)) = .ok true := by
      refine hasKeys_ok _ fun k hk => g5 k hk ?_
      rw [← names] at hk
      obtain ⟨x, hx, rfl⟩ := List.mem_map.mp hk
      exact (he.2 x hx).1.2
    obtain ⟨ty', k1, k2⟩ := hv
    obtain ⟨w, hw⟩ := isWide_ok k1
    obtain ⟨ty'', k3, k4⟩ := h9.direct
    refine depth (N := max M N) fun fuel hf => ?_
    obtain ⟨⟨d, h3, h4⟩, h5⟩ := hM fuel (by omega)
    obtain ⟨u', _, h6, _, e2, _⟩ := h5 _ rfl
    rw [e1] at e2; cases e2
    simp only [Ty.de, De.enum, h1, dread_ok, ok_bind, h3, h4, decl, De.structVariant, h6, g1, g2, if_true, hw, hk,
      new_ok k3 k4, g3, hN fuel (by omega) fuel, pure_eq]

end Fleece
