import Verif.Proofs.FitsDe

/-!
# A value fits its own document
-/

namespace Fleece
open Res

theorem names_bytes {α : Type} {fs : List (RStr × α)} (h : (fs.map (·.1)).Nodup) : (fs.map fun f => f.1.bytes).Nodup := by
  have hb : (fs.map fun f => f.1.bytes) = (fs.map (·.1)).map RStr.bytes := by simp
  rw [hb, List.Nodup, List.pairwise_map]
  exact h.imp fun hab hc => hab (RStr.ext_bytes hc)

theorem fieldTrees_keys (F : FloatOps) (xs : List (RStr × SVal)) :
    (SVal.fieldTrees F xs).map (·.1) = (xs.map (·.1)).map RStr.bytes := by
  rw [fieldTrees_eq]
  simp

theorem fieldTrees_mem {F : FloatOps} {xs : List (RStr × SVal)} (hd : (xs.map (·.1)).Nodup) {i : Nat} {x : RStr × SVal}
    {t : Tree} (hx : xs[i]? = some x) (h : (x.1.bytes, t) ∈ SVal.fieldTrees F xs) : t = x.2.tree F := by
  have hi := (List.getElem?_eq_some_iff.mp hx).1
  obtain ⟨j, hj, he⟩ := List.mem_iff_getElem.mp h
  have hnd : ((SVal.fieldTrees F xs).map (·.1)).Nodup := by
    rw [fieldTrees_keys, List.Nodup, List.pairwise_map]
    exact hd.imp fun hab hc => hab (RStr.ext_bytes hc)
  have hxi : (SVal.fieldTrees F xs)[i]? = some (x.1.bytes, x.2.tree F) := by rw [fieldTrees_eq]; simp [hx]
  have hij : i = j := keys_inj hnd hxi (b := t) (by rw [← he]; simp)
  subst hij
  rw [List.getElem?_eq_getElem hj, he] at hxi
  cases hxi; rfl

theorem hasTy_fits {F : FloatOps} {N : NumOps} {types : List Ty} {K : RStr → Prop} {ty : Ty} {x : SVal}
    (h : HasTy types ty x) (hr : x.Returns F) (he : x.Every (fun _ => True) K) :
    Fits (strictRules F N types K) ty (x.tree F) x := by
  induction h with
  | named decl of ih => exact .named decl (ih hr he)
  | bool b => exact .bool b
  | @int it n h =>
    obtain ⟨lo, hi⟩ := holds_iff.mp h
    rw [SVal.tree, show (Prim.int it n).scalar = it.scalar n from rfl, intTy_tree F it n lo hi]
    exact .int h
  | f32 b =>
    have hr : F.narrow (F.widen b) = b := hr
    have := Fits.f32 (R := strictRules F N types K) (F.widen b)
    rw [show (strictRules F N types K).F = F from rfl, hr] at this
    exact this
  | f64 d => exact .f64 (R := strictRules F N types K) (d := d) hr
  | char one => exact .char one
  | string s => exact .string s
  | bytes d => exact .bytes d
  | none ty => exact .none ty
  | some of ih =>
    rw [SVal.Returns] at hr
    rw [SVal.Every] at he
    rw [SVal.tree]
    exact .some hr.2 (ih hr.1 he)
  | unit => exact .unit
  | unitStruct => simp [SVal.Returns] at hr
  | newtypeStruct => simp [SVal.Returns] at hr
  | seq of ih =>
    rw [SVal.Returns, returnsAll_mem] at hr
    rw [SVal.Every, everyOf_mem] at he
    rw [SVal.tree, trees_eq]
    refine .seq (by simp) ?_
    intro i t y ht hy
    simp only [List.getElem?_map, hy, Option.map_some, Option.some.injEq] at ht
    subst ht
    have := List.mem_of_getElem? hy
    exact ih y this (hr y this) (he.2 y this)
  | tuple len of ih =>
    rw [SVal.Returns, returnsAll_mem] at hr
    rw [SVal.Every, everyOf_mem] at he
    rw [SVal.tree, trees_eq]
    refine .tuple len (by simp [len]) ?_
    intro i ty t y hty ht hy
    simp only [List.getElem?_map, hy, Option.map_some, Option.some.injEq] at ht
    subst ht
    have := List.mem_of_getElem? hy
    exact ih i ty y hty hy (hr y this) (he y this)
  | @map ty kvs sorted of ih =>
    rw [SVal.Returns, returnsEntries_mem] at hr
    rw [SVal.Every, everyEntry_mem] at he
    rw [SVal.tree, entryTrees_eq]
    have hke : ∀ s : RStr, (SVal.prim (.str s)).keyText = s := fun s => rfl
    simp only [List.map_map, Function.comp_def, hke]
    simp only [List.mem_map, forall_exists_index, and_imp, forall_apply_eq_imp_iff₂, hke] at hr he
    refine .map sorted (by rw [List.map_map]; exact .refl _) ?_
    intro k t y ht hy
    obtain ⟨e, he', h1⟩ := List.mem_map.mp ht
    have hek : e = (k, y) := by
      obtain ⟨i, hi, rfl⟩ := List.mem_iff_getElem.mp he'
      obtain ⟨j, hj, hje⟩ := List.mem_iff_getElem.mp hy
      have hnd := ascends_nodup sorted
      rw [List.Nodup, List.pairwise_iff_getElem] at hnd
      have hk : kvs[i].1 = kvs[j].1 := by
        rw [hje]
        exact RStr.ext_bytes (by simpa using congrArg (·.1) h1)
      rcases Nat.lt_trichotomy i j with hlt | heq | hlt
      · exact (hnd i j (by simpa using hi) (by simpa using hj) hlt (by simpa using hk)).elim
      · subst heq; exact hje
      · exact (hnd j i (by simpa using hj) (by simpa using hi) hlt (by simpa using hk.symm)).elim
    subst hek
    cases h1
    exact ih (k, y) he' (hr _ he') (he _ he').2
  | @struct fs xs names distinct of ih =>
    rw [SVal.Returns, returnsFields_mem] at hr
    rw [SVal.Every, everyField_mem] at he
    rw [SVal.tree]
    have hkeys := fieldTrees_keys F xs
    rw [names] at hkeys
    have hname : ∀ (i : Nat) (f : RStr × Ty) (x : RStr × SVal), fs[i]? = some f → xs[i]? = some x → x.1 = f.1 := by
      intro i f x hf hx
      have := congrArg (·[i]?) names
      simpa [hf, hx] using this
    refine .struct distinct ?_ names ?_ ?_
    · rw [hkeys]
      rw [List.map_map]
      exact names_bytes distinct
    · intro i f y t hf hy ht
      rw [← hname i f y hf hy] at ht
      rw [fieldTrees_mem (by rw [names]; exact distinct) hy ht]
      have := List.mem_of_getElem? hy
      exact ih i f y hf hy (hr y this) (he y this).2
    · intro i f y hf hy hn
      rw [hkeys] at hn
      exact absurd (List.mem_map.mpr ⟨f.1, List.mem_map.mpr ⟨f, List.mem_of_getElem? hf, rfl⟩, rfl⟩) hn
  | unitVariant distinct decl => exact .unitVariant distinct decl (.inl rfl)
  | newtypeVariant distinct decl of ih =>
    rw [SVal.Returns] at hr
    rw [SVal.Every] at he
    rw [SVal.tree]
    exact .newtypeVariant distinct decl (.inl rfl) (ih hr he.2)
  | tupleVariant distinct decl len of ih =>
    rw [SVal.Returns, returnsAll_mem] at hr
    rw [SVal.Every, everyOf_mem] at he
    rw [SVal.tree, trees_eq]
    refine .tupleVariant distinct decl (.inl rfl) len (by simp [len]) ?_
    intro i ty t y hty ht hy
    simp only [List.getElem?_map, hy, Option.map_some, Option.some.injEq] at ht
    subst ht
    have := List.mem_of_getElem? hy
    exact ih i ty y hty hy (hr y this) (he.2 y this)
  | @structVariant vs i name fs xs distinct decl names fields of ih =>
    rw [SVal.Returns, returnsFields_mem] at hr
    rw [SVal.Every, everyField_mem] at he
    rw [SVal.tree]
    have hkeys := fieldTrees_keys F xs
    rw [names] at hkeys
    have hname : ∀ (i : Nat) (f : RStr × Ty) (x : RStr × SVal), fs[i]? = some f → xs[i]? = some x → x.1 = f.1 := by
      intro i f x hf hx
      have := congrArg (·[i]?) names
      simpa [hf, hx] using this
    refine .structVariant distinct decl (.inl rfl) fields ?_ ?_ ?_ ?_ names ?_
    · rw [hkeys]
      rw [List.map_map]
      exact names_bytes fields
    · rw [fieldTrees_eq, List.length_map]
      simpa using congrArg List.length names
    · intro f hf
      rw [hkeys]
      exact List.mem_map.mpr ⟨f.1, List.mem_map.mpr ⟨f, hf, rfl⟩, rfl⟩
    · intro f hf
      obtain ⟨i, hi, rfl⟩ := List.mem_iff_getElem.mp hf
      have hl : xs.length = fs.length := by simpa using congrArg List.length names
      have := hname i fs[i] (xs[i]'(by omega)) (by simp) (by simp)
      rw [← this]
      exact (he.2 _ (List.getElem_mem _)).1
    · intro i f y t hf hy ht
      rw [← hname i f y hf hy] at ht
      rw [fieldTrees_mem (by rw [names]; exact fields) hy ht]
      have := List.mem_of_getElem? hy
      exact ih i f y hf hy (hr y this) (he.2 y this).2

/-- Keys in the document of a value. -/
theorem tree_keyed {F : FloatOps} {K : List UInt8 → Prop} : ∀ (x : SVal), x.Every (fun _ => True) (fun k => K k.bytes) →
    (x.tree F).Keyed K
  | .prim p, _ => by
    refine .leaf (fun xs => ?_) (fun kvs => ?_) <;>
    · rw [SVal.tree]
      cases p with
      | int t n => cases t <;> exact nofun
      | _ => exact nofun
  | .char s, _ => by rw [SVal.tree]; exact .leaf nofun nofun
  | .none, _ => by rw [SVal.tree]; exact .leaf nofun nofun
  | .unit, _ => by rw [SVal.tree]; exact .leaf nofun nofun
  | .unitStruct, _ => by rw [SVal.tree]; exact .leaf nofun nofun
  | .some v, h => by rw [SVal.tree]; rw [SVal.Every] at h; exact tree_keyed v h
  | .newtypeStruct v, h => by rw [SVal.tree]; rw [SVal.Every] at h; exact tree_keyed v h
  | .unitVariant name, _ => by
    rw [SVal.tree]
    refine .arr fun x hx => ?_
    simp only [List.mem_singleton] at hx
    subst hx
    exact .leaf nofun nofun
  | .newtypeVariant name v, h => by
    rw [SVal.tree]; rw [SVal.Every] at h
    refine .arr fun x hx => ?_
    simp only [List.mem_cons, List.not_mem_nil, or_false] at hx
    rcases hx with rfl | rfl
    · exact .leaf nofun nofun
    · exact tree_keyed v h.2
  | .seq hint vs, h => by
    rw [SVal.tree, trees_eq]; rw [SVal.Every, everyOf_mem] at h
    refine .arr fun x hx => ?_
    obtain ⟨v, hv, rfl⟩ := List.mem_map.mp hx
    have := List.sizeOf_lt_of_mem hv
    exact tree_keyed v (h.2 v hv)
  | .tuple vs, h => by
    rw [SVal.tree, trees_eq]; rw [SVal.Every, everyOf_mem] at h
    refine .arr fun x hx => ?_
    obtain ⟨v, hv, rfl⟩ := List.mem_map.mp hx
    have := List.sizeOf_lt_of_mem hv
    exact tree_keyed v (h v hv)
  | .tupleVariant name vs, h => by
    rw [SVal.tree, trees_eq]; rw [SVal.Every, everyOf_mem] at h
    refine .arr fun x hx => ?_
    simp only [List.mem_cons, List.not_mem_nil, or_false] at hx
    rcases hx with rfl | rfl
    · exact .leaf nofun nofun
    · refine .arr fun x hx => ?_
      obtain ⟨v, hv, rfl⟩ := List.mem_map.mp hx
      have := List.sizeOf_lt_of_mem hv
      exact tree_keyed v (h.2 v hv)
  | .map kvs, h => by
    rw [SVal.tree, entryTrees_eq]; rw [SVal.Every, everyEntry_mem] at h
    refine .dict (fun e he => ?_) (fun e he => ?_)
    · obtain ⟨kv, hkv, rfl⟩ := List.mem_map.mp he
      exact (h kv hkv).1
    · obtain ⟨kv, hkv, rfl⟩ := List.mem_map.mp he
      have : sizeOf kv.2 < 1 + sizeOf kvs := by
        have h1 := List.sizeOf_lt_of_mem hkv
        have h2 : sizeOf kv.2 < sizeOf kv := by cases kv; simp only [Prod.mk.sizeOf_spec]; omega
        omega
      exact tree_keyed kv.2 (h kv hkv).2
  | .struct fs, h => by
    rw [SVal.tree, fieldTrees_eq]; rw [SVal.Every, everyField_mem] at h
    refine .dict (fun e he => ?_) (fun e he => ?_)
    · obtain ⟨kv, hkv, rfl⟩ := List.mem_map.mp he
      exact (h kv hkv).1
    · obtain ⟨kv, hkv, rfl⟩ := List.mem_map.mp he
      have : sizeOf kv.2 < 1 + sizeOf fs := by
        have h1 := List.sizeOf_lt_of_mem hkv
        have h2 : sizeOf kv.2 < sizeOf kv := by cases kv; simp only [Prod.mk.sizeOf_spec]; omega
        omega
      exact tree_keyed kv.2 (h kv hkv).2
  | .structVariant name fs, h => by
    rw [SVal.tree, fieldTrees_eq]; rw [SVal.Every, everyField_mem] at h
    refine .arr fun x hx => ?_
    simp only [List.mem_cons, List.not_mem_nil, or_false] at hx
    rcases hx with rfl | rfl
    · exact .leaf nofun nofun
    · refine .dict (fun e he => ?_) (fun e he => ?_)
      · obtain ⟨kv, hkv, rfl⟩ := List.mem_map.mp he
        exact (h.2 kv hkv).1
      · obtain ⟨kv, hkv, rfl⟩ := List.mem_map.mp he
        have : sizeOf kv.2 < 1 + sizeOf name + sizeOf fs := by
          have h1 := List.sizeOf_lt_of_mem hkv
          have h2 : sizeOf kv.2 < sizeOf kv := by cases kv; simp only [Prod.mk.sizeOf_spec]; omega
          omega
        exact tree_keyed kv.2 (h.2 kv hkv).2
termination_by x => sizeOf x
decreasing_by
  all_goals simp_wf
  all_goals omega

/-- The same document in another order of entries has distinct keys too. -/
theorem Tree.Distinct.same {t t' : Tree} (h : t.Distinct) (hs : Tree.Same t t') : t'.Distinct := by
  induction h generalizing t' with
  | leaf na nd => cases hs.leaf_inv na nd; exact .leaf na nd
  | @arr xs of ih =>
    obtain ⟨ys, rfl, hl, he⟩ := hs.arr_inv
    refine .arr fun y hy => ?_
    obtain ⟨i, hi, rfl⟩ := List.mem_iff_getElem.mp hy
    exact ih xs[i] (List.getElem_mem _) (he i xs[i] ys[i] (by simp) (by simp))
  | dict once of ih =>
    obtain ⟨lvs, rfl, hp, he⟩ := hs.dict_mem
    refine .dict (hp.nodup_iff.mp once) (fun e h => ?_)
    obtain ⟨x, hx, hs⟩ := he e h
    exact ih _ hx hs

theorem Tree.Same.symm {t t' : Tree} (h : Tree.Same t t') : Tree.Same t' t := by
  induction h with
  | refl t => exact .refl t
  | arr len each ih => exact .arr len.symm fun i x y hx hy => ih i y x hy hx
  | @dict kvs mid lvs perm keys each ih =>
    have hl : mid.length = lvs.length := by simpa using congrArg List.length keys
    have hz1 : (mid.zip lvs).map Prod.fst = mid := List.map_fst_zip (by omega)
    have hz2 : (mid.zip lvs).map Prod.snd = lvs := List.map_snd_zip (by omega)
    obtain ⟨zs, hp, hk⟩ := perm_map_inv perm.symm (f := Prod.fst) hz1.symm
    have hmem : ∀ z ∈ zs, z.1.1 = z.2.1 ∧ Tree.Same z.2.2 z.1.2 := by
      intro z hz
      obtain ⟨i, hi, rfl⟩ := List.mem_iff_getElem.mp (hp.mem_iff.mpr hz)
      simp only [List.length_zip] at hi
      simp only [List.getElem_zip]
      refine ⟨?_, ih i mid[i] lvs[i] (by simp) (by simp)⟩
      have := congrArg (·[i]?) keys
      simpa [show i < mid.length by omega, show i < lvs.length by omega] using this
    refine .dict (mid := zs.map Prod.snd) ?_ ?_ ?_
    · rw [← hz2]; exact hp.map _
    · rw [hk, List.map_map, List.map_map]
      exact List.map_congr_left fun z hz => (hmem z hz).1.symm
    · intro i x y hx hy
      rw [hk] at hy
      simp only [List.getElem?_map] at hx hy
      cases hz : zs[i]? with
      | none => rw [hz] at hx; cases hx
      | some z =>
        rw [hz] at hx hy
        cases hx; cases hy
        exact (hmem z (List.mem_of_getElem? hz)).2

end Fleece
