import Verif.Proofs.DeOk
import Verif.Spec.Fits

/-!
# Reading a document as a type
-/

namespace Fleece
open Res

variable {X : DeCtx} {probe : List UInt8 → Prop}

/-! ## The order of dict entries does not matter -/

/-- Entries of the same document. -/
theorem Tree.Same.dict_mem {kvs : List (List UInt8 × Tree)} {t : Tree} (h : Tree.Same (.dict kvs) t) :
    ∃ lvs, t = .dict lvs ∧ (kvs.map (·.1)).Perm (lvs.map (·.1)) ∧
      ∀ e ∈ lvs, ∃ x, (e.1, x) ∈ kvs ∧ Tree.Same x e.2 := by
  obtain ⟨mid, lvs, rfl, perm, keys, each⟩ := h.dict_inv
  refine ⟨lvs, rfl, by rw [← keys]; exact perm.map _, ?_⟩
  intro e he
  obtain ⟨j, hj, rfl⟩ := List.mem_iff_getElem.mp he
  have hjm : j < mid.length := by have := congrArg List.length keys; simp at this; omega
  have hk : mid[j].1 = lvs[j].1 := by
    have := congrArg (·[j]?) keys
    simpa [hj, hjm] using this
  refine ⟨mid[j].2, ?_, each j mid[j] lvs[j] (by simp) (by simp)⟩
  rw [← hk]
  exact perm.mem_iff.mpr (List.getElem_mem _)

theorem Tree.Same.arr_cons {x : Tree} {xs : List Tree} {t : Tree} (h : Tree.Same (.arr (x :: xs)) t) :
    ∃ y ys, t = .arr (y :: ys) ∧ Tree.Same x y ∧ xs.length = ys.length ∧
      ∀ (i : Nat) x y, xs[i]? = some x → ys[i]? = some y → Tree.Same x y := by
  obtain ⟨ys, rfl, hl, he⟩ := h.arr_inv
  cases ys with
  | nil => cases hl
  | cons y ys =>
    exact ⟨y, ys, rfl, he 0 x y rfl rfl, by simpa using hl, fun i a b ha hb => he (i + 1) a b (by simpa using ha) (by simpa using hb)⟩

theorem Tree.Keyed.same {K : List UInt8 → Prop} {t t' : Tree} (h : t.Keyed K) (hs : Tree.Same t t') : t'.Keyed K := by
  induction h generalizing t' with
  | leaf na nd => cases hs.leaf_inv na nd; exact .leaf na nd
  | @arr xs of ih =>
    obtain ⟨ys, rfl, hl, he⟩ := hs.arr_inv
    refine .arr fun y hy => ?_
    obtain ⟨i, hi, rfl⟩ := List.mem_iff_getElem.mp hy
    exact ih xs[i] (List.getElem_mem _) (he i xs[i] ys[i] (by simp) (by simp))
  | dict key of ih =>
    obtain ⟨lvs, rfl, hp, he⟩ := hs.dict_mem
    refine .dict (fun e h => ?_) (fun e h => ?_)
    · obtain ⟨x, hx, _⟩ := he e h
      exact key (e.1, x) hx
    · obtain ⟨x, hx, hs⟩ := he e h
      exact ih _ hx hs

theorem Fits.same {R : Rules} {ty : Ty} {t t' : Tree} {y : SVal}
    (hT : ∀ i name t, R.tag i name t → (∀ xs, t ≠ .arr xs) ∧ ∀ kvs, t ≠ .dict kvs) (h : Fits R ty t y) (hs : Tree.Same t t') : Fits R ty t' y := by
  have leaf : ∀ {ty : Ty} {t t' : Tree} {y : SVal}, Fits R ty t y → Tree.Same t t' → (∀ xs, t ≠ .arr xs) →
      (∀ kvs, t ≠ .dict kvs) → Fits R ty t' y := fun h hs na nd => by cases hs.leaf_inv na nd; exact h
  induction h generalizing t' with
  | named decl _ ih => exact .named decl (ih hs)
  | bool b => exact leaf (.bool b) hs nofun nofun
  | int h => exact leaf (.int h) hs nofun nofun
  | f32 d => exact leaf (.f32 d) hs nofun nofun
  | f32Int i => exact leaf (.f32Int i) hs nofun nofun
  | f64 h => exact leaf (.f64 h) hs nofun nofun
  | f64Int i => exact leaf (.f64Int i) hs nofun nofun
  | char one => exact leaf (.char one) hs nofun nofun
  | string s => exact leaf (.string s) hs nofun nofun
  | stringData s => exact leaf (.stringData s) hs nofun nofun
  | bytes s => exact leaf (.bytes s) hs nofun nofun
  | bytesStr s => exact leaf (.bytesStr s) hs nofun nofun
  | none ty => exact leaf (.none ty) hs nofun nofun
  | some there _ ih =>
    refine .some ?_ (ih hs)
    rintro rfl
    cases hs
    exact there rfl
  | unit => exact leaf .unit hs nofun nofun
  | unitStruct => exact leaf .unitStruct hs nofun nofun
  | newtypeStruct _ ih =>
    obtain ⟨_, _, rfl, h1, _⟩ := hs.arr_cons
    exact .newtypeStruct (ih h1)
  | @seq ty ts ys len of ih =>
    obtain ⟨ts', rfl, hl, he⟩ := hs.arr_inv
    refine .seq (by omega) fun i t y ht hy => ?_
    have hi := (List.getElem?_eq_some_iff.mp hy).1
    exact ih i ts[i] y (by simp) hy (he i ts[i] t (by simp) ht)
  | @tuple tys ts ys len enough of ih =>
    obtain ⟨ts', rfl, hl, he⟩ := hs.arr_inv
    refine .tuple len (by omega) fun i ty t y hty ht hy => ?_
    have hi := (List.getElem?_eq_some_iff.mp hy).1
    exact ih i ty (ts[i]'(by omega)) y hty (by simp) hy (he i _ t (by simp) ht)
  | @map ty kvs ys sorted keys of ih =>
    obtain ⟨lvs, rfl, hp, he⟩ := hs.dict_mem
    refine .map sorted (hp.symm.trans keys) fun k t y hk hy => ?_
    obtain ⟨x, hx, hxs⟩ := he _ hk
    exact ih k x y hx hy hxs
  | @struct fs kvs ys distinct once names of missing ih =>
    obtain ⟨lvs, rfl, hp, he⟩ := hs.dict_mem
    refine .struct distinct (hp.nodup_iff.mp once) names (fun i f y t hf hy ht => ?_) (fun i f y hf hy hn => ?_)
    · obtain ⟨x, hx, hxs⟩ := he _ ht
      exact ih i f y x hf hy hx hxs
    · exact missing i f y hf hy fun hc => hn (hp.mem_iff.mp hc)
  | unitVariant distinct decl called =>
    obtain ⟨x, xs, rfl, h1, h2, _⟩ := hs.arr_cons
    cases h1.leaf_inv (hT _ _ _ called).1 (hT _ _ _ called).2
    cases xs with
    | nil => exact .unitVariant distinct decl called
    | cons _ _ => cases h2
  | newtypeVariant distinct decl called _ ih =>
    obtain ⟨x, xs, rfl, h1, h2, h3⟩ := hs.arr_cons
    cases h1.leaf_inv (hT _ _ _ called).1 (hT _ _ _ called).2
    cases xs with
    | nil => cases h2
    | cons x xs => exact .newtypeVariant distinct decl called (ih (h3 0 _ _ rfl rfl))
  | @tupleVariant vs i name tys tag ts rest ys distinct decl called len len' of ih =>
    obtain ⟨x, xs, rfl, h1, h2, h3⟩ := hs.arr_cons
    cases h1.leaf_inv (hT _ _ _ called).1 (hT _ _ _ called).2
    cases xs with
    | nil => cases h2
    | cons x xs =>
      obtain ⟨ts', rfl, hl, he⟩ := (h3 0 _ _ rfl rfl).arr_inv
      refine .tupleVariant distinct decl called len (by omega) fun i ty t y hty ht hy => ?_
      have hi := (List.getElem?_eq_some_iff.mp hy).1
      exact ih i ty (ts[i]'(by omega)) y hty (by simp) hy (he i _ t (by simp) ht)
  | @structVariant vs i name fs tag kvs rest ys distinct decl called fields once len keys look names of ih =>
    obtain ⟨x, xs, rfl, h1, h2, h3⟩ := hs.arr_cons
    cases h1.leaf_inv (hT _ _ _ called).1 (hT _ _ _ called).2
    cases xs with
    | nil => cases h2
    | cons x xs =>
      obtain ⟨lvs, rfl, hp, he⟩ := (h3 0 _ _ rfl rfl).dict_mem
      refine .structVariant distinct decl called fields (hp.nodup_iff.mp once) (by have := hp.length_eq; simp at this; omega)
        (fun f hf => hp.mem_iff.mp (keys f hf)) look names (fun i f y t hf hy ht => ?_)
      obtain ⟨x, hx, hxs⟩ := he _ ht
      exact ih i f y x hf hy hx hxs
  | lost distinct decl data called lax =>
    obtain ⟨x, xs, rfl, h1, h2, _⟩ := hs.arr_cons
    cases h1.leaf_inv (hT _ _ _ called).1 (hT _ _ _ called).2
    cases xs with
    | nil => exact .lost distinct decl data called lax
    | cons _ _ => cases h2

/-! ## Skipping -/

theorem any_ignore {d : De} {w : Visit} (h : d.any X = .ok w) (hs : ∀ it, w ≠ .seq it) (hm : ∀ it, w ≠ .map it) (fuel : Nat) :
    De.ignore X (fuel + 1) d = .ok () := by
  unfold De.ignore
  simp only [h, ok_bind]
  cases w <;> first | rfl | exact absurd rfl (hs _) | exact absurd rfl (hm _)

/-- Everything can be skipped. -/
theorem Matches.ignore {v : Val} {t : Tree} (h : Matches X.m X.F X.scope probe v t) (hk : t.Keyed fun k => k ≠ []) :
    ∃ N, ∀ fuel, N ≤ fuel → De.ignore X fuel ⟨v, false⟩ = .ok () := by
  induction hk generalizing v with
  | leaf na nd =>
    obtain ⟨w, h1, h2⟩ := h.scalar (.refl _) na nd
    exact depth (N := 0) fun fuel _ => any_ignore h1 (by rintro it rfl; cases h2) (by rintro it rfl; cases h2) fuel
  | @arr xs of ih =>
    obtain ⟨u, h1, h2, h3, _, ⟨it, us, h5, h6, h7, h8, h9⟩, h10⟩ := h.elems
    obtain ⟨N, hN⟩ := bound (P := fun i fuel => (u i).Direct X.m ∧ De.ignore X fuel ⟨u i, false⟩ = .ok ()) xs.length (by
      intro i hi
      obtain ⟨N, hN⟩ := ih xs[i] (List.getElem_mem _) (h10 i xs[i] (by simp))
      exact ⟨N, fun fuel hf => ⟨(h10 i xs[i] (by simp)).direct, hN fuel hf⟩⟩)
    refine depth (N := N) fun fuel hf => ?_
    have ha := all_ok (f := De.ignore X fuel) (n' := it.len + 1) (as := us.map fun _ => ()) h7 (by omega) (by simp) (by
      intro i w a g1 g2
      have hi := (List.getElem?_eq_some_iff.mp g1).1
      cases h9 i w g1
      exact hN fuel hf i (by omega))
    unfold De.ignore De.any
    simp only [h2, dread_ok, ok_bind, h5, pure_eq, ha]
  | @dict kvs key of ih =>
    obtain ⟨u, it, h1, h2, h3, h4, _, _, h7⟩ := dict_walk h key
    obtain ⟨N, hN⟩ := bound (P := fun i fuel => De.ignore X fuel ⟨u i, false⟩ = .ok ()) kvs.length
      (fun i hi => ih kvs[i] (List.getElem_mem _) (h7 i kvs[i].1 kvs[i].2 (by simp [hi])))
    refine depth (N := N + 1) fun fuel hf => ?_
    obtain ⟨fuel, rfl⟩ : ∃ f, fuel = f + 1 := ⟨fuel - 1, by omega⟩
    have hp := pairs_ok (fk := De.ignore X (fuel + 1)) (fv := fun _ => De.ignore X (fuel + 1)) h2 (n := it.len + 1)
      (as := kvs.map fun _ => ((), ())) (by simp; omega) (by simp) (by
        intro i e a g1 g2
        have hi : i < kvs.length := by simpa using (List.getElem?_eq_some_iff.mp g2).1
        simp only [List.getElem?_mapIdx, show kvs[i]? = some kvs[i] by simp [hi], Option.map_some, Option.some.injEq] at g1
        subst g1
        exact ⟨fun d hd => any_ignore hd nofun nofun fuel, hN _ (by omega) i hi⟩)
    have hd : De.any X ⟨v, false⟩ = .ok (.map it) := by
      unfold De.map at h1
      simp only [h4, dread_ok, ok_bind] at h1
      unfold De.any
      simp only [asDict_type h4, dread_ok, ok_bind, h1, pure_eq]
    unfold De.ignore
    simp only [hd, ok_bind, hp, pure_eq]

/-! ## Structs -/

theorem findIdx_none {names : List RStr} {k : List UInt8} (h : ∀ n ∈ names, n.bytes ≠ k) :
    (names.findIdx? fun x => decide (x.bytes = k)) = none := by
  rw [List.findIdx?_eq_none_iff]
  intro n hn
  simpa using h n hn

theorem fields_fit {fuel : Nat} {f : Ty → De → D SVal} {fs : List (RStr × Ty)} {target : List (Option SVal)}
    (hd : (fs.map (·.1)).Nodup) (htl : target.length = fs.length) {it : Iter} {es : List (List UInt8 × Val)}
    (hw : Walk X it es) : ∀ {n : Nat} {got : List (Option SVal)}, es.length < n → got.length = fs.length →
    (es.map (·.1)).Nodup →
    (∀ e ∈ es, (∃ (i : Nat) (fd : RStr × Ty) (x : SVal), fs[i]? = some fd ∧ target[i]? = some (some x) ∧ fd.1.bytes = e.1 ∧
      f fd.2 ⟨e.2, false⟩ = .ok x) ∨ ((∀ fd ∈ fs, fd.1.bytes ≠ e.1) ∧ De.ignore X fuel ⟨e.2, false⟩ = .ok ())) →
    (∀ (i : Nat) (fd : RStr × Ty), fs[i]? = some fd →
      got[i]? = if fd.1.bytes ∈ es.map (·.1) then some none else target[i]?) →
    De.fields X fuel f fs n it got = .ok target := by
  induction hw with
  | nil stop =>
    intro n got hn hg _ _ hi
    cases n with
    | zero => simp at hn
    | succ n =>
      unfold De.fields
      simp only [stop, ok_bind, pure_eq, ok.injEq]
      apply List.ext_getElem?
      intro i
      by_cases h : i < fs.length
      · rw [hi i fs[i] (by simp)]
        simp
      · rw [List.getElem?_eq_none (by omega), List.getElem?_eq_none (by omega)]
  | @cons it it1 it2 d k u es key text value rest ih =>
    intro n got hn hg hnd he hi
    cases n with
    | zero => simp at hn
    | succ n =>
      simp only [List.map_cons, List.nodup_cons] at hnd
      rcases he (k, u) (by simp) with ⟨i, fd, x, h1, h2, h3, h4⟩ | ⟨h1, h2⟩
      · have h3 : fd.1.bytes = k := h3
        have hid : De.ident X (fs.map (·.1)) d = .ok (some i) :=
          ident_ok hd (i := i) (n := fd.1) (by simp [h1]) (by rw [text, h3])
        have hgot : got[i]? = some none := by
          rw [hi i fd h1, if_pos (by simp [h3])]
        have hil : i < got.length := (List.getElem?_eq_some_iff.mp hgot).1
        unfold De.fields
        simp only [key, ok_bind, hid, h1, hgot, value, h4]
        refine ih (by simp at hn; omega) (by simpa using hg) hnd.2 (fun e h => he e (by simp [h])) ?_
        intro j fd' g1
        by_cases hji : j = i
        · subst hji
          rw [g1] at h1; cases h1
          rw [if_neg (by rw [h3]; exact hnd.1), h2]
          simp [hil]
        · rw [List.getElem?_set_ne (by omega), hi j fd' g1]
          have hne : fd'.1.bytes ≠ k := by
            intro hc
            have e1 := findIdx_name hd (i := j) (n := fd'.1) (by simp [g1])
            have e2 := findIdx_name hd (i := i) (n := fd.1) (by simp [h1])
            rw [hc] at e1
            rw [h3, e1] at e2
            exact hji (by injection e2)
          have hiff : fd'.1.bytes ∈ List.map (·.1) ((k, u) :: es) ↔ fd'.1.bytes ∈ es.map (·.1) := by
            rw [List.map_cons, List.mem_cons]; exact or_iff_right hne
          simp only [hiff]
      · have hid : De.ident X (fs.map (·.1)) d = .ok none := by
          unfold De.ident
          simp only [text, ok_bind, pure_eq]
          rw [findIdx_none]
          intro n hn
          obtain ⟨fd, hfd, rfl⟩ := List.mem_map.mp hn
          exact h1 fd hfd
        have h2 : De.ignore X fuel ⟨u, false⟩ = .ok () := h2
        unfold De.fields
        simp only [key, ok_bind, hid, value, h2]
        refine ih (by simp at hn; omega) hg hnd.2 (fun e h => he e (by simp [h])) ?_
        intro j fd' g1
        rw [hi j fd' g1]
        have hne : fd'.1.bytes ≠ k := h1 fd' (List.mem_of_getElem? g1)
        have hiff : fd'.1.bytes ∈ List.map (·.1) ((k, u) :: es) ↔ fd'.1.bytes ∈ es.map (·.1) := by
          rw [List.map_cons, List.mem_cons]; exact or_iff_right hne
        simp only [hiff]

theorem build_fit (fs : List (RStr × Ty)) : ∀ {ys : List (RStr × SVal)} {target : List (Option SVal)},
    ys.map (·.1) = fs.map (·.1) → target.length = fs.length →
    (∀ (i : Nat) (f : RStr × Ty) (y : RStr × SVal), fs[i]? = some f → ys[i]? = some y →
      target[i]? = some (some y.2) ∨ target[i]? = some none ∧ (∃ t, f.2 = .option t) ∧ y.2 = .none) →
    De.build X fs target = .ok ys := by
  induction fs with
  | nil =>
    intro ys target h hl _
    simp at h; subst h
    cases target with
    | nil => rfl
    | cons _ _ => cases hl
  | cons f fs ih =>
    intro ys target h hl he
    cases ys with
    | nil => simp at h
    | cons y ys =>
      cases target with
      | nil => cases hl
      | cons a target =>
        simp only [List.map_cons, List.cons.injEq] at h
        obtain ⟨k, t⟩ := f
        obtain ⟨k', y⟩ := y
        have hk : k' = k := h.1
        subst hk
        have hr := ih (target := target) h.2 (by simpa using hl)
          (fun i f y a b => he (i + 1) f y (by simpa using a) (by simpa using b))
        rcases he 0 _ _ rfl rfl with h0 | ⟨h0, ⟨t', rfl⟩, rfl⟩
        · cases h0
          simp only [De.build, hr, ok_bind, pure_eq]
        · cases h0
          simp only [De.build, Ty.optional, if_true, hr, ok_bind, pure_eq]

/-- Deserializing a value that shows a document which fits gives the value, given enough depth. -/
def ReadsAs (X : DeCtx) (probe : List UInt8 → Prop) (ty : Ty) (t : Tree) (y : SVal) : Prop :=
  ∀ {v : Val}, Matches X.m X.F X.scope probe v t → t.Keyed (fun k => k ≠ []) →
    ∃ N, ∀ fuel, N ≤ fuel → Ty.de X fuel ty ⟨v, false⟩ = .ok y

theorem struct_fit {fs : List (RStr × Ty)} {kvs : List (List UInt8 × Tree)} {ys : List (RStr × SVal)}
    (distinct : (fs.map (·.1)).Nodup) (once : (kvs.map (·.1)).Nodup) (names : ys.map (·.1) = fs.map (·.1))
    (ih : ∀ (i : Nat) (f : RStr × Ty) (y : RStr × SVal) t, fs[i]? = some f → ys[i]? = some y → (f.1.bytes, t) ∈ kvs →
      ReadsAs X probe f.2 t y.2)
    (missing : ∀ (i : Nat) (f : RStr × Ty) (y : RStr × SVal), fs[i]? = some f → ys[i]? = some y →
      f.1.bytes ∉ kvs.map (·.1) → (∃ t, f.2 = .option t) ∧ y.2 = .none)
    {v : Val} (hm : Matches X.m X.F X.scope probe v (.dict kvs)) (hk : (Tree.dict kvs).Keyed fun k => k ≠ []) :
    v.asDict X.m = .ok (some v) ∧ v.dictLen X.m = .ok kvs.length ∧
      (∀ k ∈ kvs.map (·.1), probe k → ∃ r, v.Lookup X.m X.scope k (some r)) ∧
      ∃ it, De.map X ⟨v, false⟩ = .ok it ∧ ∃ N, ∀ fuel, N ≤ fuel → De.struct X fuel (Ty.de X fuel) fs it = .ok ys := by
  cases hk with
  | leaf _ nd => exact absurd rfl (nd _)
  | dict key of =>
    have hly : ys.length = fs.length := by simpa using congrArg List.length names
    obtain ⟨u, it, h1, h2, h3, h4, h5, h6, h7⟩ := dict_walk hm key
    refine ⟨h4, h5, fun k hk hp => h6 k hp hk, it, h1, ?_⟩
    -- what is found for each entry
    obtain ⟨N, hN⟩ := bound (P := fun j fuel => ∀ e, kvs[j]? = some e →
        (∃ (i : Nat) (fd : RStr × Ty) (y : RStr × SVal), fs[i]? = some fd ∧ ys[i]? = some y ∧ fd.1.bytes = e.1 ∧
          Ty.de X fuel fd.2 ⟨u j, false⟩ = .ok y.2) ∨
        ((∀ fd ∈ fs, fd.1.bytes ≠ e.1) ∧ De.ignore X fuel ⟨u j, false⟩ = .ok ())) kvs.length (by
      intro j hj
      have hmj := h7 j kvs[j].1 kvs[j].2 (by simp [hj])
      have hkj := of kvs[j] (List.getElem_mem _)
      by_cases hin : ∃ fd ∈ fs, fd.1.bytes = kvs[j].1
      · obtain ⟨fd, hfd, hfe⟩ := hin
        obtain ⟨i, hi, rfl⟩ := List.mem_iff_getElem.mp hfd
        obtain ⟨N, hN⟩ := ih i fs[i] (ys[i]'(by omega)) kvs[j].2 (by simp) (by simp)
          (by rw [hfe]; exact List.getElem_mem _) hmj hkj
        refine ⟨N, fun fuel hf e he => .inl ?_⟩
        have he : kvs[j] = e := by simpa [hj] using he
        subst he
        exact ⟨i, fs[i], ys[i]'(by omega), by simp, by simp, hfe, hN fuel hf⟩
      · obtain ⟨N, hN⟩ := hmj.ignore hkj
        refine ⟨N, fun fuel hf e he => .inr ⟨?_, hN fuel hf⟩⟩
        have he : kvs[j] = e := by simpa [hj] using he
        subst he
        exact fun fd hfd hc => hin ⟨fd, hfd, hc⟩)
    refine ⟨N, fun fuel hf => ?_⟩
    have hes : (kvs.mapIdx fun i kv => (kv.1, u i)).map (·.1) = kvs.map (·.1) := by
      apply List.ext_getElem?
      intro i
      simp only [List.getElem?_map, List.getElem?_mapIdx]
      cases kvs[i]? <;> rfl
    let target : List (Option SVal) := ys.map fun y => if y.1.bytes ∈ kvs.map (·.1) then some y.2 else none
    have htl : target.length = fs.length := by simp [target, hly]
    have hname : ∀ (i : Nat) (f : RStr × Ty) (y : RStr × SVal), fs[i]? = some f → ys[i]? = some y → y.1 = f.1 := by
      intro i f y hf hy
      have := congrArg (·[i]?) names
      simpa [hf, hy] using this
    have ht : ∀ (i : Nat) (f : RStr × Ty) (y : RStr × SVal), fs[i]? = some f → ys[i]? = some y →
        target[i]? = some (if f.1.bytes ∈ kvs.map (·.1) then some y.2 else none) := by
      intro i f y hf hy
      simp only [target, List.getElem?_map, hy, Option.map_some, hname i f y hf hy]
    have hf1 := fields_fit (fuel := fuel) (f := Ty.de X fuel) (target := target) distinct htl h2
      (n := it.len + 1) (got := fs.map fun _ => none) (by simp; omega) (by simp) (by rw [hes]; exact once)
      (by
        intro e he
        obtain ⟨j, hj, rfl⟩ := List.mem_iff_getElem.mp he
        simp only [List.length_mapIdx] at hj
        simp only [List.getElem_mapIdx]
        rcases hN fuel hf j hj kvs[j] (by simp [hj]) with ⟨i, fd, y, g1, g2, g3, g4⟩ | h
        · refine .inl ⟨i, fd, y.2, g1, ?_, g3, g4⟩
          rw [ht i fd y g1 g2, if_pos (by rw [g3]; exact List.mem_map_of_mem (List.getElem_mem _))]
        · exact .inr h)
      (by
        intro i fd g1
        have hi := (List.getElem?_eq_some_iff.mp g1).1
        rw [hes, ht i fd (ys[i]'(by omega)) g1 (by simp)]
        split <;> simp [g1])
    unfold De.struct
    simp only [hf1, ok_bind]
    refine build_fit fs names htl fun i f y hf hy => ?_
    rw [ht i f y hf hy]
    by_cases hc : f.1.bytes ∈ kvs.map (·.1)
    · exact .inl (by rw [if_pos hc])
    · exact .inr ⟨by rw [if_neg hc], missing i f y hf hy hc⟩

theorem tuple_fit {tys : List Ty} {ts : List Tree} {ys : List SVal} (len : tys.length = ys.length)
    (enough : tys.length ≤ ts.length)
    (ih : ∀ (i : Nat) ty t y, tys[i]? = some ty → ts[i]? = some t → ys[i]? = some y → ReadsAs X probe ty t y) {v : Val}
    (hm : Matches X.m X.F X.scope probe v (.arr ts)) (hk : (Tree.arr ts).Keyed fun k => k ≠ []) :
    v.asArray X.m = .ok (some v) ∧ v.arrayLen X.m = .ok ts.length ∧
      ∃ it, De.any X ⟨v, false⟩ = .ok (.seq it) ∧ De.seq X ⟨v, false⟩ = .ok it ∧
        ∃ N, ∀ fuel, N ≤ fuel → De.each X (Ty.de X fuel) tys it = .ok ys := by
  cases hk with
  | leaf na _ => exact absurd rfl (na _)
  | arr of =>
    obtain ⟨u, h1, h2, h3, _, ⟨it, us, h5, h6, h7, h8, h9⟩, h10⟩ := hm.elems
    refine ⟨h1, h3, it, ?_, ?_, ?_⟩
    · unfold De.any
      simp only [h2, dread_ok, ok_bind, h5, pure_eq]
    · unfold De.seq
      simp only [h1, dread_ok, ok_bind, h5]
    · obtain ⟨N, hN⟩ := bound (P := fun i fuel => ∀ ty y, tys[i]? = some ty → ys[i]? = some y →
          (u i).Direct X.m ∧ Ty.de X fuel ty ⟨u i, false⟩ = .ok y) ys.length (by
        intro i hi
        have hmi := h10 i (ts[i]'(by omega)) (by simp)
        obtain ⟨N, hN⟩ := ih i (tys[i]'(by omega)) (ts[i]'(by omega)) ys[i] (by simp) (by simp) (by simp) hmi
          (of _ (List.getElem_mem _))
        refine ⟨N, fun fuel hf ty y hty hy => ?_⟩
        have hty : tys[i]'(by omega) = ty := by simpa [show i < tys.length by omega] using hty
        have hy : ys[i] = y := by simpa [hi] using hy
        subst hty hy
        exact ⟨hmi.direct, hN fuel hf⟩)
      refine ⟨N, fun fuel hf => each_ok tys h7 (by omega) (by omega) ?_⟩
      intro i ty w y g1 g2 g3
      cases h9 i w g2
      exact hN fuel hf i (List.getElem?_eq_some_iff.mp g3).1 ty y g1 g3

theorem seq_fit {ty : Ty} {ts : List Tree} {ys : List SVal} (len : ts.length = ys.length)
    (ih : ∀ (i : Nat) t y, ts[i]? = some t → ys[i]? = some y → ReadsAs X probe ty t y) {v : Val}
    (hm : Matches X.m X.F X.scope probe v (.arr ts)) (hk : (Tree.arr ts).Keyed fun k => k ≠ []) :
    ∃ it, De.seq X ⟨v, false⟩ = .ok it ∧
      ∃ N, ∀ fuel, N ≤ fuel → De.all X (Ty.de X fuel ty) (it.len + 1) it = .ok ys := by
  cases hk with
  | leaf na _ => exact absurd rfl (na _)
  | arr of =>
    obtain ⟨u, h1, h2, h3, _, ⟨it, us, h5, h6, h7, h8, h9⟩, h10⟩ := hm.elems
    refine ⟨it, ?_, ?_⟩
    · unfold De.seq
      simp only [h1, dread_ok, ok_bind, h5]
    · obtain ⟨N, hN⟩ := bound (P := fun i fuel => ∀ y, ys[i]? = some y →
          (u i).Direct X.m ∧ Ty.de X fuel ty ⟨u i, false⟩ = .ok y) ys.length (by
        intro i hi
        have hmi := h10 i (ts[i]'(by omega)) (by simp)
        obtain ⟨N, hN⟩ := ih i (ts[i]'(by omega)) ys[i] (by simp) (by simp) hmi (of _ (List.getElem_mem _))
        refine ⟨N, fun fuel hf y hy => ?_⟩
        have hy : ys[i] = y := by simpa [hi] using hy
        subst hy
        exact ⟨hmi.direct, hN fuel hf⟩)
      refine ⟨N, fun fuel hf => all_ok h7 (by omega) (by omega) ?_⟩
      intro i w y g2 g3
      cases h9 i w g2
      exact hN fuel hf i (List.getElem?_eq_some_iff.mp g3).1 y g3

theorem map_read {ty : Ty} {kvs : List (List UInt8 × Tree)} {es : List (RStr × SVal)} (hke : kvs.map (·.1) = es.map fun y => y.1.bytes)
    (ih : ∀ (j : Nat) (e : List UInt8 × Tree) (a : RStr × SVal), kvs[j]? = some e → es[j]? = some a → ReadsAs X probe ty e.2 a.2)
    {v : Val} (hm : Matches X.m X.F X.scope probe v (.dict kvs)) (hk : (Tree.dict kvs).Keyed fun k => k ≠ []) :
    ∃ N, ∀ fuel, N ≤ fuel → Ty.de X fuel (.map ty) ⟨v, false⟩ =
      .ok (.map ((es.foldl (fun acc e => SVal.insert e.1 e.2 acc) []).map fun e => (.prim (.str e.1), e.2))) := by
  cases hk with
  | leaf _ nd => exact absurd rfl (nd _)
  | dict key of =>
    have hlen : es.length = kvs.length := by simpa using (congrArg List.length hke).symm
    have hname : ∀ (j : Nat) (a : RStr × SVal) (e : List UInt8 × Tree), es[j]? = some a → kvs[j]? = some e →
        e.1 = a.1.bytes := by
      intro j a e h1 h2
      have := congrArg (·[j]?) hke
      simpa [h1, h2] using this
    obtain ⟨u, it, h1, h2, h3, h4, h5, h6, h7⟩ := dict_walk hm key
    obtain ⟨N, hN⟩ := bound (P := fun j fuel => ∀ a, es[j]? = some a → Ty.de X fuel ty ⟨u j, false⟩ = .ok a.2) es.length (by
      intro j hj
      obtain ⟨N, hN⟩ := ih j (kvs[j]'(by omega)) es[j] (by simp) (by simp) (h7 j (kvs[j]'(by omega)).1 (kvs[j]'(by omega)).2
        (List.getElem?_eq_getElem (by omega))) (of _ (List.getElem_mem _))
      refine ⟨N, fun fuel hf a ha => ?_⟩
      have ha : es[j] = a := by simpa [hj] using ha
      subst ha
      exact hN fuel hf)
    refine ⟨N + 2, fun fuel hf => ?_⟩
    obtain ⟨fuel, rfl⟩ : ∃ f, fuel = f + 2 := ⟨fuel - 2, by omega⟩
    have hp := pairs_ok (fk := fun k => do
          match ← Ty.de X (fuel + 1) .string k with
          | .prim (.str s) => pure s
          | _ => .err .message) (fv := fun _ => Ty.de X (fuel + 1) ty) h2 (n := it.len + 1) (as := es) (by simp; omega)
      (by simpa using hlen) (by
        intro j e a g1 g2
        have hj := (List.getElem?_eq_some_iff.mp g2).1
        rw [List.getElem?_mapIdx] at g1
        have hlj : kvs[j]? = some (kvs[j]'(by omega)) := by simp
        rw [hlj] at g1
        cases g1
        refine ⟨?_, hN (fuel + 1) (by omega) j hj a g2⟩
        intro d hd
        have hb : (kvs[j]'(by omega)).1 = a.1.bytes := hname j a _ g2 hlj
        dsimp only at hd
        rw [hb] at hd
        have hv := a.1.valid
        simp only [Ty.de, hd, ok_bind, hv, dite_true, pure_eq])
    unfold Ty.de
    simp only [h1, ok_bind]
    refine bind_eq_ok.mpr ⟨es, hp, ?_⟩
    simp only [pure_eq]

/-- Elements of an enum. -/
theorem map_fit {ty : Ty} {kvs : List (List UInt8 × Tree)} {ys : List (RStr × SVal)} (sorted : Ascends ys)
    (keys : (kvs.map (·.1)).Perm (ys.map fun y => y.1.bytes))
    (ih : ∀ (k : RStr) t y, (k.bytes, t) ∈ kvs → (k, y) ∈ ys → ReadsAs X probe ty t y) {v : Val}
    (hm : Matches X.m X.F X.scope probe v (.dict kvs)) (hk : (Tree.dict kvs).Keyed fun k => k ≠ []) :
    ∃ N, ∀ fuel, N ≤ fuel → Ty.de X fuel (.map ty) ⟨v, false⟩ = .ok (.map (ys.map fun e => (.prim (.str e.1), e.2))) := by
  obtain ⟨es, hpe, hke⟩ := perm_map_inv keys.symm (f := fun y : RStr × SVal => y.1.bytes) rfl
  have := map_read (X := X) (probe := probe) (ty := ty) hke (by
    intro j e a h1 h2 w hw hkw
    have hn : e.1 = a.1.bytes := by
      have := congrArg (·[j]?) hke
      simpa [h1, h2] using this
    exact ih a.1 e.2 a.2 (by rw [← hn]; exact List.mem_of_getElem? h1) (hpe.mem_iff.mpr (List.mem_of_getElem? h2)) hw hkw) hm hk
  rwa [foldl_insert_sorted hpe.symm sorted] at this

theorem Tree.Keyed.second {K : List UInt8 → Prop} {a b : Tree} {rest : List Tree} (h : (Tree.arr (a :: b :: rest)).Keyed K) :
    b.Keyed K := by
  cases h with
  | leaf na _ => exact absurd rfl (na _)
  | arr of => exact of b (by simp)

theorem second_elem {v : Val} {a b : Tree} {rest : List Tree} (hm : Matches X.m X.F X.scope probe v (.arr (a :: b :: rest))) :
    ∃ u, True ∧ v.get X.m 1 = .ok (some u) ∧ Matches X.m X.F X.scope probe u b := by
  obtain ⟨u, _, _, _, h4, _, h5⟩ := hm.elems
  exact ⟨u 1, trivial, h4 1 (by simp), h5 1 b rfl⟩

/-- **The deserializer reads what fits.** -/
theorem de_fits {R : Rules} (hF : R.F = X.F) (hN : R.N = X.N) (hty : R.types = X.types)
    (hK : ∀ k, R.field k → probe k.bytes) (hT : ∀ i name t, R.tag i name t → tagNamed name t) (hL : ¬ R.lax) {ty : Ty} {t : Tree} {y : SVal}
    (h : Fits R ty t y) : ReadsAs X probe ty t y := by
  obtain ⟨_, _, _, _, _, _⟩ := R
  dsimp only at hF hN hty hK hT hL
  subst hF hN hty
  induction h with
  | named decl _ ih =>
    intro v hm hk
    obtain ⟨N, hN⟩ := ih hm hk
    refine depth (N := N) fun fuel hf => ?_
    unfold Ty.de
    simp only [decl, hN fuel hf]
  | bool b =>
    intro v hm hk
    obtain ⟨w, h1, h2⟩ := hm.scalar (.refl _) nofun nofun
    cases h2
    exact depth (N := 0) fun fuel hf => by simp only [Ty.de, h1, ok_bind, pure_eq]
  | int h =>
    obtain ⟨lo, hi⟩ := holds_iff.mp h
    intro v hm hk
    obtain ⟨w, h1, h2⟩ := hm.scalar (.refl _) nofun nofun
    refine depth (N := 0) fun fuel hf => ?_
    cases h2 with
    | i64 => simp only [Ty.de, h1, ok_bind, pure_eq, lo, hi, and_self, if_true]
    | u64 => simp only [Ty.de, h1, ok_bind, pure_eq, hi, if_true]
  | f32 d =>
    intro v hm hk
    obtain ⟨w, h1, h2⟩ := hm.scalar (.refl _) nofun nofun
    refine depth (N := 0) fun fuel hf => ?_
    cases h2 <;> simp only [Ty.de, h1, ok_bind, pure_eq]
  | f32Int i =>
    intro v hm hk
    obtain ⟨w, h1, h2⟩ := hm.scalar (.refl _) nofun nofun
    refine depth (N := 0) fun fuel hf => ?_
    cases h2 <;> simp only [Ty.de, h1, ok_bind, pure_eq]
  | @f64 d exact =>
    intro v hm hk
    obtain ⟨w, h1, h2⟩ := hm.scalar (.refl _) nofun nofun
    refine depth (N := 0) fun fuel hf => ?_
    cases h2 with
    | f32 b =>
      have hw := exact b rfl
      dsimp only at hw
      simp only [Ty.de, h1, ok_bind, pure_eq, hw]
    | f64 => simp only [Ty.de, h1, ok_bind, pure_eq]
  | f64Int i =>
    intro v hm hk
    obtain ⟨w, h1, h2⟩ := hm.scalar (.refl _) nofun nofun
    refine depth (N := 0) fun fuel hf => ?_
    cases h2 <;> simp only [Ty.de, h1, ok_bind, pure_eq]
  | @char s one =>
    intro v hm hk
    obtain ⟨w, h1, h2⟩ := hm.scalar (.refl _) nofun nofun
    refine depth (N := 0) fun fuel hf => ?_
    cases h2
    have hv := s.valid
    simp only [Ty.de, h1, ok_bind, pure_eq, hv, dite_true, one, if_true]
  | string s =>
    intro v hm hk
    obtain ⟨w, h1, h2⟩ := hm.scalar (.refl _) nofun nofun
    refine depth (N := 0) fun fuel hf => ?_
    cases h2
    have hv := s.valid
    simp only [Ty.de, h1, ok_bind, pure_eq, hv, dite_true]
  | stringData s =>
    intro v hm hk
    obtain ⟨w, h1, h2⟩ := hm.scalar (.refl _) nofun nofun
    refine depth (N := 0) fun fuel hf => ?_
    cases h2
    have hv := s.valid
    simp only [Ty.de, h1, ok_bind, pure_eq, hv, dite_true]
  | bytes d =>
    intro v hm hk
    obtain ⟨w, h1, h2⟩ := hm.scalar (.refl _) nofun nofun
    cases h2
    exact depth (N := 0) fun fuel hf => by simp only [Ty.de, h1, ok_bind, pure_eq]
  | bytesStr d =>
    intro v hm hk
    obtain ⟨w, h1, h2⟩ := hm.scalar (.refl _) nofun nofun
    cases h2
    exact depth (N := 0) fun fuel hf => by simp only [Ty.de, h1, ok_bind, pure_eq]
  | none ty =>
    intro v hm hk
    obtain ⟨vt, h1, h2, h3⟩ := hm.type
    cases h3.mpr rfl
    exact depth (N := 0) fun fuel hf => by simp only [Ty.de, h1, dread_ok, ok_bind, pure_eq]
  | some there _ ih =>
    intro v hm hk
    obtain ⟨vt, h1, h2, h3⟩ := hm.type
    have hn : vt ≠ .null := fun hc => there (h3.mp hc)
    obtain ⟨N, hN⟩ := ih hm hk
    refine depth (N := N) fun fuel hf => ?_
    unfold Ty.de
    simp only [h1, dread_ok, ok_bind, hN fuel hf, pure_eq]
  | unit =>
    intro v hm hk
    obtain ⟨w, h1, h2⟩ := hm.scalar (.refl _) nofun nofun
    cases h2
    exact depth (N := 0) fun fuel hf => by simp only [Ty.de, h1, ok_bind, pure_eq]
  | unitStruct =>
    intro v hm hk
    obtain ⟨w, h1, h2⟩ := hm.scalar (.refl _) nofun nofun
    cases h2
    exact depth (N := 0) fun fuel hf => by simp only [Ty.de, h1, ok_bind, pure_eq]
  | @newtypeStruct ty t rest y _ ih =>
    intro v hm hk
    obtain ⟨_, _, it, h1, _, N, hN⟩ := tuple_fit (tys := [ty]) (ts := t :: rest) (ys := [y]) rfl (by simp) (by
      intro i ty' t' y' a b c
      cases i with
      | zero => cases a; cases b; cases c; exact ih
      | succ i => simp at a) hm hk
    refine depth (N := N) fun fuel hf => ?_
    simp only [Ty.de, h1, ok_bind, hN fuel hf, pure_eq]
  | seq len of ih =>
    intro v hm hk
    obtain ⟨it, h1, N, hN⟩ := seq_fit len ih hm hk
    refine depth (N := N) fun fuel hf => ?_
    simp only [Ty.de, h1, ok_bind, pure_eq, hN fuel hf]
  | tuple len enough of ih =>
    intro v hm hk
    obtain ⟨_, _, it, h1, _, N, hN⟩ := tuple_fit len enough ih hm hk
    refine depth (N := N) fun fuel hf => ?_
    simp only [Ty.de, h1, ok_bind, pure_eq, hN fuel hf]
  | map sorted keys of ih => exact fun hm hk => map_fit sorted keys ih hm hk
  | struct distinct once names of missing ih =>
    intro v hm hk
    obtain ⟨_, _, _, it, h1, N, hN⟩ := struct_fit distinct once names ih missing hm hk
    refine depth (N := N) fun fuel hf => ?_
    simp only [Ty.de, h1, ok_bind, pure_eq, hN fuel hf]
  | unitVariant distinct decl called =>
    intro v hm hk
    obtain ⟨h1, h2, _, M, hM⟩ := variant_named distinct decl (hT _ _ _ called) hm (.refl _)
    refine depth (N := M) fun fuel hf => ?_
    obtain ⟨⟨d, h3, h4⟩, _⟩ := hM fuel hf
    simp only [Ty.de, De.enum, h1, dread_ok, ok_bind, h3, h4, decl, h2, List.length_nil, Nat.zero_add, if_true, pure_eq]
  | newtypeVariant distinct decl called _ ih =>
    intro v hm hk
    obtain ⟨u, g, hg, hu⟩ := second_elem hm
    obtain ⟨h1, h2, _, M, hM⟩ := variant_named distinct decl (hT _ _ _ called) hm (.refl _)
    obtain ⟨N, hN⟩ := ih hu hk.second
    refine depth (N := max M N) fun fuel hf => ?_
    obtain ⟨⟨d, h3, h4⟩, h5⟩ := hM fuel (by omega)
    obtain ⟨u', _, _, h6, g2, _⟩ := h5 _ rfl
    rw [hg] at g2; cases g2
    simp only [Ty.de, De.enum, h1, dread_ok, ok_bind, h3, h4, decl, h6, hN fuel (by omega), pure_eq]
  | tupleVariant distinct decl called len len' of ih =>
    intro v hm hk
    obtain ⟨u, g, hg, hu⟩ := second_elem hm
    obtain ⟨h1, h2, hv, M, hM⟩ := variant_named distinct decl (hT _ _ _ called) hm (.refl _)
    obtain ⟨g1, g2, it, g3, g4, N, hN⟩ := tuple_fit len (by omega) ih hu hk.second
    obtain ⟨ty', k1, k2⟩ := hv
    obtain ⟨w, hw⟩ := isWide_ok k1
    obtain ⟨ty'', k3, k4⟩ := hu.direct
    refine depth (N := max M N) fun fuel hf => ?_
    obtain ⟨⟨d, h3, h4⟩, h5⟩ := hM fuel (by omega)
    obtain ⟨u', _, h6, _, e2, _⟩ := h5 _ rfl
    rw [hg] at e2; cases e2
    simp only [Ty.de, De.enum, h1, dread_ok, ok_bind, h3, h4, decl, De.tupleVariant, h6, g1, g2, len', if_true, hw,
      new_ok k3 k4, g4, hN fuel (by omega), pure_eq]
  | @structVariant vs i name fs tag kvs rest ys distinct decl called fields once len keys look names of ih =>
    intro v hm hk
    obtain ⟨u, g, hg, hu⟩ := second_elem hm
    obtain ⟨h1, h2, hv, M, hM⟩ := variant_named distinct decl (hT _ _ _ called) hm (.refl _)
    obtain ⟨g1, g2, g5, it, g3, N, hN⟩ := struct_fit fields once names ih (by
      intro i f y hf hy hn
      exact absurd (keys f (List.mem_of_getElem? hf)) hn) hu hk.second
    have hkeys : De.hasKeys X u (fs.map (·.1)) = .ok true := by
      refine hasKeys_ok _ fun k hk => ?_
      obtain ⟨f, hf, rfl⟩ := List.mem_map.mp hk
      exact g5 f.1.bytes (keys f hf) (hK _ (look f hf))
    obtain ⟨ty', k1, k2⟩ := hv
    obtain ⟨w, hw⟩ := isWide_ok k1
    obtain ⟨ty'', k3, k4⟩ := hu.direct
    refine depth (N := max M N) fun fuel hf => ?_
    obtain ⟨⟨d, h3, h4⟩, h5⟩ := hM fuel (by omega)
    obtain ⟨u', _, h6, _, e2, _⟩ := h5 _ rfl
    rw [hg] at e2; cases e2
    simp only [Ty.de, De.enum, h1, dread_ok, ok_bind, h3, h4, decl, De.structVariant, h6, g1, g2, len, if_true, hw, hkeys,
      new_ok k3 k4, g3, hN fuel (by omega), pure_eq]
  | lost _ _ _ _ lax => exact absurd lax hL

end Fleece
