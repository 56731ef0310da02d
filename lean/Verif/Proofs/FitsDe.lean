import Verif.Proofs.DeFits

/-!
# What is read is in the document
-/

namespace Fleece
open Res

variable {X : DeCtx} {probe : List UInt8 → Prop}

theorem dread_inv {α : Type} {x : R α} {a : α} (h : D.read x = .ok a) : x = .ok a := by
  cases x <;> first | (cases h; rfl) | cases h

theorem Matches.is_arr {v : Val} {t : Tree} (h : Matches X.m X.F X.scope probe v t) (ht : v.type X.m = .ok .array) :
    ∃ xs, t = .arr xs := by
  cases h with
  | leaf type na nd read => rw [ht] at type; cases type; exact absurd rfl na
  | arr => exact ⟨_, rfl⟩
  | dict u type => have := asDict_type type; rw [ht] at this; cases this

theorem Matches.is_dict {v : Val} {t : Tree} (h : Matches X.m X.F X.scope probe v t) (ht : v.type X.m = .ok .dict) :
    ∃ kvs, t = .dict kvs := by
  cases h with
  | leaf type na nd read => rw [ht] at type; cases type; exact absurd rfl nd
  | arr u type => have := asArray_type type; rw [ht] at this; cases this
  | dict => exact ⟨_, rfl⟩

theorem asArray_some {m : Mem} {v a : Val} (h : v.asArray m = .ok (some a)) : a = v ∧ v.type m = .ok .array := by
  unfold Val.asArray at h
  obtain ⟨t, ht, h⟩ := bind_eq_ok.mp h
  simp only [pure_eq, ok.injEq] at h
  split at h
  · rename_i hh; cases h; exact ⟨rfl, by rw [ht, hh]⟩
  · cases h

theorem asDict_some {m : Mem} {v a : Val} (h : v.asDict m = .ok (some a)) : a = v ∧ v.type m = .ok .dict := by
  unfold Val.asDict at h
  obtain ⟨t, ht, h⟩ := bind_eq_ok.mp h
  simp only [pure_eq, ok.injEq] at h
  split at h
  · rename_i hh; cases h; exact ⟨rfl, by rw [ht, hh]⟩
  · cases h

/-- What a visitor sees of any value. -/
theorem Matches.visit {v : Val} {t : Tree} {w : Visit} (h : Matches X.m X.F X.scope probe v t)
    (hw : De.any X ⟨v, false⟩ = .ok w) :
    Sees X.F t w ∨ (∃ it xs, w = .seq it ∧ t = .arr xs ∧ v.iter X.m = .ok it) ∨ ∃ it kvs, w = .map it ∧ t = .dict kvs := by
  cases h with
  | leaf type na nd read =>
    obtain ⟨w', h1, h2⟩ := any_leaf type na nd read
    rw [h1] at hw; cases hw
    exact .inl h2
  | arr u type =>
    unfold De.any at hw
    simp only [asArray_type type, dread_ok, ok_bind] at hw
    obtain ⟨it, h1, hw⟩ := bind_eq_ok.mp hw
    cases hw
    exact .inr (.inl ⟨it, _, rfl, rfl, dread_inv h1⟩)
  | dict u type =>
    unfold De.any at hw
    simp only [asDict_type type, dread_ok, ok_bind] at hw
    obtain ⟨it, h1, hw⟩ := bind_eq_ok.mp hw
    cases hw
    exact .inr (.inr ⟨it, _, rfl, rfl⟩)

/-! ## Arrays -/

theorem each_inv {α : Type} {f : Ty → De → D α} (ts : List Ty) : ∀ {n : Nat} {it : Iter} {us : List Val} {as : List α},
    collect X.m (fun x => .ok x) n it = .ok us → (∀ u ∈ us, u.Direct X.m) → De.each X f ts it = .ok as →
    as.length = ts.length ∧ ts.length ≤ us.length ∧
      ∀ (i : Nat) t u a, ts[i]? = some t → us[i]? = some u → as[i]? = some a → f t ⟨u, false⟩ = .ok a := by
  induction ts with
  | nil => intro n it us as _ _ h; cases h; exact ⟨rfl, by simp, fun i t u a ht => by simp at ht⟩
  | cons t ts ih =>
    intro n it us as h hd he
    cases n with
    | zero => cases h
    | succ n =>
      unfold collect at h
      obtain ⟨⟨x, it'⟩, hs, h⟩ := bind_eq_ok.mp h
      unfold De.each at he
      cases x with
      | none => simp only [next_none hs, ok_bind] at he; cases he
      | some x =>
        obtain ⟨_, h0, h⟩ := bind_eq_ok.mp h
        obtain ⟨rest, hr, h⟩ := bind_eq_ok.mp h
        cases h0; cases h
        simp only [next_ok hs (hd x (by simp)), ok_bind] at he
        obtain ⟨a, ha, he⟩ := bind_eq_ok.mp he
        obtain ⟨as, has, he⟩ := bind_eq_ok.mp he
        cases he
        obtain ⟨g1, g2, g3⟩ := ih hr (fun u hu => hd u (by simp [hu])) has
        refine ⟨by simp [g1], by simpa using g2, ?_⟩
        intro i t' u' a' b c d
        cases i with
        | zero => cases b; cases c; cases d; exact ha
        | succ i => exact g3 i t' u' a' (by simpa using b) (by simpa using c) (by simpa using d)

theorem all_inv {α : Type} {f : De → D α} (k : Nat) : ∀ {n : Nat} {it : Iter} {us : List Val} {as : List α},
    collect X.m (fun x => .ok x) n it = .ok us → (∀ u ∈ us, u.Direct X.m) → De.all X f k it = .ok as →
    as.length = us.length ∧ ∀ (i : Nat) u a, us[i]? = some u → as[i]? = some a → f ⟨u, false⟩ = .ok a := by
  induction k with
  | zero => intro n it us as _ _ h; cases h
  | succ k ih =>
    intro n it us as h hd he
    cases n with
    | zero => cases h
    | succ n =>
      unfold collect at h
      obtain ⟨⟨x, it'⟩, hs, h⟩ := bind_eq_ok.mp h
      unfold De.all at he
      cases x with
      | none =>
        cases h
        simp only [next_none hs, ok_bind] at he
        cases he
        exact ⟨rfl, fun i u a hu => by simp at hu⟩
      | some x =>
        obtain ⟨_, h0, h⟩ := bind_eq_ok.mp h
        obtain ⟨rest, hr, h⟩ := bind_eq_ok.mp h
        cases h0; cases h
        simp only [next_ok hs (hd x (by simp)), ok_bind] at he
        obtain ⟨a, ha, he⟩ := bind_eq_ok.mp he
        obtain ⟨as, has, he⟩ := bind_eq_ok.mp he
        cases he
        obtain ⟨g1, g3⟩ := ih hr (fun u hu => hd u (by simp [hu])) has
        refine ⟨by simp [g1], ?_⟩
        intro i u' a' c d
        cases i with
        | zero => cases c; cases d; exact ha
        | succ i => exact g3 i u' a' (by simpa using c) (by simpa using d)

/-! ## Dicts -/

theorem pairs_inv {α β : Type} {fk : De → D α} {fv : α → De → D β} {it : Iter} {es : List (List UInt8 × Val)}
    (hw : Walk X it es) : ∀ {n : Nat} {as : List (α × β)}, De.pairs X fk fv n it = .ok as → as.length = es.length ∧
      ∀ (i : Nat) e a, es[i]? = some e → as[i]? = some a →
        (∃ d : De, d.any X = .ok (.str e.1) ∧ fk d = .ok a.1) ∧ fv a.1 ⟨e.2, false⟩ = .ok a.2 := by
  induction hw with
  | nil stop =>
    intro n as h
    cases n with
    | zero => cases h
    | succ n =>
      unfold De.pairs at h
      simp only [stop, ok_bind] at h
      cases h
      exact ⟨rfl, fun i e a he => by simp at he⟩
  | @cons it it1 it2 d k u es key text value rest ih =>
    intro n as h
    cases n with
    | zero => cases h
    | succ n =>
      unfold De.pairs at h
      simp only [key, ok_bind] at h
      obtain ⟨a, ha, h⟩ := bind_eq_ok.mp h
      simp only [value, ok_bind] at h
      obtain ⟨b, hb, h⟩ := bind_eq_ok.mp h
      obtain ⟨as, has, h⟩ := bind_eq_ok.mp h
      cases h
      obtain ⟨g1, g2⟩ := ih has
      refine ⟨by simp [g1], ?_⟩
      intro i e a' c d'
      cases i with
      | zero => cases c; cases d'; exact ⟨⟨d, text, ha⟩, hb⟩
      | succ i => exact g2 i e a' (by simpa using c) (by simpa using d')

theorem ident_str {names : List RStr} {d : De} {k : List UInt8} (h : d.any X = .ok (.str k)) :
    De.ident X names d = .ok (names.findIdx? fun n => n.bytes = k) := by
  unfold De.ident
  simp only [h, ok_bind, pure_eq]

theorem fields_inv {fuel : Nat} {f : Ty → De → D SVal} {fs : List (RStr × Ty)} (hd : (fs.map (·.1)).Nodup) {it : Iter}
    {es : List (List UInt8 × Val)} (hw : Walk X it es) : ∀ {n : Nat} {got out : List (Option SVal)},
    got.length = fs.length → De.fields X fuel f fs n it got = .ok out → out.length = fs.length ∧
      ∀ (i : Nat) fd, fs[i]? = some fd → (fd.1.bytes ∉ es.map (·.1) ∧ out[i]? = got[i]?) ∨
        ∃ u x, (fd.1.bytes, u) ∈ es ∧ out[i]? = some (some x) ∧ f fd.2 ⟨u, false⟩ = .ok x := by
  induction hw with
  | nil stop =>
    intro n got out hg h
    cases n with
    | zero => cases h
    | succ n =>
      unfold De.fields at h
      simp only [stop, ok_bind] at h
      cases h
      exact ⟨hg, fun i fd _ => .inl ⟨by simp, rfl⟩⟩
  | @cons it it1 it2 d k u es key text value rest ih =>
    intro n got out hg h
    cases n with
    | zero => cases h
    | succ n =>
      unfold De.fields at h
      simp only [key, ok_bind, ident_str text] at h
      cases hf : (fs.map (·.1)).findIdx? (fun n => decide (n.bytes = k)) with
      | none =>
        rw [hf] at h
        dsimp only at h
        simp only [value, ok_bind] at h
        obtain ⟨_, _, h⟩ := bind_eq_ok.mp h
        obtain ⟨g1, g2⟩ := ih hg h
        refine ⟨g1, fun i fd hfd => ?_⟩
        rw [List.findIdx?_eq_none_iff] at hf
        have hne : fd.1.bytes ≠ k := by
          have := hf fd.1 (List.mem_map.mpr ⟨fd, List.mem_of_getElem? hfd, rfl⟩)
          simpa using this
        rcases g2 i fd hfd with ⟨q1, q2⟩ | ⟨u', x, q1, q2⟩
        · exact .inl ⟨by simp only [List.map_cons, List.mem_cons, not_or]; exact ⟨hne, q1⟩, q2⟩
        · exact .inr ⟨u', x, by simp [q1], q2⟩
      | some j =>
        rw [hf] at h
        dsimp only at h
        rw [List.findIdx?_eq_some_iff_getElem] at hf
        obtain ⟨hj, hjk, _⟩ := hf
        simp only [List.length_map] at hj
        simp only [List.getElem_map, decide_eq_true_eq] at hjk
        rw [List.getElem?_eq_getElem hj] at h
        cases hgj : got[j]? with
        | none => rw [hgj] at h; cases h
        | some o =>
          rw [hgj] at h
          cases o with
          | some _ => cases h
          | none =>
            dsimp only at h
            simp only [value, ok_bind] at h
            obtain ⟨x, hx, h⟩ := bind_eq_ok.mp h
            obtain ⟨g1, g2⟩ := ih (by simpa using hg) h
            refine ⟨g1, fun i fd hfd => ?_⟩
            rcases g2 i fd hfd with ⟨q1, q2⟩ | ⟨u', x, q1, q2⟩
            · by_cases hij : i = j
              · subst hij
                rw [List.getElem?_eq_getElem hj] at hfd
                cases hfd
                refine .inr ⟨u, x, by simp [hjk], ?_, hx⟩
                rw [q2]
                simp [show i < got.length by omega]
              · refine .inl ⟨?_, by rw [q2, List.getElem?_set_ne (by omega)]⟩
                simp only [List.map_cons, List.mem_cons, not_or]
                refine ⟨?_, q1⟩
                intro hc
                have e1 := findIdx_name hd (i := i) (n := fd.1) (by simp [hfd])
                have e2 := findIdx_name hd (i := j) (n := fs[j].1) (by simp [hj])
                rw [hc] at e1
                rw [hjk, e1] at e2
                exact hij (by injection e2)
            · exact .inr ⟨u', x, by simp [q1], q2⟩

theorem optional_inv {types : List Ty} (hn : ∀ t ∈ types, t.Nominal) {n : Nat} {t : Ty} (h : t.optional types n = true) :
    ∃ u, t = .option u := by
  cases t <;> first | exact ⟨_, rfl⟩ | skip
  case named i =>
    exfalso
    cases n with
    | zero => simp [Ty.optional] at h
    | succ n =>
      unfold Ty.optional at h
      cases hi : types[i]? with
      | none => rw [hi] at h; cases h
      | some t =>
        rw [hi] at h
        dsimp only at h
        have := hn t (List.mem_of_getElem? hi)
        cases t <;> first | exact absurd rfl (this.1 _) | exact absurd rfl (this.2 _) | (cases n <;> simp [Ty.optional] at h)
  all_goals (cases n <;> simp [Ty.optional] at h)

theorem build_inv (hn : ∀ t ∈ X.types, t.Nominal) (fs : List (RStr × Ty)) : ∀ {ys : List (RStr × SVal)} {got : List (Option SVal)},
    got.length = fs.length → De.build X fs got = .ok ys → ys.map (·.1) = fs.map (·.1) ∧
      ∀ (i : Nat) (f : RStr × Ty) (y : RStr × SVal), fs[i]? = some f → ys[i]? = some y →
        got[i]? = some (some y.2) ∨ got[i]? = some none ∧ (∃ t, f.2 = .option t) ∧ y.2 = .none := by
  induction fs with
  | nil =>
    intro ys got hl h
    cases got with
    | nil => cases h; exact ⟨rfl, fun i f y hf => by simp at hf⟩
    | cons _ _ => cases hl
  | cons f fs ih =>
    intro ys got hl h
    obtain ⟨k, t⟩ := f
    cases got with
    | nil => cases hl
    | cons o got =>
      cases o with
      | some v =>
        unfold De.build at h
        obtain ⟨rest, hr, h⟩ := bind_eq_ok.mp h
        cases h
        obtain ⟨g1, g2⟩ := ih (by simpa using hl) hr
        refine ⟨by simp [g1], ?_⟩
        intro i f y hf hy
        cases i with
        | zero => cases hf; cases hy; exact .inl rfl
        | succ i => simpa using g2 i f y (by simpa using hf) (by simpa using hy)
      | none =>
        unfold De.build at h
        split at h
        · rename_i ho
          obtain ⟨rest, hr, h⟩ := bind_eq_ok.mp h
          cases h
          obtain ⟨g1, g2⟩ := ih (by simpa using hl) hr
          refine ⟨by simp [g1], ?_⟩
          intro i f y hf hy
          cases i with
          | zero => cases hf; cases hy; exact .inr ⟨rfl, optional_inv hn ho, rfl⟩
          | succ i => simpa using g2 i f y (by simpa using hf) (by simpa using hy)
        · cases h

/-! ## Types -/

/-- Whatever is read is in the document. -/
def Honest (X : DeCtx) (probe : List UInt8 → Prop) (R : Rules) (fuel : Nat) : Prop :=
  ∀ {ty : Ty} {v : Val} {t : Tree} {y : SVal}, Matches X.m X.F X.scope probe v t → t.Keyed (fun k => k ≠ []) → t.Distinct →
    ty.Proper R.field → Ty.de X fuel ty ⟨v, false⟩ = .ok y → Fits R ty t y

theorem keys_inj {kvs : List (List UInt8 × Tree)} (h : (kvs.map (·.1)).Nodup) {i j : Nat} {k : List UInt8} {a b : Tree}
    (hi : kvs[i]? = some (k, a)) (hj : kvs[j]? = some (k, b)) : i = j := by
  have hil := (List.getElem?_eq_some_iff.mp hi).1
  have hjl := (List.getElem?_eq_some_iff.mp hj).1
  rw [List.Nodup, List.pairwise_iff_getElem] at h
  have e1 : kvs[i] = (k, a) := by simpa [hil] using hi
  have e2 : kvs[j] = (k, b) := by simpa [hjl] using hj
  rcases Nat.lt_trichotomy i j with hlt | heq | hlt
  · exact (h i j (by simpa using hil) (by simpa using hjl) hlt (by simp [e1, e2])).elim
  · exact heq
  · exact (h j i (by simpa using hjl) (by simpa using hil) hlt (by simp [e1, e2])).elim

theorem Tree.Keyed.arr_of {K : List UInt8 → Prop} {xs : List Tree} (h : (Tree.arr xs).Keyed K) {x : Tree} (hx : x ∈ xs) :
    x.Keyed K := by
  cases h with
  | leaf na _ => exact absurd rfl (na _)
  | arr of => exact of x hx

theorem Tree.Distinct.arr_of {xs : List Tree} (h : (Tree.arr xs).Distinct) {x : Tree} (hx : x ∈ xs) : x.Distinct := by
  cases h with
  | leaf na _ => exact absurd rfl (na _)
  | arr of => exact of x hx

theorem Tree.Keyed.dict_of {K : List UInt8 → Prop} {kvs : List (List UInt8 × Tree)} (h : (Tree.dict kvs).Keyed K) :
    (∀ e ∈ kvs, K e.1) ∧ ∀ e ∈ kvs, e.2.Keyed K := by
  cases h with
  | leaf _ nd => exact absurd rfl (nd _)
  | dict key of => exact ⟨key, of⟩

theorem Tree.Distinct.dict_of {kvs : List (List UInt8 × Tree)} (h : (Tree.dict kvs).Distinct) :
    (kvs.map (·.1)).Nodup ∧ ∀ e ∈ kvs, e.2.Distinct := by
  cases h with
  | leaf _ nd => exact absurd rfl (nd _)
  | dict once of => exact ⟨once, of⟩

theorem tuple_inv {R : Rules} {fuel : Nat} (ih : Honest X probe R fuel) {tys : List Ty} {v : Val} {ts : List Tree} {it : Iter}
    {ys : List SVal} (hm : Matches X.m X.F X.scope probe v (.arr ts)) (hk : (Tree.arr ts).Keyed fun k => k ≠ [])
    (hd : (Tree.arr ts).Distinct) (hp : ∀ ty ∈ tys, ty.Proper R.field) (hi : v.iter X.m = .ok it)
    (h : De.each X (Ty.de X fuel) tys it = .ok ys) : tys.length = ys.length ∧ tys.length ≤ ts.length ∧
      ∀ (i : Nat) ty t y, tys[i]? = some ty → ts[i]? = some t → ys[i]? = some y → Fits R ty t y := by
  obtain ⟨u, h1, h2, h3, _, ⟨it', us, h5, h6, h7, h8, h9⟩, h10⟩ := hm.elems
  rw [hi] at h5; cases h5
  have hdir : ∀ w ∈ us, w.Direct X.m := by
    intro w hw
    obtain ⟨i, hi, rfl⟩ := List.mem_iff_getElem.mp hw
    rw [h9 i us[i] (by simp)]
    exact (h10 i (ts[i]'(by omega)) (by simp)).direct
  obtain ⟨g1, g2, g3⟩ := each_inv tys h7 hdir h
  refine ⟨g1.symm, by omega, ?_⟩
  intro i ty t y a b c
  have hi := (List.getElem?_eq_some_iff.mp b).1
  refine ih (h10 i t b) (hk.arr_of (List.mem_of_getElem? b)) (hd.arr_of (List.mem_of_getElem? b))
    (hp _ (List.mem_of_getElem? a)) (g3 i ty (u i) y a ?_ c)
  rw [← h9 i (us[i]'(by omega)) (by simp)]
  simp

theorem struct_inv {R : Rules} {fuel : Nat} (hn : ∀ t ∈ X.types, t.Nominal) (ih : Honest X probe R fuel)
    {fs : List (RStr × Ty)} {v : Val} {kvs : List (List UInt8 × Tree)} {it : Iter} {ys : List (RStr × SVal)}
    (hm : Matches X.m X.F X.scope probe v (.dict kvs)) (hk : (Tree.dict kvs).Keyed fun k => k ≠ [])
    (hd : (Tree.dict kvs).Distinct) (hf : (fs.map (·.1)).Nodup) (hp : ∀ f ∈ fs, f.2.Proper R.field)
    (hi : De.map X ⟨v, false⟩ = .ok it) (h : De.struct X fuel (Ty.de X fuel) fs it = .ok ys) :
    ys.map (·.1) = fs.map (·.1) ∧
      (∀ (i : Nat) (f : RStr × Ty) (y : RStr × SVal) t, fs[i]? = some f → ys[i]? = some y → (f.1.bytes, t) ∈ kvs →
        Fits R f.2 t y.2) ∧
      ∀ (i : Nat) (f : RStr × Ty) (y : RStr × SVal), fs[i]? = some f → ys[i]? = some y →
        f.1.bytes ∉ kvs.map (·.1) → (∃ t, f.2 = .option t) ∧ y.2 = .none := by
  obtain ⟨u, it', h1, h2, h3, h4, h5, h6, h7⟩ := dict_walk hm hk.dict_of.1
  rw [hi] at h1; cases h1
  unfold De.struct at h
  obtain ⟨got, hg, h⟩ := bind_eq_ok.mp h
  obtain ⟨g1, g2⟩ := fields_inv hf h2 (by simp) hg
  obtain ⟨b1, b2⟩ := build_inv hn fs g1 h
  have hes : (kvs.mapIdx fun i kv => (kv.1, u i)).map (·.1) = kvs.map (·.1) := by
    apply List.ext_getElem?
    intro i
    simp only [List.getElem?_map, List.getElem?_mapIdx]
    cases kvs[i]? <;> rfl
  rw [hes] at g2
  have hin : ∀ {k : List UInt8} {w : Val}, (k, w) ∈ (kvs.mapIdx fun i kv => (kv.1, u i)) →
      ∃ j t, kvs[j]? = some (k, t) ∧ w = u j := by
    intro k w hw
    obtain ⟨j, hj, he⟩ := List.mem_iff_getElem.mp hw
    simp only [List.length_mapIdx] at hj
    simp only [List.getElem_mapIdx, Prod.mk.injEq] at he
    exact ⟨j, kvs[j].2, by rw [← he.1]; simp [hj], he.2.symm⟩
  refine ⟨b1, ?_, ?_⟩
  · intro i f y t a b c
    rcases g2 i f a with ⟨q1, _⟩ | ⟨w, x, q1, q2, q3⟩
    · exact absurd (List.mem_map.mpr ⟨_, c, rfl⟩) q1
    · obtain ⟨j, t', r1, rfl⟩ := hin q1
      have htt : t' = t := by
        obtain ⟨j', hj', he⟩ := List.mem_iff_getElem.mp c
        have hj := (List.getElem?_eq_some_iff.mp r1).1
        have hnd := hd.dict_of.1
        have hji : j = j' := keys_inj hnd r1 (by rw [← he]; simp)
        subst hji
        rw [List.getElem?_eq_getElem hj, he] at r1
        cases r1; rfl
      subst htt
      have hmem := List.mem_of_getElem? r1
      rcases b2 i f y a b with e | ⟨e, _⟩
      · rw [q2] at e
        injection e with e
        injection e with e
        subst e
        exact ih (h7 j _ _ r1) (hk.dict_of.2 _ hmem) (hd.dict_of.2 _ hmem) (hp f (List.mem_of_getElem? a)) q3
      · rw [q2] at e; cases e
  · intro i f y a b c
    rcases g2 i f a with ⟨_, q2⟩ | ⟨w, x, q1, _⟩
    · have hlt := (List.getElem?_eq_some_iff.mp a).1
      have : (fs.map fun _ => (none : Option SVal))[i]? = some none := by simp [hlt]
      rw [this] at q2
      rcases b2 i f y a b with e | ⟨_, e⟩
      · rw [q2] at e; cases e
      · exact e
    · obtain ⟨j, t', r1, _⟩ := hin q1
      exact absurd (List.mem_map.mpr ⟨_, List.mem_of_getElem? r1, rfl⟩) c

theorem hasKeys_inv {v : Val} (names : List RStr) : De.hasKeys X v names = .ok true → ∀ k ∈ names,
    ¬ v.Lookup X.m X.scope k.bytes none := by
  induction names with
  | nil => intro _ k hk; cases hk
  | cons k names ih =>
    intro h
    unfold De.hasKeys at h
    intro k' hk'
    cases hs : X.scope with
    | none =>
      rw [hs] at h
      dsimp only at h
      obtain ⟨r, hr, h⟩ := bind_eq_ok.mp h
      split at h
      · rename_i hrt
        subst hrt
        rcases List.mem_cons.mp hk' with rfl | hk'
        · rintro ⟨l1, l2, l3⟩
          rw [dread_inv hr] at l2
          cases l2
        · rw [← hs]; exact ih h k' hk'
      · cases h
    | some sk =>
      rw [hs] at h
      dsimp only at h
      obtain ⟨r, hr, h⟩ := bind_eq_ok.mp h
      simp only [pure_eq, ok_bind] at h
      split at h
      · rename_i hrt
        rcases List.mem_cons.mp hk' with rfl | hk'
        · rintro ⟨l1, l2, l3⟩
          have := l3 sk rfl
          rw [dread_inv hr] at this
          cases this
          cases hrt
        · rw [← hs]; exact ih h k' hk'
      · cases h

/-- Texts that are not keys are not found. -/
theorem Matches.absent {v : Val} {kvs : List (List UInt8 × Tree)} (h : Matches X.m X.F X.scope probe v (.dict kvs))
    {k : List UInt8} (hp : probe k) (hk : k ∉ kvs.map Prod.fst) : v.Lookup X.m X.scope k none := by
  generalize hd : Tree.dict kvs = t at h
  cases h with
  | leaf type na nd read => subst hd; exact absurd rfl ((Props.leaf_read type na nd read).2 _)
  | arr => cases hd
  | dict u type len iter order found absent each => cases hd; exact absent k hp hk

theorem badLayout_ok {α : Type} {fuel : Nat} {v : Val} {a : α} : De.badLayout X fuel v ≠ .ok a := by
  unfold De.badLayout
  intro h
  obtain ⟨_, _, h⟩ := bind_eq_ok.mp h
  cases h

theorem elem_inv {fuel : Nat} {v w : Val} {i : Nat} (h : De.elem X fuel v i = .ok w) : v.get X.m i = .ok (some w) := by
  unfold De.elem at h
  obtain ⟨o, ho, h⟩ := bind_eq_ok.mp h
  obtain ⟨_, _, h⟩ := bind_eq_ok.mp h
  cases o with
  | none => cases h
  | some o => cases h; exact dread_inv ho

theorem part_inv {fuel : Nat} {v : Val} {d : De} {i : Nat} (h : De.part X fuel v i = .ok d) :
    ∃ w, v.get X.m i = .ok (some w) ∧ (w.Direct X.m → d = ⟨w, false⟩) := by
  unfold De.part at h
  obtain ⟨w, hw, h⟩ := bind_eq_ok.mp h
  obtain ⟨b, _, h⟩ := bind_eq_ok.mp h
  refine ⟨w, elem_inv hw, ?_⟩
  rintro ⟨ty, h1, h2⟩
  rw [new_ok h1 h2] at h
  cases h; rfl

theorem tag_inv {vs : List (RStr × Variant)} {i : Nat} {v : Val} {t : Tree} (hm : Matches X.m X.F X.scope probe v t)
    (h : De.ident X (vs.map (·.1)) ⟨v, false⟩ = .ok (some i)) : ∃ e, vs[i]? = some e ∧ tagLoose i e.1 t := by
  have name : ∀ {s : List UInt8}, (vs.map (·.1)).findIdx? (fun n => decide (n.bytes = s)) = some i →
      ∃ e, vs[i]? = some e ∧ e.1.bytes = s := by
    intro s hf
    rw [List.findIdx?_eq_some_iff_getElem] at hf
    obtain ⟨hj, hjk, _⟩ := hf
    simp only [List.length_map] at hj
    simp only [List.getElem_map, decide_eq_true_eq] at hjk
    exact ⟨vs[i], by simp, hjk⟩
  unfold De.ident at h
  obtain ⟨w, hw, h⟩ := bind_eq_ok.mp h
  rcases hm.visit hw with hs | ⟨it, xs, rfl, _⟩ | ⟨it, xs, rfl, _⟩
  · cases hs <;> dsimp only [pure_eq] at h <;> try (cases h; done)
    case u64 n =>
      simp only [ok.injEq] at h
      split at h
      · rename_i hn
        cases h
        simp only [List.length_map] at hn
        exact ⟨vs[i], by simp, .inr (.inr rfl)⟩
      · cases h
    case str s =>
      simp only [ok.injEq] at h
      obtain ⟨e, h1, h2⟩ := name h
      exact ⟨e, h1, .inl (by rw [h2])⟩
    case data s =>
      simp only [ok.injEq] at h
      obtain ⟨e, h1, h2⟩ := name h
      exact ⟨e, h1, .inr (.inl (by rw [h2]))⟩
  · cases h
  · cases h

theorem get_beyond {v w : Val} {n i : Nat} (hl : v.arrayLen X.m = .ok n) (hi : n < i) : v.get X.m i ≠ .ok (some w) := by
  unfold Val.get
  simp only [hl, ok_bind, gt_iff_lt, hi, if_true, pure_eq]
  intro h; cases h

theorem enum_inv {R : Rules} {fuel : Nat} (hn : ∀ t ∈ X.types, t.Nominal) (hK : ∀ k, R.field k → probe k.bytes)
    (hT : ∀ i name t, tagLoose i name t → R.tag i name t) (hL : R.lax) (ih : Honest X probe R fuel) {vs : List (RStr × Variant)}
    {v : Val} {t : Tree} {y : SVal} (hm : Matches X.m X.F X.scope probe v t) (hk : t.Keyed fun k => k ≠ []) (hd : t.Distinct)
    (hp : (Ty.enum vs).Proper R.field) (h : De.enum X fuel (Ty.de X fuel) vs ⟨v, false⟩ = .ok y) : Fits R (.enum vs) t y := by
  cases hp with
  | enum distinct newtype tuple fields struct =>
    unfold De.enum at h
    obtain ⟨a, ha, h⟩ := bind_eq_ok.mp h
    cases a with
    | none => obtain ⟨_, _, h⟩ := bind_eq_ok.mp h; cases h
    | some a =>
      obtain ⟨rfl, hty⟩ := asArray_some (dread_inv ha)
      obtain ⟨ts, rfl⟩ := hm.is_arr hty
      obtain ⟨u, h1, h2, h3, h4, _, h5⟩ := hm.elems
      dsimp only at h
      obtain ⟨d, hd0, h⟩ := bind_eq_ok.mp h
      obtain ⟨o, ho, h⟩ := bind_eq_ok.mp h
      cases ts with
      | nil =>
        -- the bytes after an empty array: no variant comes of it
        exfalso
        cases o with
        | none => cases h
        | some i =>
          dsimp only at h
          split at h
          · cases h
          · obtain ⟨n, hn', h⟩ := bind_eq_ok.mp h
            rw [h3] at hn'
            cases hn'
            exact badLayout_ok h
          · obtain ⟨p, hp, h⟩ := bind_eq_ok.mp h
            obtain ⟨w, hw, _⟩ := part_inv hp
            exact get_beyond h3 (by simp) hw
          · obtain ⟨p, hp, h⟩ := bind_eq_ok.mp h
            unfold De.tupleVariant at hp
            obtain ⟨w, hw, _⟩ := bind_eq_ok.mp hp
            exact get_beyond h3 (by simp) (elem_inv hw)
          · obtain ⟨p, hp, h⟩ := bind_eq_ok.mp h
            unfold De.structVariant at hp
            obtain ⟨w, hw, _⟩ := bind_eq_ok.mp hp
            exact get_beyond h3 (by simp) (elem_inv hw)
      | cons tag rest =>
        have hm0 := h5 0 tag rfl
        obtain ⟨w, hw, hwd⟩ := part_inv hd0
        rw [h4 0 (by simp)] at hw
        cases hw
        cases hwd hm0.direct
        cases o with
        | none => cases h
        | some i =>
          obtain ⟨⟨name, var⟩, hdecl, htag⟩ := tag_inv hm0 ho
          have htag := hT _ _ _ htag
          have hmem := List.mem_of_getElem? hdecl
          dsimp only at h
          rw [hdecl] at h
          have lone : rest = [] → var ≠ .unit → Fits R (.enum vs) (.arr (tag :: rest)) y := by
            rintro rfl hne
            exact .lost distinct hdecl hne htag hL
          cases var with
          | unit =>
            dsimp only at h
            obtain ⟨n, hn', h⟩ := bind_eq_ok.mp h
            rw [h3] at hn'
            cases hn'
            split at h
            · rename_i hone
              cases h
              cases rest with
              | nil => exact .unitVariant distinct hdecl htag
              | cons _ _ => simp at hone
            · exact absurd h badLayout_ok
          | newtype ty =>
            cases rest with
            | nil => exact lone rfl (by simp)
            | cons t1 rest =>
              dsimp only at h
              obtain ⟨p, hp1, h⟩ := bind_eq_ok.mp h
              obtain ⟨x, hx, h⟩ := bind_eq_ok.mp h
              cases h
              obtain ⟨w, hw, hwd⟩ := part_inv hp1
              rw [h4 1 (by simp)] at hw
              cases hw
              have hm1 := h5 1 t1 rfl
              cases hwd hm1.direct
              exact .newtypeVariant distinct hdecl htag
                (ih hm1 (hk.arr_of (by simp)) (hd.arr_of (by simp)) (newtype _ _ hmem) hx)
          | tuple tys =>
            cases rest with
            | nil => exact lone rfl (by simp)
            | cons t1 rest =>
              dsimp only at h
              obtain ⟨xs, hx, h⟩ := bind_eq_ok.mp h
              cases h
              unfold De.tupleVariant at hx
              obtain ⟨w, hw, hx⟩ := bind_eq_ok.mp hx
              have hw := elem_inv hw
              rw [h4 1 (by simp)] at hw
              cases hw
              have hm1 := h5 1 t1 rfl
              obtain ⟨b, hb, hx⟩ := bind_eq_ok.mp hx
              cases b with
              | none => exact absurd hx badLayout_ok
              | some b =>
                obtain ⟨rfl, hty1⟩ := asArray_some (dread_inv hb)
                obtain ⟨ts, rfl⟩ := hm1.is_arr hty1
                obtain ⟨_, k1, _, k3, _⟩ := hm1.elems
                dsimp only at hx
                simp only [k3, dread_ok, ok_bind] at hx
                split at hx
                · rename_i hlen
                  obtain ⟨_, _, hx⟩ := bind_eq_ok.mp hx
                  simp only [new_ok hty1 (by simp), ok_bind] at hx
                  obtain ⟨it, hit, hx⟩ := bind_eq_ok.mp hx
                  unfold De.seq at hit
                  simp only [k1, dread_ok, ok_bind] at hit
                  obtain ⟨q1, q2, q3⟩ := tuple_inv ih hm1 (hk.arr_of (by simp)) (hd.arr_of (by simp)) (tuple _ _ hmem)
                    (dread_inv hit) hx
                  exact .tupleVariant distinct hdecl htag q1 hlen.symm q3
                · exact absurd hx badLayout_ok
          | struct fs =>
            cases rest with
            | nil => exact lone rfl (by simp)
            | cons t1 rest =>
              dsimp only at h
              obtain ⟨xs, hx, h⟩ := bind_eq_ok.mp h
              cases h
              unfold De.structVariant at hx
              obtain ⟨w, hw, hx⟩ := bind_eq_ok.mp hx
              have hw := elem_inv hw
              rw [h4 1 (by simp)] at hw
              cases hw
              have hm1 := h5 1 t1 rfl
              obtain ⟨b, hb, hx⟩ := bind_eq_ok.mp hx
              cases b with
              | none => exact absurd hx badLayout_ok
              | some b =>
                obtain ⟨rfl, hty1⟩ := asDict_some (dread_inv hb)
                obtain ⟨kvs, rfl⟩ := hm1.is_dict hty1
                have hkk : (Tree.dict kvs).Keyed fun k => k ≠ [] := hk.arr_of (by simp)
                have hdd : (Tree.dict kvs).Distinct := hd.arr_of (by simp)
                obtain ⟨_, _, _, _, _, k4, k5, _⟩ := dict_walk hm1 hkk.dict_of.1
                dsimp only at hx
                simp only [k5, dread_ok, ok_bind] at hx
                split at hx
                · rename_i hlen
                  obtain ⟨all, hall, hx⟩ := bind_eq_ok.mp hx
                  split at hx
                  · rename_i hall'
                    subst hall'
                    obtain ⟨_, _, hx⟩ := bind_eq_ok.mp hx
                    simp only [new_ok hty1 (by simp), ok_bind] at hx
                    obtain ⟨it, hit, hx⟩ := bind_eq_ok.mp hx
                    obtain ⟨f1, f2⟩ := fields _ _ hmem
                    obtain ⟨q1, q2, _⟩ := struct_inv hn ih hm1 hkk hdd f1 (struct _ _ hmem) hit hx
                    refine .structVariant distinct hdecl htag f1 hdd.dict_of.1 hlen ?_ f2 q1 q2
                    intro f hf
                    by_cases hin : f.1.bytes ∈ kvs.map (·.1)
                    · exact hin
                    · exact absurd (hm1.absent (hK _ (f2 f hf)) hin)
                        (hasKeys_inv _ hall f.1 (List.mem_map.mpr ⟨f, hf, rfl⟩))
                  · exact absurd hx badLayout_ok
                · exact absurd hx badLayout_ok

/-- **Whatever is read is in the document.** -/
theorem fits_de {R : Rules} (hF : R.F = X.F) (hN : R.N = X.N) (hty : R.types = X.types)
    (hn : ∀ t ∈ X.types, t.Nominal ∧ t.Proper R.field) (hK : ∀ k, R.field k → probe k.bytes)
    (hT : ∀ i name t, tagLoose i name t → R.tag i name t) (hL : R.lax)
    (hW : ∀ b, X.F.widen (X.F.narrow (X.F.widen b)) = X.F.widen b) (fuel : Nat) : Honest X probe R fuel := by
  induction fuel with
  | zero => intro ty v t y _ _ _ _ h; cases h
  | succ fuel ih =>
    intro ty v t y hm hk hd hp h
    cases hp with
    | named i =>
      unfold Ty.de at h
      dsimp only at h
      cases hi : X.types[i]? with
      | none => rw [hi] at h; cases h
      | some t' =>
        rw [hi] at h
        exact .named (by rw [hty, hi]) (ih hm hk hd (hn t' (List.mem_of_getElem? hi)).2 h)
    | bool =>
      unfold Ty.de at h
      obtain ⟨w, hw, h⟩ := bind_eq_ok.mp h
      rcases hm.visit hw with hs | ⟨it, xs, rfl, _⟩ | ⟨it, xs, rfl, _⟩
      · cases hs <;> first | (cases h; exact .bool _) | cases h
      · cases h
      · cases h
    | int it =>
      unfold Ty.de at h
      obtain ⟨w, hw, h⟩ := bind_eq_ok.mp h
      rcases hm.visit hw with hs | ⟨it, xs, rfl, _⟩ | ⟨it, xs, rfl, _⟩
      · cases hs <;> try (cases h; done)
        case i64 i =>
          dsimp only at h
          split at h
          · rename_i hb; cases h; exact .int (holds_iff.mpr hb)
          · cases h
        case u64 n =>
          dsimp only at h
          split at h
          · rename_i hb
            cases h
            exact .int (holds_iff.mpr ⟨by cases it <;> simp only [IntTy.lo] <;> omega, hb⟩)
          · cases h
      · cases h
      · cases h
    | f32 =>
      unfold Ty.de at h
      obtain ⟨w, hw, h⟩ := bind_eq_ok.mp h
      rcases hm.visit hw with hs | ⟨it, xs, rfl, _⟩ | ⟨it, xs, rfl, _⟩
      · rw [← hF, ← hN] at h
        rw [← hF] at hs
        cases hs <;> first | (cases h; exact .f32 _) | (cases h; exact .f32Int _) | cases h
      · cases h
      · cases h
    | f64 =>
      unfold Ty.de at h
      obtain ⟨w, hw, h⟩ := bind_eq_ok.mp h
      rw [← hF] at hW
      have hx : ∀ {d : UInt64}, ∀ b, R.F.widen b = d → R.F.widen (R.F.narrow d) = d := by rintro d b rfl; exact hW b
      rcases hm.visit hw with hs | ⟨it, xs, rfl, _⟩ | ⟨it, xs, rfl, _⟩
      · rw [← hF, ← hN] at h
        rw [← hF] at hs
        cases hs <;> try (cases h; done)
        case f32 b =>
          dsimp only at h
          rw [hW] at h
          cases h; exact .f64 hx
        case f64 d => cases h; exact .f64 hx
        case i64 => cases h; exact .f64Int _
        case u64 => cases h; exact .f64Int _
      · cases h
      · cases h
    | char =>
      unfold Ty.de at h
      obtain ⟨w, hw, h⟩ := bind_eq_ok.mp h
      rcases hm.visit hw with hs | ⟨it, xs, rfl, _⟩ | ⟨it, xs, rfl, _⟩
      · cases hs <;> try (cases h; done)
        case str s =>
          dsimp only at h
          split at h
          · rename_i hv
            split at h
            · rename_i hone
              cases h
              exact Fits.char (s := ⟨s, hv⟩) hone
            · cases h
          · cases h
      · cases h
      · cases h
    | string =>
      unfold Ty.de at h
      obtain ⟨w, hw, h⟩ := bind_eq_ok.mp h
      rcases hm.visit hw with hs | ⟨it, xs, rfl, _⟩ | ⟨it, xs, rfl, _⟩
      · cases hs <;> try (cases h; done)
        case str s =>
          dsimp only at h
          split at h
          · rename_i hv; cases h; exact Fits.string ⟨s, hv⟩
          · cases h
        case data s =>
          dsimp only at h
          split at h
          · rename_i hv; cases h; exact Fits.stringData ⟨s, hv⟩
          · cases h
      · cases h
      · cases h
    | bytes =>
      unfold Ty.de at h
      obtain ⟨w, hw, h⟩ := bind_eq_ok.mp h
      rcases hm.visit hw with hs | ⟨it, xs, rfl, _⟩ | ⟨it, xs, rfl, _⟩
      · cases hs <;> first | (cases h; exact .bytes _) | (cases h; exact .bytesStr _) | cases h
      · cases h
      · cases h
    | option of =>
      obtain ⟨vt, h1, h2, h3⟩ := hm.type
      unfold Ty.de at h
      simp only [h1, dread_ok, ok_bind] at h
      by_cases hv : vt = .null
      · cases h3.mp hv
        subst hv
        cases h
        exact .none _
      · have hnt : t ≠ .null := fun hc => hv (h3.mpr hc)
        split at h
        · exact absurd rfl hv
        · obtain ⟨x, hx, h⟩ := bind_eq_ok.mp h
          cases h
          exact .some hnt (ih hm hk hd of hx)
    | unit =>
      unfold Ty.de at h
      obtain ⟨w, hw, h⟩ := bind_eq_ok.mp h
      rcases hm.visit hw with hs | ⟨it, xs, rfl, _⟩ | ⟨it, xs, rfl, _⟩
      · cases hs <;> first | (cases h; exact .unit) | cases h
      · cases h
      · cases h
    | unitStruct =>
      unfold Ty.de at h
      obtain ⟨w, hw, h⟩ := bind_eq_ok.mp h
      rcases hm.visit hw with hs | ⟨it, xs, rfl, _⟩ | ⟨it, xs, rfl, _⟩
      · cases hs <;> first | (cases h; exact .unitStruct) | cases h
      · cases h
      · cases h
    | @newtypeStruct ty of =>
      unfold Ty.de at h
      obtain ⟨w, hw, h⟩ := bind_eq_ok.mp h
      rcases hm.visit hw with hs | ⟨it, xs, rfl, rfl, hi⟩ | ⟨it, xs, rfl, _⟩
      · cases hs <;> cases h
      · dsimp only at h
        obtain ⟨ys, hy, h⟩ := bind_eq_ok.mp h
        obtain ⟨g1, g2, g3⟩ := tuple_inv ih hm hk hd (by simpa using of) hi hy
        cases ys with
        | nil => cases h
        | cons y ys =>
          cases h
          cases xs with
          | nil => simp at g2
          | cons x xs => exact .newtypeStruct (g3 0 ty x _ rfl rfl rfl)
      · cases h
    | @seq ty of =>
      unfold Ty.de at h
      obtain ⟨it, hit, h⟩ := bind_eq_ok.mp h
      obtain ⟨ys, hy, h⟩ := bind_eq_ok.mp h
      cases h
      unfold De.seq at hit
      obtain ⟨a, ha, hit'⟩ := bind_eq_ok.mp hit
      cases a with
      | none => cases hit'
      | some a =>
        obtain ⟨rfl, ht⟩ := asArray_some (dread_inv ha)
        obtain ⟨ts, rfl⟩ := hm.is_arr ht
        obtain ⟨u, h1, h2, h3, _, ⟨it', us, h5, h6, h7, h8, h9⟩, h10⟩ := hm.elems
        rw [dread_inv hit'] at h5; cases h5
        obtain ⟨g1, g2⟩ := all_inv _ h7 (by
          intro w hw
          obtain ⟨i, hi, rfl⟩ := List.mem_iff_getElem.mp hw
          rw [h9 i us[i] (by simp)]
          exact (h10 i (ts[i]'(by omega)) (by simp)).direct) hy
        refine .seq (by omega) ?_
        intro i t y b c
        have hi := (List.getElem?_eq_some_iff.mp b).1
        refine ih (h10 i t b) (hk.arr_of (List.mem_of_getElem? b)) (hd.arr_of (List.mem_of_getElem? b)) of (g2 i (u i) y ?_ c)
        rw [← h9 i (us[i]'(by omega)) (by simp)]
        simp
    | tuple of =>
      unfold Ty.de at h
      obtain ⟨w, hw, h⟩ := bind_eq_ok.mp h
      rcases hm.visit hw with hs | ⟨it, xs, rfl, rfl, hi⟩ | ⟨it, xs, rfl, _⟩
      · cases hs <;> cases h
      · dsimp only at h
        obtain ⟨ys, hy, h⟩ := bind_eq_ok.mp h
        cases h
        obtain ⟨g1, g2, g3⟩ := tuple_inv ih hm hk hd of hi hy
        exact .tuple g1 g2 g3
      · cases h
    | @map ty of =>
      unfold Ty.de at h
      obtain ⟨it, hit, h⟩ := bind_eq_ok.mp h
      obtain ⟨ps, hps, h⟩ := bind_eq_ok.mp h
      cases h
      have hit0 := hit
      unfold De.map at hit
      obtain ⟨a, ha, hit⟩ := bind_eq_ok.mp hit
      cases a with
      | none => cases hit
      | some a =>
        obtain ⟨rfl, ht⟩ := asDict_some (dread_inv ha)
        obtain ⟨kvs, rfl⟩ := hm.is_dict ht
        obtain ⟨u, it', h1, h2, h3, h4, h5, h6, h7⟩ := dict_walk hm hk.dict_of.1
        rw [hit0] at h1; cases h1
        obtain ⟨g1, g2⟩ := pairs_inv h2 hps
        simp only [List.length_mapIdx] at g1
        have hkey : ∀ (i : Nat) e a, kvs[i]? = some e → ps[i]? = some a → a.1.bytes = e.1 ∧
            Ty.de X fuel ty ⟨u i, false⟩ = .ok a.2 := by
          intro i e a b c
          obtain ⟨⟨d, q1, q2⟩, q3⟩ := g2 i (e.1, u i) a (by simp [List.getElem?_mapIdx, b]) c
          refine ⟨?_, q3⟩
          obtain ⟨s, hs, q2⟩ := bind_eq_ok.mp q2
          cases fuel with
          | zero => cases hs
          | succ fuel =>
            unfold Ty.de at hs
            simp only [q1, ok_bind] at hs
            split at hs
            · cases hs
              simp only [pure_eq, ok.injEq] at q2
              rw [← q2]
            · cases hs
        have hks : kvs.map (·.1) = ps.map fun p => p.1.bytes := by
          apply List.ext_getElem?
          intro i
          simp only [List.getElem?_map]
          cases hi : kvs[i]? with
          | none =>
            have : ps[i]? = none := List.getElem?_eq_none (by have := List.getElem?_eq_none_iff.mp hi; omega)
            rw [this]; rfl
          | some e =>
            have hlt := (List.getElem?_eq_some_iff.mp hi).1
            have hp : ps[i]? = some (ps[i]'(by omega)) := by simp
            rw [hp]
            simp only [Option.map_some]
            rw [(hkey i e _ hi hp).1]
        have hnd : (ps.map (·.1)).Nodup := by
          have h0 := hd.dict_of.1
          rw [hks] at h0
          rw [List.Nodup, List.pairwise_map] at h0 ⊢
          exact h0.imp fun hab hc => hab (by rw [hc])
        obtain ⟨p1, p2⟩ := foldl_insert ps (acc := []) (by simpa using hnd) (by simp [Ascends])
        simp only [List.nil_append] at p1
        refine .map p2 ?_ ?_
        · rw [hks]
          exact (p1.map fun p => p.1.bytes).symm
        · intro k t y ht' hy
          obtain ⟨j, hj, hje⟩ := List.mem_iff_getElem.mp (p1.mem_iff.mp hy)
          have hj' : kvs[j]? = some (kvs[j]'(by omega)) := by simp
          obtain ⟨e1, e2⟩ := hkey j _ _ hj' (by simp [hj] : ps[j]? = some ps[j])
          rw [hje] at e1 e2
          obtain ⟨l, hl, hle⟩ := List.mem_iff_getElem.mp ht'
          have hjl : j = l := keys_inj hd.dict_of.1 (k := k.bytes) (a := (kvs[j]'(by omega)).2) (b := t) (by rw [hj']; exact congrArg some (Prod.ext e1.symm rfl))
            (by rw [← hle]; simp)
          subst hjl
          have hmem : (k.bytes, t) ∈ kvs := ht'
          exact ih (h7 j k.bytes t (by rw [← hle]; simp)) (hk.dict_of.2 _ hmem) (hd.dict_of.2 _ hmem) of e2
    | struct distinct of =>
      unfold Ty.de at h
      obtain ⟨it, hit, h⟩ := bind_eq_ok.mp h
      obtain ⟨ys, hy, h⟩ := bind_eq_ok.mp h
      cases h
      have hit0 := hit
      unfold De.map at hit
      obtain ⟨a, ha, hit⟩ := bind_eq_ok.mp hit
      cases a with
      | none => cases hit
      | some a =>
        obtain ⟨rfl, ht⟩ := asDict_some (dread_inv ha)
        obtain ⟨kvs, rfl⟩ := hm.is_dict ht
        obtain ⟨g1, g2, g3⟩ := struct_inv (fun t ht => (hn t ht).1) ih hm hk hd distinct of hit0 hy
        exact .struct distinct hd.dict_of.1 g1 g2 g3
    | enum distinct newtype tuple fields struct =>
      unfold Ty.de at h
      exact enum_inv (fun t ht => (hn t ht).1) hK hT hL ih hm hk hd (.enum distinct newtype tuple fields struct) h

end Fleece
