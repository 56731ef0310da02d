import Verif.Spec.Refuses
import Verif.Proofs.DeFits
import Verif.Proofs.DeSafe

/-!
# What the deserializer refuses
-/

namespace Fleece

open Res

/-! ## Errors -/

/-- Fails with an error of that kind. -/
def Res.Fails {α : Type} (P : DeError → Prop) (x : D α) : Prop := ∃ e, x = .err e ∧ P e

theorem Res.Fails.bind {α β : Type} {P : DeError → Prop} {x : D α} {f : α → D β} (h : x.Fails P) : (x >>= f).Fails P := by
  obtain ⟨e, rfl, he⟩ := h
  exact ⟨e, rfl, he⟩

theorem Res.Fails.err {α : Type} {P : DeError → Prop} {e : DeError} (h : P e) : (Res.err e : D α).Fails P := ⟨e, rfl, h⟩

theorem Res.Fails.ok_bind {α β : Type} {P : DeError → Prop} {x : D α} {a : α} {f : α → D β} (hx : x = .ok a)
    (h : (f a).Fails P) : (x >>= f).Fails P := by
  subst hx; exact h

variable {X : DeCtx} {probe : List UInt8 → Prop} {P : DeError → Prop}

/-! ## Sequences -/

theorem all_fails {α : Type} {f : De → D α} {n : Nat} : ∀ {n' : Nat} {it : Iter} {us : List Val} {i : Nat} {u : Val},
    collect X.m (fun x => .ok x) n it = .ok us → n ≤ n' → us[i]? = some u → u.Direct X.m → (f ⟨u, false⟩).Fails P →
    (∀ (j : Nat) w, j < i → us[j]? = some w → w.Direct X.m ∧ ∃ a, f ⟨w, false⟩ = .ok a) →
    (De.all X f n' it).Fails P := by
  induction n with
  | zero => intro n' it us i u h; cases h
  | succ n ih =>
    intro n' it us i u h hn hu hd hf hb
    unfold collect at h
    obtain ⟨⟨x, it'⟩, hs, h⟩ := bind_eq_ok.mp h
    cases n' with
    | zero => omega
    | succ n' =>
      unfold De.all
      cases x with
      | none => cases h; simp at hu
      | some x =>
        obtain ⟨_, h0, h⟩ := bind_eq_ok.mp h
        obtain ⟨rest, hr, h⟩ := bind_eq_ok.mp h
        cases h0; cases h
        cases i with
        | zero =>
          cases hu
          simp only [next_ok hs hd, ok_bind]
          exact hf.bind
        | succ i =>
          obtain ⟨h1, a, h2⟩ := hb 0 x (by omega) rfl
          simp only [next_ok hs h1, ok_bind, h2]
          exact (ih hr (by omega) (by simpa using hu) hd hf
            (fun j w hj hw => hb (j + 1) w (by omega) (by simpa using hw))).bind

theorem each_fails {α : Type} {f : Ty → De → D α} (ts : List Ty) : ∀ {n : Nat} {it : Iter} {us : List Val} {i : Nat} {ty : Ty},
    collect X.m (fun x => .ok x) n it = .ok us → ts[i]? = some ty →
    (us[i]? = none ∧ P .message ∨ ∃ u, us[i]? = some u ∧ u.Direct X.m ∧ (f ty ⟨u, false⟩).Fails P) →
    (∀ (j : Nat) ty w, j < i → ts[j]? = some ty → us[j]? = some w → w.Direct X.m ∧ ∃ a, f ty ⟨w, false⟩ = .ok a) →
    (De.each X f ts it).Fails P := by
  induction ts with
  | nil => intro n it us i ty _ h; simp at h
  | cons t ts ih =>
    intro n it us i ty h hty hu hb
    cases n with
    | zero => cases h
    | succ n =>
      unfold collect at h
      obtain ⟨⟨x, it'⟩, hs, h⟩ := bind_eq_ok.mp h
      unfold De.each
      cases x with
      | none =>
        cases h
        simp only [next_none hs, ok_bind]
        rcases hu with ⟨_, hu⟩ | ⟨u, hu, _⟩
        · exact .err hu
        · simp at hu
      | some x =>
        obtain ⟨_, h0, h⟩ := bind_eq_ok.mp h
        obtain ⟨rest, hr, h⟩ := bind_eq_ok.mp h
        cases h0; cases h
        cases i with
        | zero =>
          cases hty
          rcases hu with ⟨hu, _⟩ | ⟨u, hu, hd, hf⟩
          · simp at hu
          · cases hu
            simp only [next_ok hs hd, ok_bind]
            exact hf.bind
        | succ i =>
          obtain ⟨h1, a, h2⟩ := hb 0 t x (by omega) rfl rfl
          simp only [next_ok hs h1, ok_bind, h2]
          exact (ih hr (by simpa using hty) (by simpa using hu)
            (fun j ty w hj ht hw => hb (j + 1) ty w (by omega) (by simpa using ht) (by simpa using hw))).bind

/-! ## Dicts -/

theorem pairs_fails {α β : Type} {fk : De → D α} {fv : α → De → D β} {it : Iter} {es : List (List UInt8 × Val)}
    (hw : Walk X it es) : ∀ {n : Nat}, es.length < n →
    (∀ e ∈ es, ∃ a, (∀ d : De, d.any X = .ok (.str e.1) → fk d = .ok a) ∧
      ((∃ b, fv a ⟨e.2, false⟩ = .ok b) ∨ (fv a ⟨e.2, false⟩).Fails P)) →
    (∃ e ∈ es, ∀ a, (fv a ⟨e.2, false⟩).Fails P) → (De.pairs X fk fv n it).Fails P := by
  induction hw with
  | nil stop => rintro n _ _ ⟨e, he, _⟩; cases he
  | @cons it it1 it2 d k u es key text value rest ih =>
    intro n hn he hx
    cases n with
    | zero => simp at hn
    | succ n =>
      obtain ⟨a, h1, h2⟩ := he (k, u) (by simp)
      unfold De.pairs
      simp only [key, ok_bind, h1 d text, value]
      rcases h2 with ⟨b, h2⟩ | h2
      · simp only at h2
        simp only [h2, ok_bind]
        obtain ⟨e, hem, hf⟩ := hx
        rcases List.mem_cons.mp hem with rfl | hem
        · obtain ⟨_, hf, _⟩ := hf a
          rw [h2] at hf; cases hf
        · exact (ih (by simp at hn; omega) (fun e h => he e (by simp [h])) ⟨e, hem, hf⟩).bind
      · exact h2.bind

theorem fields_fails {fuel : Nat} {f : Ty → De → D SVal} {fs : List (RStr × Ty)}
    (hd : (fs.map (·.1)).Nodup) {it : Iter} {es : List (List UInt8 × Val)}
    (hw : Walk X it es) : ∀ {n : Nat} {got : List (Option SVal)}, es.length < n → got.length = fs.length →
    (es.map (·.1)).Nodup →
    (∀ e ∈ es, (∃ fd ∈ fs, fd.1.bytes = e.1 ∧ ((∃ x, f fd.2 ⟨e.2, false⟩ = .ok x) ∨ (f fd.2 ⟨e.2, false⟩).Fails P)) ∨
      ((∀ fd ∈ fs, fd.1.bytes ≠ e.1) ∧ De.ignore X fuel ⟨e.2, false⟩ = .ok ())) →
    (∃ e ∈ es, ∃ fd ∈ fs, fd.1.bytes = e.1 ∧ (f fd.2 ⟨e.2, false⟩).Fails P) →
    (∀ (i : Nat) (fd : RStr × Ty), fs[i]? = some fd → fd.1.bytes ∈ es.map (·.1) → got[i]? = some none) →
    (De.fields X fuel f fs n it got).Fails P := by
  have uniq : ∀ fd ∈ fs, ∀ gd ∈ fs, fd.1.bytes = gd.1.bytes → fd = gd := by
    intro fd hfd gd hgd h
    obtain ⟨i, hi, rfl⟩ := List.mem_iff_getElem.mp hfd
    obtain ⟨j, hj, rfl⟩ := List.mem_iff_getElem.mp hgd
    have e1 := findIdx_name hd (i := i) (n := fs[i].1) (by simp [hi])
    have e2 := findIdx_name hd (i := j) (n := fs[j].1) (by simp [hj])
    rw [h, e2] at e1
    cases e1
    rfl
  induction hw with
  | nil stop => rintro n got _ _ _ _ ⟨e, he, _⟩; cases he
  | @cons it it1 it2 d k u es key text value rest ih =>
    intro n got hn hg hnd he hx hi
    cases n with
    | zero => simp at hn
    | succ n =>
      simp only [List.map_cons, List.nodup_cons] at hnd
      rcases he (k, u) (by simp) with ⟨fd, hfd, h3, h4⟩ | ⟨h1, h2⟩
      · have h3 : fd.1.bytes = k := h3
        obtain ⟨i, hil', rfl⟩ := List.mem_iff_getElem.mp hfd
        have h1 : fs[i]? = some fs[i] := by simp [hil']
        have hid : De.ident X (fs.map (·.1)) d = .ok (some i) :=
          ident_ok hd (i := i) (n := fs[i].1) (by simp [hil']) (by rw [text, h3])
        have hgot : got[i]? = some none := hi i _ h1 (by simp [h3])
        unfold De.fields
        simp only [key, ok_bind, hid, h1, hgot, value]
        rcases h4 with ⟨x, h4⟩ | h4
        · simp only at h4
          simp only [h4, ok_bind]
          refine ih (by simp at hn; omega) (by simpa using hg) hnd.2 (fun e h => he e (by simp [h])) ?_ ?_
          · obtain ⟨e, hem, gd, hgd, h5, h6⟩ := hx
            rcases List.mem_cons.mp hem with rfl | hem
            · cases uniq _ hfd _ hgd (h3.trans h5.symm)
              obtain ⟨_, h6, _⟩ := h6
              rw [h4] at h6; cases h6
            · exact ⟨e, hem, gd, hgd, h5, h6⟩
          · intro j gd g1 g2
            have hji : j ≠ i := by
              rintro rfl
              rw [g1] at h1; cases h1
              rw [h3] at g2
              exact hnd.1 g2
            rw [List.getElem?_set_ne (by omega)]
            exact hi j gd g1 (by simp [g2])
        · exact h4.bind
      · have hid : De.ident X (fs.map (·.1)) d = .ok none := by
          unfold De.ident
          simp only [text, ok_bind, pure_eq]
          rw [findIdx_none]
          intro n hn
          obtain ⟨fd, hfd, rfl⟩ := List.mem_map.mp hn
          exact h1 fd hfd
        have h2 : De.ignore X fuel ⟨u, false⟩ = .ok () := h2
        unfold De.fields
        simp only [key, ok_bind, hid, value, h2]
        refine ih (by simp at hn; omega) hg hnd.2 (fun e h => he e (by simp [h])) ?_
          (fun i fd g1 g2 => hi i fd g1 (by simp [g2]))
        obtain ⟨e, hem, gd, hgd, h5, h6⟩ := hx
        rcases List.mem_cons.mp hem with rfl | hem
        · exact absurd h5 (h1 gd hgd)
        · exact ⟨e, hem, gd, hgd, h5, h6⟩

theorem optional_required {types : List Ty} {n : Nat} {ty : Ty} (h : ty.Required types) : ty.optional types n = false := by
  cases ty <;> cases n <;> first | rfl | exact absurd rfl (h.1 _) | skip
  rename_i i n
  unfold Ty.optional
  cases hi : types[i]? with
  | none => rfl
  | some t =>
    have hn := h.2 i rfl t hi
    cases t <;> cases n <;> first | rfl | exact absurd rfl (hn.1 _) | exact absurd rfl (hn.2 _)

theorem build_fails (fs : List (RStr × Ty)) : ∀ {target : List (Option SVal)} {i : Nat} {f : RStr × Ty},
    target.length = fs.length → fs[i]? = some f → f.2.Required X.types → target[i]? = some none → P .message →
    (De.build X fs target).Fails P := by
  induction fs with
  | nil => intro target i f _ h; simp at h
  | cons g fs ih =>
    intro target i f hl hf hr ht hP
    cases target with
    | nil => cases hl
    | cons a target =>
      obtain ⟨k, t⟩ := g
      cases i with
      | zero =>
        cases ht; cases hf
        simp only [De.build, optional_required hr, Bool.false_eq_true, if_false]
        exact .err hP
      | succ i =>
        have := ih (target := target) (by simpa using hl) (by simpa using hf) hr (by simpa using ht) hP
        cases a with
        | some v => exact this.bind
        | none =>
          simp only [De.build]
          split
          · exact this.bind
          · exact .err hP

/-! ## Order of dicts -/

theorem Tree.Same.arr_of {xs : List Tree} {t : Tree} (h : Tree.Same t (.arr xs)) : ∃ ys, t = .arr ys := by
  cases h with
  | refl => exact ⟨_, rfl⟩
  | arr => exact ⟨_, rfl⟩

theorem Tree.Same.dict_of {xs : List (List UInt8 × Tree)} {t : Tree} (h : Tree.Same t (.dict xs)) : ∃ ys, t = .dict ys := by
  cases h with
  | refl => exact ⟨_, rfl⟩
  | dict => exact ⟨_, rfl⟩

theorem Tree.Same.leaf_of {t t' : Tree} (h : Tree.Same t t') (ha : ∀ xs, t' ≠ .arr xs) (hd : ∀ kvs, t' ≠ .dict kvs) : t = t' := by
  cases h with
  | refl => rfl
  | arr => exact absurd rfl (ha _)
  | dict => exact absurd rfl (hd _)

theorem mismatch_same {ty : Ty} {t t' : Tree} (h : ty.Mismatch t) (hs : Tree.Same t t') : ty.Mismatch t' := by
  have key : ∀ u : Tree, (∀ xs, u ≠ .arr xs) → (∀ kvs, u ≠ .dict kvs) → t' = u → t = u := by
    rintro u h1 h2 rfl
    exact hs.leaf_of h1 h2
  cases ty <;> unfold Ty.Mismatch at h ⊢ <;> dsimp only at h ⊢
  case bool => exact fun b hc => h b (key _ nofun nofun hc)
  case int => exact fun b hc => h b (key _ nofun nofun hc)
  case f32 => exact ⟨fun b hc => h.1 b (key _ nofun nofun hc), fun b hc => h.2 b (key _ nofun nofun hc)⟩
  case f64 => exact ⟨fun b hc => h.1 b (key _ nofun nofun hc), fun b hc => h.2 b (key _ nofun nofun hc)⟩
  case char => exact fun b hc => h b (key _ nofun nofun hc)
  case string => exact ⟨fun b hc => h.1 b (key _ nofun nofun hc), fun b hc => h.2 b (key _ nofun nofun hc)⟩
  case bytes => exact ⟨fun b hc => h.1 b (key _ nofun nofun hc), fun b hc => h.2 b (key _ nofun nofun hc)⟩
  case unit => exact fun hc => h (key _ nofun nofun hc)
  case unitStruct => exact fun hc => h (key _ nofun nofun hc)
  case newtypeStruct =>
    rintro xs rfl
    obtain ⟨ys, rfl⟩ := hs.arr_of
    exact h _ rfl
  case tuple =>
    rintro xs rfl
    obtain ⟨ys, rfl⟩ := hs.arr_of
    exact h _ rfl

theorem noVariant_same {names : List RStr} {t t' : Tree} (h : t.NoVariant names) (hs : Tree.Same t t') : t'.NoVariant names := by
  refine ⟨fun s hc => h.1 s ?_, fun i hc => h.2 i ?_⟩
  · rcases hc with rfl | rfl
    · exact .inl (hs.leaf_of nofun nofun)
    · exact .inr (hs.leaf_of nofun nofun)
  · subst hc; exact hs.leaf_of nofun nofun

theorem Refuses.same {R : Rules} {ty : Ty} {t t' : Tree} {r : Refusal}
    (hT : ∀ i name t, R.tag i name t → (∀ xs, t ≠ .arr xs) ∧ ∀ kvs, t ≠ .dict kvs) (h : Refuses R ty t r)
    (hs : Tree.Same t t') : Refuses R ty t' r := by
  have notArr : ∀ {t t' : Tree}, Tree.Same t t' → (∀ xs, t ≠ .arr xs) → ∀ xs, t' ≠ .arr xs := by
    rintro t t' hs h xs rfl
    obtain ⟨ys, rfl⟩ := hs.arr_of
    exact h _ rfl
  have notDict : ∀ {t t' : Tree}, Tree.Same t t' → (∀ xs, t ≠ .dict xs) → ∀ xs, t' ≠ .dict xs := by
    rintro t t' hs h xs rfl
    obtain ⟨ys, rfl⟩ := hs.dict_of
    exact h _ rfl
  have variant : ∀ {i : Nat} {name : RStr} {tag x : Tree} {rest : List Tree} {t' : Tree}, R.tag i name tag →
      Tree.Same (.arr (tag :: x :: rest)) t' → ∃ y rest', t' = .arr (tag :: y :: rest') ∧ Tree.Same x y := by
    intro i name tag x rest t' called hs
    obtain ⟨a, as, rfl, h1, h2, h3⟩ := hs.arr_cons
    cases h1.leaf_inv (hT _ _ _ called).1 (hT _ _ _ called).2
    cases as with
    | nil => cases h2
    | cons y as => exact ⟨y, as, rfl, h3 0 _ _ rfl rfl⟩
  induction h generalizing t' with
  | any _ ih => exact .any (ih hs)
  | named decl _ ih => exact .named decl (ih hs)
  | some there _ ih =>
    refine .some ?_ (ih hs)
    rintro rfl
    exact there (hs.leaf_of nofun nofun)
  | mismatch no => exact .mismatch (mismatch_same no hs)
  | notArray no => exact .notArray (notArr hs no)
  | notMap no => exact .notMap (notDict hs no)
  | notStruct no => exact .notStruct (notDict hs no)
  | notEnum no => exact .notEnum (notArr hs no)
  | @seq ty ts i t r at_ of before ih =>
    obtain ⟨ts', rfl, hl, he⟩ := hs.arr_inv
    have hi := (List.getElem?_eq_some_iff.mp at_).1
    refine .seq (i := i) (t := ts'[i]'(by omega)) (by simp) (ih (he i _ _ at_ (by simp))) fun j u hj hu => ?_
    have hju := (List.getElem?_eq_some_iff.mp hu).1
    obtain ⟨y, hy⟩ := before j (ts[j]'(by omega)) hj (by simp)
    exact ⟨y, hy.same hT (he j _ _ (by simp) hu)⟩
  | newtypeStruct _ ih =>
    obtain ⟨_, _, rfl, h1, _⟩ := hs.arr_cons
    exact .newtypeStruct (ih h1)
  | newtypeEmpty =>
    obtain ⟨ts', rfl, hl, he⟩ := hs.arr_inv
    cases ts' with
    | nil => exact .newtypeEmpty
    | cons _ _ => cases hl
  | @tuple tys ts i ty t r ty_ at_ of before ih =>
    obtain ⟨ts', rfl, hl, he⟩ := hs.arr_inv
    have hi := (List.getElem?_eq_some_iff.mp at_).1
    refine .tuple (i := i) (t := ts'[i]'(by omega)) ty_ (by simp) (ih (he i _ _ at_ (by simp))) fun j uy u hj huy hu => ?_
    have hju := (List.getElem?_eq_some_iff.mp hu).1
    obtain ⟨y, hy⟩ := before j uy (ts[j]'(by omega)) hj huy (by simp)
    exact ⟨y, hy.same hT (he j _ _ (by simp) hu)⟩
  | @tupleShort tys ts short each =>
    obtain ⟨ts', rfl, hl, he⟩ := hs.arr_inv
    refine .tupleShort (by omega) fun j uy u huy hu => ?_
    have hju := (List.getElem?_eq_some_iff.mp hu).1
    obtain ⟨y, hy⟩ := each j uy (ts[j]'(by omega)) huy (by simp)
    exact ⟨y, hy.same hT (he j _ _ (by simp) hu)⟩
  | @map ty kvs r bad text some_ of others ih =>
    obtain ⟨lvs, rfl, hp, he⟩ := hs.dict_mem
    refine .map bad ?_ ?_ ?_ ?_
    · intro e hm
      obtain ⟨x, hx, _⟩ := he e hm
      exact text (e.1, x) hx
    · obtain ⟨e, hem, hb⟩ := some_
      obtain ⟨e', hm', h'⟩ := List.mem_map.mp (hp.mem_iff.mp (List.mem_map_of_mem (f := (·.1)) hem))
      exact ⟨e', hm', by rw [h']; exact hb⟩
    · intro e hm hb
      obtain ⟨x, hx, hxs⟩ := he e hm
      exact ih _ hx hb hxs
    · intro e hm hb
      obtain ⟨x, hx, hxs⟩ := he e hm
      obtain ⟨y, hy⟩ := others _ hx hb
      exact ⟨y, hy.same hT hxs⟩
  | @field fs kvs r bad distinct once some_ of others ih =>
    obtain ⟨lvs, rfl, hp, he⟩ := hs.dict_mem
    refine .field bad distinct (hp.nodup_iff.mp once) ?_ ?_ ?_
    · obtain ⟨f, hf, hb, hm⟩ := some_
      exact ⟨f, hf, hb, hp.mem_iff.mp hm⟩
    · intro f hf hb t ht
      obtain ⟨x, hx, hxs⟩ := he _ ht
      exact ih f hf hb x hx hxs
    · intro f hf hb t ht
      obtain ⟨x, hx, hxs⟩ := he _ ht
      obtain ⟨y, hy⟩ := others f hf hb x hx
      exact ⟨y, hy.same hT hxs⟩
  | missing distinct once known required gone others =>
    obtain ⟨lvs, rfl, hp, he⟩ := hs.dict_mem
    refine .missing distinct (hp.nodup_iff.mp once) known required (fun hc => gone (hp.mem_iff.mpr hc)) ?_
    intro f hf t ht
    obtain ⟨x, hx, hxs⟩ := he _ ht
    obtain ⟨y, hy⟩ := others f hf x hx
    exact ⟨y, hy.same hT hxs⟩
  | noVariant no =>
    obtain ⟨x, xs, rfl, h1, _⟩ := hs.arr_cons
    exact .noVariant (noVariant_same no h1)
  | unitLayout distinct decl called =>
    obtain ⟨y, rest', rfl, h1⟩ := variant called hs
    exact .unitLayout distinct decl called
  | newtypeVariant distinct decl called _ ih =>
    obtain ⟨y, rest', rfl, h1⟩ := variant called hs
    exact .newtypeVariant distinct decl called (ih h1)
  | tupleLayout distinct decl called no =>
    obtain ⟨y, rest', rfl, h1⟩ := variant called hs
    refine .tupleLayout distinct decl called ?_
    rintro xs rfl
    obtain ⟨ys, rfl⟩ := h1.arr_of
    obtain ⟨_, h2, hl, _⟩ := h1.arr_inv
    cases h2
    have := no _ rfl
    omega
  | tupleVariant distinct decl called len _ ih =>
    obtain ⟨y, rest', rfl, h1⟩ := variant called hs
    obtain ⟨ys, rfl, hl, _⟩ := h1.arr_inv
    exact .tupleVariant distinct decl called (by omega) (ih h1)
  | structLayout distinct decl called look no =>
    obtain ⟨y, rest', rfl, h1⟩ := variant called hs
    refine .structLayout distinct decl called look ?_
    rintro xs rfl
    obtain ⟨ys, rfl⟩ := h1.dict_of
    obtain ⟨_, h2, hp, _⟩ := h1.dict_mem
    cases h2
    have := hp.length_eq
    simp only [List.length_map] at this
    rcases no _ rfl with h | ⟨f, hf, h⟩
    · exact .inl (by omega)
    · exact .inr ⟨f, hf, fun hc => h (hp.mem_iff.mpr hc)⟩
  | structVariant distinct decl called look len keys _ ih =>
    obtain ⟨y, rest', rfl, h1⟩ := variant called hs
    obtain ⟨ys, rfl, hp, _⟩ := h1.dict_mem
    have := hp.length_eq
    simp only [List.length_map] at this
    exact .structVariant distinct decl called look (by omega) (fun f hf => hp.mem_iff.mp (keys f hf)) (ih h1)

/-! ## What is seen of a value -/

theorem Matches.notArray {v : Val} {t : Tree} (h : Matches X.m X.F X.scope probe v t) (ht : ∀ xs, t ≠ .arr xs) :
    v.asArray X.m = .ok none := by
  cases h with
  | leaf type na nd read => unfold Val.asArray; simp only [type, ok_bind, if_neg na, pure_eq]
  | arr => exact absurd rfl (ht _)
  | dict u type => unfold Val.asArray; simp [asDict_type type]

theorem Matches.notDict {v : Val} {t : Tree} (h : Matches X.m X.F X.scope probe v t) (ht : ∀ xs, t ≠ .dict xs) :
    v.asDict X.m = .ok none := by
  cases h with
  | leaf type na nd read => unfold Val.asDict; simp only [type, ok_bind, if_neg nd, pure_eq]
  | dict => exact absurd rfl (ht _)
  | arr u type => unfold Val.asDict; simp [asArray_type type]

/-- What is visited. -/
theorem Matches.seen {v : Val} {t : Tree} (h : Matches X.m X.F X.scope probe v t) : ∃ w, De.any X ⟨v, false⟩ = .ok w ∧
    ((∃ xs it, t = .arr xs ∧ w = .seq it) ∨ (∃ kvs it, t = .dict kvs ∧ w = .map it) ∨ Sees X.F t w) := by
  cases h with
  | leaf type na nd read =>
    obtain ⟨w, h1, h2⟩ := any_leaf type na nd read
    exact ⟨w, h1, .inr (.inr h2)⟩
  | arr u type len get iter each =>
    obtain ⟨it, h1, _⟩ := iter
    refine ⟨.seq it, ?_, .inl ⟨_, it, rfl, rfl⟩⟩
    unfold De.any
    simp only [asArray_type type, dread_ok, ok_bind, h1, pure_eq]
  | dict u type len iter order found absent each =>
    obtain ⟨it, h1, _⟩ := iter
    refine ⟨.map it, ?_, .inr (.inl ⟨_, it, rfl, rfl⟩)⟩
    unfold De.any
    simp only [asDict_type type, dread_ok, ok_bind, h1, pure_eq]

theorem mismatch_fails {ty : Ty} {t : Tree} {v : Val} (h : Matches X.m X.F X.scope probe v t) (no : ty.Mismatch t) (fuel : Nat) :
    Ty.de X (fuel + 1) ty ⟨v, false⟩ = .err .message := by
  obtain ⟨w, h1, h2⟩ := h.seen
  cases ty <;> unfold Ty.Mismatch at no <;> dsimp only at no
  case int ty =>
    simp only [Ty.de, h1, ok_bind]
    rcases h2 with ⟨xs, it, rfl, rfl⟩ | ⟨kvs, it, rfl, rfl⟩ | h2
    · rfl
    · rfl
    · cases h2 with
      | i64 i => simp only [if_neg (fun h => no i rfl (holds_iff.mpr h))]
      | u64 n =>
        have : ¬ (ty.lo ≤ (n : Int) ∧ (n : Int) ≤ ty.hi) := fun h => no n rfl (holds_iff.mpr h)
        have hlo : ty.lo ≤ 0 := by cases ty <;> decide
        dsimp only
        rw [if_neg (by omega)]
      | _ => rfl
  case char =>
    simp only [Ty.de, h1, ok_bind]
    rcases h2 with ⟨xs, it, rfl, rfl⟩ | ⟨kvs, it, rfl, rfl⟩ | h2
    · rfl
    · rfl
    · cases h2 with
      | str s => simp only [(no s rfl).1, (no s rfl).2, dite_true, if_false]
      | _ => rfl
  case string =>
    simp only [Ty.de, h1, ok_bind]
    rcases h2 with ⟨xs, it, rfl, rfl⟩ | ⟨kvs, it, rfl, rfl⟩ | h2
    · rfl
    · rfl
    · cases h2 with
      | str s => exact absurd rfl (no.1 s)
      | data d => simp only [no.2 d rfl, Bool.false_eq_true, dite_false]
      | _ => rfl
  all_goals
    simp only [Ty.de, h1, ok_bind]
    rcases h2 with ⟨xs, it, rfl, rfl⟩ | ⟨kvs, it, rfl, rfl⟩ | h2
    · first | rfl | exact absurd rfl (no _)
    · first | rfl | exact absurd rfl (no _)
    · cases h2 <;> first | rfl | exact absurd rfl (no _) | exact absurd rfl no | exact absurd rfl (no.1 _) | exact absurd rfl (no.2 _)

/-! ## Keys of struct variants -/

theorem Matches.lookups {v : Val} {kvs : List (List UInt8 × Tree)} (h : Matches X.m X.F X.scope probe v (.dict kvs))
    (k : List UInt8) (hp : probe k) : (k ∈ kvs.map (·.1) → ∃ r, v.Lookup X.m X.scope k (some r)) ∧
      (k ∉ kvs.map (·.1) → v.Lookup X.m X.scope k none) := by
  generalize hd : Tree.dict kvs = t at h
  cases h with
  | leaf type na nd read => subst hd; exact absurd rfl ((Props.leaf_read type na nd read).2 _)
  | arr => cases hd
  | dict u type len iter order found absent each =>
    cases hd
    refine ⟨fun hm => ?_, absent k hp⟩
    obtain ⟨i, t, _, h⟩ := found k hp hm
    exact ⟨_, h⟩

theorem hasKeys_not {v : Val} (names : List RStr) : (∀ k ∈ names, ∃ r, v.Lookup X.m X.scope k.bytes r) →
    (∃ k ∈ names, v.Lookup X.m X.scope k.bytes none) → De.hasKeys X v names = .ok false := by
  induction names with
  | nil => rintro _ ⟨k, hk, _⟩; cases hk
  | cons k names ih =>
    intro h hx
    obtain ⟨r, h1, h2, h3⟩ := h k (by simp)
    have hr : De.hasKeys X v names = .ok false ∨ r = none := by
      obtain ⟨k', hk', hn⟩ := hx
      rcases List.mem_cons.mp hk' with rfl | hk'
      · right
        have := hn.1
        rw [h1] at this
        cases this
        rfl
      · exact .inl (ih (fun k hk => h k (by simp [hk])) ⟨k', hk', hn⟩)
    unfold De.hasKeys
    cases hs : X.scope with
    | none =>
      rw [hs] at h2
      simp only [h2, dread_ok, ok_bind]
      rcases hr with hr | rfl
      · simp only [hr]; split <;> rfl
      · rfl
    | some sk =>
      simp only [h3 sk hs, dread_ok, ok_bind, pure_eq]
      rcases hr with hr | rfl
      · simp only [hr]; split <;> rfl
      · rfl

/-! ## All types -/

/-- Asked for as `ty`, a value that shows `t` is refused, given enough depth. -/
def Declines (X : DeCtx) (probe : List UInt8 → Prop) (ty : Ty) (t : Tree) (P : DeError → Prop) : Prop :=
  ∀ {v : Val}, Matches X.m X.F X.scope probe v t → t.Keyed (fun k => k ≠ []) →
    ∃ N, ∀ fuel, N ≤ fuel → (Ty.de X fuel ty ⟨v, false⟩).Fails P

theorem Tree.Keyed.elem {K : List UInt8 → Prop} {xs : List Tree} {x : Tree} (h : (Tree.arr xs).Keyed K) (hx : x ∈ xs) :
    x.Keyed K := by
  cases h with
  | leaf na _ => exact absurd rfl (na _)
  | arr of => exact of x hx

theorem seq_declines {ty : Ty} {ts : List Tree} {i : Nat} {t : Tree} (at_ : ts[i]? = some t) (of : Declines X probe ty t P)
    (before : ∀ (j : Nat) t, j < i → ts[j]? = some t → ∃ y, ReadsAs X probe ty t y) {v : Val}
    (hm : Matches X.m X.F X.scope probe v (.arr ts)) (hk : (Tree.arr ts).Keyed fun k => k ≠ []) :
    ∃ it, De.seq X ⟨v, false⟩ = .ok it ∧
      ∃ N, ∀ fuel, N ≤ fuel → (De.all X (Ty.de X fuel ty) (it.len + 1) it).Fails P := by
  obtain ⟨u, h1, h2, h3, _, ⟨it, us, h5, h6, h7, h8, h9⟩, h10⟩ := hm.elems
  have hi := (List.getElem?_eq_some_iff.mp at_).1
  refine ⟨it, ?_, ?_⟩
  · unfold De.seq
    simp only [h1, dread_ok, ok_bind, h5]
  · obtain ⟨N, hN⟩ := bound (P := fun j fuel => (u j).Direct X.m ∧ ∃ y, Ty.de X fuel ty ⟨u j, false⟩ = .ok y) i (by
      intro j hj
      have hmj := h10 j (ts[j]'(by omega)) (by simp)
      obtain ⟨y, hy⟩ := before j (ts[j]'(by omega)) hj (by simp)
      obtain ⟨N, hN⟩ := hy hmj (hk.elem (List.getElem_mem _))
      exact ⟨N, fun fuel hf => ⟨hmj.direct, y, hN fuel hf⟩⟩)
    have hmi := h10 i t at_
    obtain ⟨M, hM⟩ := of hmi (hk.elem (List.mem_of_getElem? at_))
    refine ⟨max N M, fun fuel hf => all_fails (i := i) (u := us[i]'(by omega)) h7 (by omega) (by simp) ?_ ?_ ?_⟩
    · rw [h9 i _ (List.getElem?_eq_getElem (by omega))]; exact hmi.direct
    · rw [h9 i _ (List.getElem?_eq_getElem (by omega))]; exact hM fuel (by omega)
    · intro j w hj hw
      cases h9 j w hw
      exact hN fuel (by omega) j hj

theorem tuple_declines {tys : List Ty} {ts : List Tree} {i : Nat} {ty : Ty} (ty_ : tys[i]? = some ty)
    (of : ts[i]? = none ∧ P .message ∨ ∃ t, ts[i]? = some t ∧ Declines X probe ty t P)
    (before : ∀ (j : Nat) ty t, j < i → tys[j]? = some ty → ts[j]? = some t → ∃ y, ReadsAs X probe ty t y) {v : Val}
    (hm : Matches X.m X.F X.scope probe v (.arr ts)) (hk : (Tree.arr ts).Keyed fun k => k ≠ []) :
    v.asArray X.m = .ok (some v) ∧ v.arrayLen X.m = .ok ts.length ∧
      ∃ it, De.any X ⟨v, false⟩ = .ok (.seq it) ∧ De.seq X ⟨v, false⟩ = .ok it ∧
        ∃ N, ∀ fuel, N ≤ fuel → (De.each X (Ty.de X fuel) tys it).Fails P := by
  obtain ⟨u, h1, h2, h3, _, ⟨it, us, h5, h6, h7, h8, h9⟩, h10⟩ := hm.elems
  refine ⟨h1, h3, it, ?_, ?_, ?_⟩
  · unfold De.any
    simp only [h2, dread_ok, ok_bind, h5, pure_eq]
  · unfold De.seq
    simp only [h1, dread_ok, ok_bind, h5]
  · obtain ⟨N, hN⟩ := bound (P := fun j fuel => ∀ ty, tys[j]? = some ty → j < ts.length →
        (u j).Direct X.m ∧ ∃ y, Ty.de X fuel ty ⟨u j, false⟩ = .ok y) i (by
      intro j hj
      by_cases hjt : j < ts.length
      · by_cases hjy : j < tys.length
        · have hmj := h10 j ts[j] (by simp)
          obtain ⟨y, hy⟩ := before j tys[j] ts[j] hj (by simp) (by simp)
          obtain ⟨N, hN⟩ := hy hmj (hk.elem (List.getElem_mem _))
          refine ⟨N, fun fuel hf ty hty _ => ?_⟩
          have hty : tys[j] = ty := by simpa [hjy] using hty
          subst hty
          exact ⟨hmj.direct, y, hN fuel hf⟩
        · exact ⟨0, fun fuel hf ty hty _ => by rw [List.getElem?_eq_none (by omega)] at hty; cases hty⟩
      · exact ⟨0, fun fuel hf ty hty h => absurd h hjt⟩)
    have hb : ∀ fuel, N ≤ fuel → ∀ (j : Nat) ty w, j < i → tys[j]? = some ty → us[j]? = some w →
        w.Direct X.m ∧ ∃ a, Ty.de X fuel ty ⟨w, false⟩ = .ok a := by
      intro fuel hf j ty w hj hty hw
      have := (List.getElem?_eq_some_iff.mp hw).1
      cases h9 j w hw
      exact hN fuel hf j hj ty hty (by omega)
    rcases of with ⟨hn, hP⟩ | ⟨t, ht, of⟩
    · refine ⟨N, fun fuel hf => each_fails tys h7 ty_ (.inl ⟨?_, hP⟩) (hb fuel hf)⟩
      rw [List.getElem?_eq_none_iff] at hn ⊢
      omega
    · have hi := (List.getElem?_eq_some_iff.mp ht).1
      have hmi := h10 i t ht
      obtain ⟨M, hM⟩ := of hmi (hk.elem (List.mem_of_getElem? ht))
      refine ⟨max N M, fun fuel hf => each_fails tys h7 ty_ (.inr ⟨us[i]'(by omega), by simp, ?_, ?_⟩) (hb fuel (by omega))⟩
      · rw [h9 i _ (List.getElem?_eq_getElem (by omega))]; exact hmi.direct
      · rw [h9 i _ (List.getElem?_eq_getElem (by omega))]; exact hM fuel (by omega)

theorem map_declines {ty : Ty} {kvs : List (List UInt8 × Tree)} (bad : List UInt8 → Prop)
    (text : ∀ e ∈ kvs, validUtf8 e.1 = true) (some_ : ∃ e ∈ kvs, bad e.1)
    (of : ∀ e ∈ kvs, bad e.1 → Declines X probe ty e.2 P) (others : ∀ e ∈ kvs, ¬ bad e.1 → ∃ y, ReadsAs X probe ty e.2 y) :
    Declines X probe (.map ty) (.dict kvs) P := by
  intro v hm hk
  cases hk with
  | leaf _ nd => exact absurd rfl (nd _)
  | dict key hof =>
    obtain ⟨u, it, h1, h2, h3, h4, h5, h6, h7⟩ := dict_walk hm key
    obtain ⟨N, hN⟩ := bound (P := fun j fuel => ∀ e, kvs[j]? = some e →
        (bad e.1 ∧ (Ty.de X fuel ty ⟨u j, false⟩).Fails P) ∨ ∃ y, Ty.de X fuel ty ⟨u j, false⟩ = .ok y) kvs.length (by
      intro j hj
      have hmj := h7 j kvs[j].1 kvs[j].2 (by simp [hj])
      have hkj := hof kvs[j] (List.getElem_mem _)
      by_cases hb : bad kvs[j].1
      · obtain ⟨N, hN⟩ := of kvs[j] (List.getElem_mem _) hb hmj hkj
        refine ⟨N, fun fuel hf e he => .inl ?_⟩
        have he : kvs[j] = e := by simpa [hj] using he
        subst he
        exact ⟨hb, hN fuel hf⟩
      · obtain ⟨y, hy⟩ := others kvs[j] (List.getElem_mem _) hb
        obtain ⟨N, hN⟩ := hy hmj hkj
        exact ⟨N, fun fuel hf e he => .inr ⟨y, hN fuel hf⟩⟩)
    obtain ⟨e0, he0, hb0⟩ := some_
    obtain ⟨j0, hj0, rfl⟩ := List.mem_iff_getElem.mp he0
    obtain ⟨M, hM⟩ := of kvs[j0] he0 hb0 (h7 j0 kvs[j0].1 kvs[j0].2 (by simp [hj0])) (hof kvs[j0] he0)
    refine ⟨max N M + 2, fun fuel hf => ?_⟩
    obtain ⟨fuel, rfl⟩ : ∃ f, fuel = f + 2 := ⟨fuel - 2, by omega⟩
    unfold Ty.de
    simp only [h1, ok_bind]
    refine Res.Fails.bind (pairs_fails h2 (n := it.len + 1) (by simp; omega) ?_ ?_)
    · intro e he
      obtain ⟨j, hj, rfl⟩ := List.mem_iff_getElem.mp he
      simp only [List.length_mapIdx] at hj
      simp only [List.getElem_mapIdx]
      have hv := text kvs[j] (List.getElem_mem _)
      refine ⟨⟨kvs[j].1, hv⟩, ?_, ?_⟩
      · intro d hd
        simp only [Ty.de, hd, ok_bind, hv, dite_true, pure_eq]
      · rcases hN (fuel + 1) (by omega) j hj kvs[j] (by simp [hj]) with h | h
        · exact .inr h.2
        · exact .inl h
    · refine ⟨(kvs.mapIdx fun i kv => (kv.1, u i))[j0]'(by simpa using hj0), List.getElem_mem _, fun a => ?_⟩
      simp only [List.getElem_mapIdx]
      exact hM (fuel + 1) (by omega)

/-- What is found in the fields: a refusal, or all of them with one missing. -/
theorem struct_declines {fs : List (RStr × Ty)} {kvs : List (List UInt8 × Tree)} (bad : RStr → Prop)
    (distinct : (fs.map (·.1)).Nodup) (once : (kvs.map (·.1)).Nodup)
    (some_ : (∃ f ∈ fs, bad f.1 ∧ f.1.bytes ∈ kvs.map (·.1)) ∨
      ((∀ f ∈ fs, ¬ bad f.1) ∧ P .message ∧ ∃ f ∈ fs, f.2.Required X.types ∧ f.1.bytes ∉ kvs.map (·.1)))
    (of : ∀ f ∈ fs, bad f.1 → ∀ t, (f.1.bytes, t) ∈ kvs → Declines X probe f.2 t P)
    (others : ∀ f ∈ fs, ¬ bad f.1 → ∀ t, (f.1.bytes, t) ∈ kvs → ∃ y, ReadsAs X probe f.2 t y) {v : Val}
    (hm : Matches X.m X.F X.scope probe v (.dict kvs)) (hk : (Tree.dict kvs).Keyed fun k => k ≠ []) :
    v.asDict X.m = .ok (some v) ∧ v.dictLen X.m = .ok kvs.length ∧
      ∃ it, De.map X ⟨v, false⟩ = .ok it ∧ ∃ N, ∀ fuel, N ≤ fuel → (De.struct X fuel (Ty.de X fuel) fs it).Fails P := by
  cases hk with
  | leaf _ nd => exact absurd rfl (nd _)
  | dict key hof =>
    obtain ⟨u, it, h1, h2, h3, h4, h5, h6, h7⟩ := dict_walk hm key
    refine ⟨h4, h5, it, h1, ?_⟩
    have hes : (kvs.mapIdx fun i kv => (kv.1, u i)).map (·.1) = kvs.map (·.1) := by
      apply List.ext_getElem?
      intro i
      simp only [List.getElem?_map, List.getElem?_mapIdx]
      cases kvs[i]? <;> rfl
    -- what is found for each entry
    obtain ⟨N, hN⟩ := bound (P := fun j fuel => ∀ e, kvs[j]? = some e →
        (∃ fd ∈ fs, fd.1.bytes = e.1 ∧ (bad fd.1 ∧ (Ty.de X fuel fd.2 ⟨u j, false⟩).Fails P ∨
          ¬ bad fd.1 ∧ ∃ y, Ty.de X fuel fd.2 ⟨u j, false⟩ = .ok y)) ∨
        ((∀ fd ∈ fs, fd.1.bytes ≠ e.1) ∧ De.ignore X fuel ⟨u j, false⟩ = .ok ())) kvs.length (by
      intro j hj
      have hmj := h7 j kvs[j].1 kvs[j].2 (by simp [hj])
      have hkj := hof kvs[j] (List.getElem_mem _)
      by_cases hin : ∃ fd ∈ fs, fd.1.bytes = kvs[j].1
      · obtain ⟨fd, hfd, hfe⟩ := hin
        have hme : (fd.1.bytes, kvs[j].2) ∈ kvs := by rw [hfe]; exact List.getElem_mem _
        by_cases hb : bad fd.1
        · obtain ⟨N, hN⟩ := of fd hfd hb _ hme hmj hkj
          refine ⟨N, fun fuel hf e he => .inl ?_⟩
          have he : kvs[j] = e := by simpa [hj] using he
          subst he
          exact ⟨fd, hfd, hfe, .inl ⟨hb, hN fuel hf⟩⟩
        · obtain ⟨y, hy⟩ := others fd hfd hb _ hme
          obtain ⟨N, hN⟩ := hy hmj hkj
          refine ⟨N, fun fuel hf e he => .inl ?_⟩
          have he : kvs[j] = e := by simpa [hj] using he
          subst he
          exact ⟨fd, hfd, hfe, .inr ⟨hb, y, hN fuel hf⟩⟩
      · obtain ⟨N, hN⟩ := hmj.ignore hkj
        refine ⟨N, fun fuel hf e he => .inr ⟨?_, hN fuel hf⟩⟩
        have he : kvs[j] = e := by simpa [hj] using he
        subst he
        exact fun fd hfd hc => hin ⟨fd, hfd, hc⟩)
    have uniq : ∀ fd ∈ fs, ∀ gd ∈ fs, fd.1.bytes = gd.1.bytes → fd = gd := by
      intro fd hfd gd hgd h
      obtain ⟨i, hi, rfl⟩ := List.mem_iff_getElem.mp hfd
      obtain ⟨j, hj, rfl⟩ := List.mem_iff_getElem.mp hgd
      have e1 := findIdx_name distinct (i := i) (n := fs[i].1) (by simp [hi])
      have e2 := findIdx_name distinct (i := j) (n := fs[j].1) (by simp [hj])
      rw [h, e2] at e1
      cases e1
      rfl
    rcases some_ with ⟨f, hf, hb, hfm⟩ | ⟨hnb, hP, f, hf, hreq, hgone⟩
    · refine ⟨N, fun fuel hfu => Res.Fails.bind (fields_fails distinct h2 (by simp; omega) (by simp) (by rw [hes]; exact once)
        ?_ ?_ (fun i fd g1 g2 => by simp [g1]))⟩
      · intro e he
        obtain ⟨j, hj, rfl⟩ := List.mem_iff_getElem.mp he
        simp only [List.length_mapIdx] at hj
        simp only [List.getElem_mapIdx]
        rcases hN fuel hfu j hj kvs[j] (by simp [hj]) with ⟨fd, g1, g2, g3⟩ | h
        · refine .inl ⟨fd, g1, g2, ?_⟩
          rcases g3 with ⟨_, g3⟩ | ⟨_, g3⟩
          · exact .inr g3
          · exact .inl g3
        · exact .inr h
      · obtain ⟨e, he, hee⟩ := List.mem_map.mp hfm
        obtain ⟨j, hj, rfl⟩ := List.mem_iff_getElem.mp he
        refine ⟨(kvs.mapIdx fun i kv => (kv.1, u i))[j]'(by simpa using hj), List.getElem_mem _, f, hf, ?_⟩
        simp only [List.getElem_mapIdx]
        refine ⟨hee.symm, ?_⟩
        rcases hN fuel hfu j hj kvs[j] (by simp [hj]) with ⟨fd, g1, g2, g3⟩ | h
        · cases uniq fd g1 f hf (g2.trans hee)
          rcases g3 with ⟨_, g3⟩ | ⟨hn, _⟩
          · exact g3
          · exact absurd hb hn
        · exact absurd hee.symm (h.1 f hf)
    · refine ⟨N, fun fuel hfu => ?_⟩
      have hvals : ∀ fd ∈ fs, ∃ o : Option SVal, (fd.1.bytes ∉ kvs.map (·.1) → o = none) ∧
          ∀ (j : Nat) e, kvs[j]? = some e → fd.1.bytes = e.1 → ∃ x, o = some x ∧ Ty.de X fuel fd.2 ⟨u j, false⟩ = .ok x := by
        intro fd hfd
        by_cases hin : fd.1.bytes ∈ kvs.map (·.1)
        · obtain ⟨e, he, hee⟩ := List.mem_map.mp hin
          obtain ⟨j, hj, rfl⟩ := List.mem_iff_getElem.mp he
          rcases hN fuel hfu j hj kvs[j] (by simp [hj]) with ⟨gd, g1, g2, g3⟩ | h
          · cases uniq gd g1 fd hfd (g2.trans hee)
            rcases g3 with ⟨hb, _⟩ | ⟨_, y, g3⟩
            · exact absurd hb (hnb _ hfd)
            · refine ⟨some y, fun h => absurd hin h, fun j' e' he' hee' => ⟨y, rfl, ?_⟩⟩
              obtain ⟨hj', rfl⟩ := List.getElem?_eq_some_iff.mp he'
              have hjj : j = j' := by
                have h1 : (kvs.map (·.1))[j]'(by simpa using hj) = (kvs.map (·.1))[j']'(by simpa using hj') := by
                  simp only [List.getElem_map]; rw [hee, ← hee']
                exact (List.getElem_inj once).mp h1
              subst hjj
              exact g3
          · exact absurd hee.symm (h.1 fd hfd)
        · refine ⟨none, fun _ => rfl, fun j e he hee => absurd ?_ hin⟩
          rw [hee]; exact List.mem_map_of_mem (List.mem_of_getElem? he)
      have : ∃ target : List (Option SVal), target.length = fs.length ∧ ∀ (i : Nat) fd o, fs[i]? = some fd → target[i]? = some o →
          (fd.1.bytes ∉ kvs.map (·.1) → o = none) ∧
          ∀ (j : Nat) e, kvs[j]? = some e → fd.1.bytes = e.1 → ∃ x, o = some x ∧ Ty.de X fuel fd.2 ⟨u j, false⟩ = .ok x := by
        clear hf once distinct of others hN hnb uniq hgone
        induction fs with
        | nil => exact ⟨[], rfl, fun i fd o h => by simp at h⟩
        | cons g fs ih =>
          obtain ⟨o, ho⟩ := hvals g (by simp)
          obtain ⟨target, t1, t2⟩ := ih (fun fd hfd => hvals fd (by simp [hfd]))
          refine ⟨o :: target, by simp [t1], fun i fd o' g1 g2 => ?_⟩
          cases i with
          | zero => cases g1; cases g2; exact ho
          | succ i => exact t2 i fd o' (by simpa using g1) (by simpa using g2)
      obtain ⟨target, htl, ht⟩ := this
      have hf1 := fields_fit (fuel := fuel) (f := Ty.de X fuel) (target := target) distinct htl h2
        (n := it.len + 1) (got := fs.map fun _ => none) (by simp; omega) (by simp) (by rw [hes]; exact once)
        (by
          intro e he
          obtain ⟨j, hj, rfl⟩ := List.mem_iff_getElem.mp he
          simp only [List.length_mapIdx] at hj
          simp only [List.getElem_mapIdx]
          rcases hN fuel hfu j hj kvs[j] (by simp [hj]) with ⟨fd, g1, g2, g3⟩ | h
          · obtain ⟨i, hi, rfl⟩ := List.mem_iff_getElem.mp g1
            obtain ⟨x, hx, hx'⟩ := (ht i fs[i] (target[i]'(by omega)) (by simp) (by simp)).2 j kvs[j] (by simp [hj]) g2
            exact .inl ⟨i, fs[i], x, by simp, by rw [← hx]; simp, g2, hx'⟩
          · exact .inr h)
        (by
          intro i fd g1
          have hi := (List.getElem?_eq_some_iff.mp g1).1
          rw [hes]
          split
          · simp [g1]
          · next hn =>
            have := (ht i fd (target[i]'(by omega)) g1 (by simp)).1 hn
            have h0 : target[i]? = some none := by rw [List.getElem?_eq_getElem (by omega), this]
            rw [h0]
            simp [g1])
      unfold De.struct
      simp only [hf1, ok_bind]
      obtain ⟨i, hi, rfl⟩ := List.mem_iff_getElem.mp hf
      refine build_fails fs htl (i := i) (by simp) hreq ?_ hP
      rw [List.getElem?_eq_getElem (by omega), (ht i fs[i] (target[i]'(by omega)) (by simp) (by simp)).1 hgone]

theorem layout_fails {α : Type} {v : Val} {fuel : Nat} (hf : De.format X fuel v = .ok ()) :
    (De.badLayout X fuel v : D α) = .err .invalidEnumLayout := by
  unfold De.badLayout
  simp only [hf, ok_bind]

/-- **The deserializer refuses what does not fit.** -/
theorem de_refuses {R : Rules} (hF : R.F = X.F) (hN : R.N = X.N) (hty : R.types = X.types)
    (hK : ∀ k, R.field k → probe k.bytes) (hT : ∀ i name t, R.tag i name t → tagNamed name t) (hL : ¬ R.lax) {ty : Ty}
    {t : Tree} {r : Refusal} (h : Refuses R ty t r) : Declines X probe ty t r.Is := by
  have fits : ∀ {ty : Ty} {t : Tree}, (∃ y, Fits R ty t y) → ∃ y, ReadsAs X probe ty t y := by
    rintro ty t ⟨y, hy⟩
    exact ⟨y, de_fits hF hN hty hK hT hL hy⟩
  induction h with
  | any _ ih =>
    intro v hm hk
    obtain ⟨N, hN⟩ := ih hm hk
    refine ⟨N, fun fuel hf => ?_⟩
    obtain ⟨e, he, _⟩ := hN fuel hf
    exact ⟨e, he, trivial⟩
  | named decl _ ih =>
    intro v hm hk
    obtain ⟨N, hN⟩ := ih hm hk
    refine depth (N := N) fun fuel hf => ?_
    rw [hty] at decl
    unfold Ty.de
    simp only [decl]
    exact hN fuel hf
  | some there _ ih =>
    intro v hm hk
    obtain ⟨vt, h1, h2, h3⟩ := hm.type
    have hn : vt ≠ .null := fun hc => there (h3.mp hc)
    obtain ⟨N, hN⟩ := ih hm hk
    refine depth (N := N) fun fuel hf => ?_
    unfold Ty.de
    simp only [h1, dread_ok, ok_bind]
    cases vt <;> first | exact absurd rfl hn | exact (hN fuel hf).bind
  | mismatch no =>
    intro v hm hk
    exact depth (N := 0) fun fuel hf => ⟨_, mismatch_fails hm no fuel, rfl⟩
  | notArray no =>
    intro v hm hk
    refine depth (N := 0) fun fuel hf => ⟨_, ?_, rfl⟩
    simp only [Ty.de, De.seq, hm.notArray no, dread_ok, ok_bind, err_bind]
  | notMap no =>
    intro v hm hk
    refine depth (N := 0) fun fuel hf => ⟨_, ?_, rfl⟩
    simp only [Ty.de, De.map, hm.notDict no, dread_ok, ok_bind, err_bind]
  | notStruct no =>
    intro v hm hk
    refine depth (N := 0) fun fuel hf => ⟨_, ?_, rfl⟩
    simp only [Ty.de, De.map, hm.notDict no, dread_ok, ok_bind, err_bind]
  | notEnum no =>
    intro v hm hk
    obtain ⟨vt, h1, _, _⟩ := hm.type
    refine depth (N := 0) fun fuel hf => ⟨.invalidEnumType vt, ?_, vt, rfl⟩
    simp only [Ty.de, De.enum, hm.notArray no, h1, dread_ok, ok_bind]
  | seq at_ _ before ih =>
    intro v hm hk
    obtain ⟨it, h1, N, hN⟩ := seq_declines at_ ih (fun j t hj ht => fits (before j t hj ht)) hm hk
    refine depth (N := N) fun fuel hf => ?_
    simp only [Ty.de, h1, ok_bind]
    exact (hN fuel hf).bind
  | @newtypeStruct ty t ts r _ ih =>
    intro v hm hk
    obtain ⟨_, _, it, h1, _, N, hN⟩ := tuple_declines (tys := [ty]) (i := 0) rfl (.inr ⟨t, rfl, ih⟩)
      (fun j _ _ hj => absurd hj (Nat.not_lt_zero _)) hm hk
    refine depth (N := N) fun fuel hf => ?_
    simp only [Ty.de, h1, ok_bind]
    exact (hN fuel hf).bind
  | @newtypeEmpty ty =>
    intro v hm hk
    obtain ⟨_, _, it, h1, _, N, hN⟩ := tuple_declines (P := Refusal.Is .message) (tys := [ty]) (i := 0) rfl (.inl ⟨rfl, rfl⟩)
      (fun j _ _ hj => absurd hj (Nat.not_lt_zero _)) hm hk
    refine depth (N := N) fun fuel hf => ?_
    simp only [Ty.de, h1, ok_bind]
    exact (hN fuel hf).bind
  | @tuple tys ts i ty t r ty_ at_ _ before ih =>
    intro v hm hk
    obtain ⟨_, _, it, h1, _, N, hN⟩ := tuple_declines ty_ (.inr ⟨t, at_, ih⟩)
      (fun j ty t hj hty ht => fits (before j ty t hj hty ht)) hm hk
    refine depth (N := N) fun fuel hf => ?_
    simp only [Ty.de, h1, ok_bind]
    exact (hN fuel hf).bind
  | @tupleShort tys ts short each =>
    intro v hm hk
    obtain ⟨_, _, it, h1, _, N, hN⟩ := tuple_declines (P := Refusal.Is .message) (i := ts.length) (ty := tys[ts.length])
      (by simp) (.inl ⟨by simp, rfl⟩) (fun j ty t hj hty ht => fits (each j ty t hty ht)) hm hk
    refine depth (N := N) fun fuel hf => ?_
    simp only [Ty.de, h1, ok_bind]
    exact (hN fuel hf).bind
  | map bad text some_ _ others ih => exact map_declines bad text some_ ih fun e he hb => fits (others e he hb)
  | field bad distinct once some_ _ others ih =>
    intro v hm hk
    obtain ⟨_, _, it, h1, N, hN⟩ := struct_declines bad distinct once (.inl some_) ih
      (fun f hf hb t ht => fits (others f hf hb t ht)) hm hk
    refine depth (N := N) fun fuel hf => ?_
    simp only [Ty.de, h1, ok_bind]
    exact (hN fuel hf).bind
  | missing distinct once known required gone others =>
    intro v hm hk
    obtain ⟨_, _, it, h1, N, hN⟩ := struct_declines (P := Refusal.Is .message) (fun _ => False) distinct once
      (.inr ⟨fun _ _ h => h, rfl, _, known, hty ▸ required, gone⟩) (fun _ _ h => h.elim)
      (fun f hf _ t ht => fits (others f hf t ht)) hm hk
    refine depth (N := N) fun fuel hf => ?_
    simp only [Ty.de, h1, ok_bind]
    exact (hN fuel hf).bind
  | @noVariant vs tag rest no =>
    intro v hm hk
    obtain ⟨u, h1, h2, h3, h4, _, h5⟩ := hm.elems
    have hv : v.Direct X.m := ⟨_, h2, by simp⟩
    obtain ⟨M, hM⟩ := format_ok hm (.refl _)
    have hm0 := h5 0 tag rfl
    obtain ⟨w, g1, g2⟩ := hm0.seen
    refine depth (N := M) fun fuel hf => ⟨.message, ?_, rfl⟩
    have hid : De.ident X (vs.map (·.1)) ⟨u 0, false⟩ = .ok none ∨ De.ident X (vs.map (·.1)) ⟨u 0, false⟩ = .err .message := by
      unfold De.ident
      simp only [g1, ok_bind]
      rcases g2 with ⟨xs, it, rfl, rfl⟩ | ⟨kvs, it, rfl, rfl⟩ | g2
      · exact .inr rfl
      · exact .inr rfl
      · cases g2 with
        | str s => exact .inl (by simp only [pure_eq, findIdx_none (no.1 s (.inl rfl))])
        | data s => exact .inl (by simp only [pure_eq, findIdx_none (no.1 s (.inr rfl))])
        | u64 n => exact .inl (by have := no.2 n rfl; dsimp only; rw [if_neg (by omega)]; rfl)
        | _ => exact .inr rfl
    simp only [Ty.de, De.enum, h1, dread_ok, ok_bind, part_ok hv hm0.direct (hM fuel hf) (h4 0 (by simp))]
    rcases hid with hid | hid <;> simp only [hid, ok_bind, err_bind]
  | unitLayout distinct decl called =>
    intro v hm hk
    obtain ⟨h1, h2, _, M, hM⟩ := variant_named distinct decl (hT _ _ _ called) hm (.refl _)
    obtain ⟨M', hM'⟩ := format_ok hm (.refl _)
    refine depth (N := max M M') fun fuel hf => ⟨.invalidEnumLayout, ?_, rfl⟩
    obtain ⟨⟨d, h3, h4⟩, _⟩ := hM fuel (by omega)
    simp only [Ty.de, De.enum, h1, dread_ok, ok_bind, h3, h4, decl, h2, List.length_cons]
    rw [if_neg (by omega), layout_fails (hM' fuel (by omega))]
  | newtypeVariant distinct decl called _ ih =>
    intro v hm hk
    obtain ⟨u, _, hg, hu⟩ := second_elem hm
    obtain ⟨h1, h2, _, M, hM⟩ := variant_named distinct decl (hT _ _ _ called) hm (.refl _)
    obtain ⟨N, hN⟩ := ih hu hk.second
    refine depth (N := max M N) fun fuel hf => ?_
    obtain ⟨⟨d, h3, h4⟩, h5⟩ := hM fuel (by omega)
    obtain ⟨u', _, _, h6, g2, _⟩ := h5 _ rfl
    rw [hg] at g2; cases g2
    simp only [Ty.de, De.enum, h1, dread_ok, ok_bind, h3, h4, decl, h6]
    exact (hN fuel (by omega)).bind
  | @tupleLayout vs i name tag tys x rest distinct decl called no =>
    intro v hm hk
    obtain ⟨u, _, hg, hu⟩ := second_elem hm
    obtain ⟨h1, h2, hv, M, hM⟩ := variant_named distinct decl (hT _ _ _ called) hm (.refl _)
    obtain ⟨M', hM'⟩ := format_ok hm (.refl _)
    refine depth (N := max M M') fun fuel hf => ⟨.invalidEnumLayout, ?_, rfl⟩
    obtain ⟨⟨d, h3, h4⟩, h5⟩ := hM fuel (by omega)
    obtain ⟨u', _, h6, _, e2, _⟩ := h5 _ rfl
    rw [hg] at e2; cases e2
    have hl : ∀ {α : Type}, (De.badLayout X fuel v : D α) = .err .invalidEnumLayout := layout_fails (hM' fuel (by omega))
    simp only [Ty.de, De.enum, h1, dread_ok, ok_bind, h3, h4, decl, De.tupleVariant, h6]
    by_cases hx : ∃ xs, x = .arr xs
    · obtain ⟨xs, rfl⟩ := hx
      obtain ⟨_, k1, _, k3, _⟩ := hu.elems
      simp only [k1, k3, dread_ok, ok_bind, if_neg (no xs rfl), hl, err_bind]
    · simp only [hu.notArray (fun xs h => hx ⟨xs, h⟩), dread_ok, ok_bind, hl, err_bind]
  | @tupleVariant vs i name tag tys xs rest r distinct decl called len _ ih =>
    intro v hm hk
    obtain ⟨u, _, hg, hu⟩ := second_elem hm
    obtain ⟨h1, h2, hv, M, hM⟩ := variant_named distinct decl (hT _ _ _ called) hm (.refl _)
    obtain ⟨_, g1, k0, g2, _, ⟨it, us, k5, _⟩, _⟩ := hu.elems
    obtain ⟨N, hN⟩ := ih hu hk.second
    obtain ⟨ty', k1, k2⟩ := hv
    obtain ⟨w, hw⟩ := isWide_ok k1
    obtain ⟨ty'', k3, k4⟩ := hu.direct
    refine depth (N := max M N) fun fuel hf => ?_
    obtain ⟨⟨d, h3, h4⟩, h5⟩ := hM fuel (by omega)
    obtain ⟨u', _, h6, _, e2, _⟩ := h5 _ rfl
    rw [hg] at e2; cases e2
    have hseq : De.seq X ⟨u, false⟩ = .ok it := by unfold De.seq; simp only [g1, dread_ok, ok_bind, k5]
    have hany : De.any X ⟨u, false⟩ = .ok (.seq it) := by unfold De.any; simp only [k0, dread_ok, ok_bind, k5, pure_eq]
    have := hN (fuel + 1) (by omega)
    simp only [Ty.de, hany, ok_bind] at this
    simp only [Ty.de, De.enum, h1, dread_ok, ok_bind, h3, h4, decl, De.tupleVariant, h6, g1, g2, len, if_true, hw,
      new_ok k3 k4, hseq]
    obtain ⟨e, he, hP⟩ := this
    cases hc : De.each X (Ty.de X fuel) tys it with
    | err e' => rw [hc] at he; cases he; exact ⟨e, rfl, hP⟩
    | ok _ => rw [hc] at he; cases he
    | panic => rw [hc] at he; cases he
    | ub => rw [hc] at he; cases he
    | diverge => rw [hc] at he; cases he
  | @structLayout vs i name tag fs x rest distinct decl called look no =>
    intro v hm hk
    obtain ⟨u, _, hg, hu⟩ := second_elem hm
    obtain ⟨h1, h2, hv, M, hM⟩ := variant_named distinct decl (hT _ _ _ called) hm (.refl _)
    obtain ⟨M', hM'⟩ := format_ok hm (.refl _)
    refine depth (N := max M M') fun fuel hf => ⟨.invalidEnumLayout, ?_, rfl⟩
    obtain ⟨⟨d, h3, h4⟩, h5⟩ := hM fuel (by omega)
    obtain ⟨u', _, h6, _, e2, _⟩ := h5 _ rfl
    rw [hg] at e2; cases e2
    have hl : ∀ {α : Type}, (De.badLayout X fuel v : D α) = .err .invalidEnumLayout := layout_fails (hM' fuel (by omega))
    simp only [Ty.de, De.enum, h1, dread_ok, ok_bind, h3, h4, decl, De.structVariant, h6]
    by_cases hx : ∃ kvs, x = .dict kvs
    · obtain ⟨kvs, rfl⟩ := hx
      have hks := hk.second
      cases hks with
      | leaf _ nd => exact absurd rfl (nd _)
      | dict key _ =>
      obtain ⟨_, _, _, _, _, k1, k3, _⟩ := dict_walk hu key
      simp only [k1, k3, dread_ok, ok_bind]
      by_cases hlen : kvs.length = fs.length
      · rcases no kvs rfl with h | ⟨f, hf', hn⟩
        · exact absurd hlen h
        · have hno : De.hasKeys X u (fs.map (·.1)) = .ok false := by
            refine hasKeys_not _ (fun k hk => ?_) ⟨f.1, List.mem_map_of_mem hf', (hu.lookups f.1.bytes (hK _ (look f hf'))).2 hn⟩
            obtain ⟨g, hg', rfl⟩ := List.mem_map.mp hk
            obtain ⟨l1, l2⟩ := hu.lookups g.1.bytes (hK _ (look g hg'))
            by_cases hin : g.1.bytes ∈ kvs.map (·.1)
            · obtain ⟨r, hr⟩ := l1 hin
              exact ⟨_, hr⟩
            · exact ⟨_, l2 hin⟩
          simp only [hlen, if_true, hno, ok_bind, Bool.false_eq_true, if_false, hl, err_bind]
      · simp only [if_neg hlen, hl, err_bind]
    · simp only [hu.notDict (fun xs h => hx ⟨xs, h⟩), dread_ok, ok_bind, hl, err_bind]
  | @structVariant vs i name tag fs kvs rest r distinct decl called look len keys _ ih =>
    intro v hm hk
    obtain ⟨u, _, hg, hu⟩ := second_elem hm
    obtain ⟨h1, h2, hv, M, hM⟩ := variant_named distinct decl (hT _ _ _ called) hm (.refl _)
    obtain ⟨N, hN⟩ := ih hu hk.second
    have hks := hk.second
    cases hks with
    | leaf _ nd => exact absurd rfl (nd _)
    | dict key _ =>
    obtain ⟨_, it, hmap, _, _, g1, g2, _⟩ := dict_walk hu key
    have hkeys : De.hasKeys X u (fs.map (·.1)) = .ok true := by
      refine hasKeys_ok _ fun k hk => ?_
      obtain ⟨f, hf, rfl⟩ := List.mem_map.mp hk
      exact (hu.lookups f.1.bytes (hK _ (look f hf))).1 (keys f hf)
    obtain ⟨ty', k1, k2⟩ := hv
    obtain ⟨w, hw⟩ := isWide_ok k1
    obtain ⟨ty'', k3, k4⟩ := hu.direct
    refine depth (N := max M N) fun fuel hf => ?_
    obtain ⟨⟨d, h3, h4⟩, h5⟩ := hM fuel (by omega)
    obtain ⟨u', _, h6, _, e2, _⟩ := h5 _ rfl
    rw [hg] at e2; cases e2
    have := hN (fuel + 1) (by omega)
    simp only [Ty.de, hmap, ok_bind] at this
    simp only [Ty.de, De.enum, h1, dread_ok, ok_bind, h3, h4, decl, De.structVariant, h6, g1, g2, len, if_true, hw, hkeys,
      new_ok k3 k4, hmap]
    obtain ⟨e, he, hP⟩ := this
    cases hc : De.struct X fuel (Ty.de X fuel) fs it with
    | err e' => rw [hc] at he; cases he; exact ⟨e, rfl, hP⟩
    | ok _ => rw [hc] at he; cases he
    | panic => rw [hc] at he; cases he
    | ub => rw [hc] at he; cases he
    | diverge => rw [hc] at he; cases he

end Fleece
