import Verif.Proofs.DebugText
import Verif.Proofs.DebugSafe
import Verif.Proofs.Depth
import Verif.Spec.Copy
import Verif.Model.WriteFleece
import Verif.Spec.Cost

/-! # How deep a traversal goes -/

namespace Fleece
open Res

variable {m : Mem} {F : FloatOps} {scope : Option SharedKeys}

theorem collect_exact {f g : Val → R Tree} {d : Nat}
    (h : ∀ x a, f x = .ok a → g x = if a.height ≤ d then .ok a else .diverge) :
    ∀ (n : Nat) (it : Iter) (xs : List Tree), collect m f n it = .ok xs →
      collect m g n it = if Tree.heightList xs ≤ d then .ok xs else .diverge
  | 0, _, _ => fun h => nomatch h
  | n + 1, it, xs => fun hc => by
    unfold collect at hc ⊢
    obtain ⟨⟨x, it'⟩, hs, hc⟩ := bind_eq_ok.mp hc
    simp only [hs, ok_bind]
    cases x with
    | none => cases hc; simp [Tree.heightList]
    | some x =>
      obtain ⟨a, ha, hc⟩ := bind_eq_ok.mp hc
      obtain ⟨r, hr, hc⟩ := bind_eq_ok.mp hc
      cases hc
      have h1 := h x a ha
      have h2 := collect_exact h n it' r hr
      have hh : Tree.heightList (a :: r) = max a.height (Tree.heightList r) := by rw [Tree.heightList]
      simp only [h1, h2]
      by_cases c1 : a.height ≤ d
      · by_cases c2 : Tree.heightList r ≤ d
        · rw [if_pos c1, if_pos c2, if_pos (by omega)]; rfl
        · rw [if_pos c1, if_neg c2, if_neg (by omega)]; rfl
      · rw [if_neg c1, if_neg (c := Tree.heightList (a :: r) ≤ d) (by omega)]; rfl

theorem collectDict_exact {f g : Val → R Tree} {d : Nat}
    (h : ∀ x a, f x = .ok a → g x = if a.height ≤ d then .ok a else .diverge) :
    ∀ (n : Nat) (it : Iter) (xs : List (List UInt8 × Tree)), collectDict m scope f n it = .ok xs →
      collectDict m scope g n it = if Tree.heightDict xs ≤ d then .ok xs else .diverge
  | 0, _, _ => fun h => nomatch h
  | n + 1, it, xs => fun hc => by
    unfold collectDict at hc ⊢
    obtain ⟨⟨x, it'⟩, hs, hc⟩ := bind_eq_ok.mp hc
    simp only [hs, ok_bind]
    cases x with
    | none => cases hc; simp [Tree.heightDict]
    | some x =>
      obtain ⟨a, ha, hc⟩ := bind_eq_ok.mp hc
      obtain ⟨r, hr, hc⟩ := bind_eq_ok.mp hc
      cases hc
      have h1 := h x.2 a ha
      have h2 := collectDict_exact h n it' r hr
      have hp := a.height_pos
      have hh : Tree.heightDict ((x.1, a) :: r) = max (max 1 a.height) (Tree.heightDict r) := by rw [Tree.heightDict]
      simp only [h1, h2]
      by_cases c1 : a.height ≤ d
      · by_cases c2 : Tree.heightDict r ≤ d
        · rw [if_pos c1, if_pos c2, if_pos (by omega)]; rfl
        · rw [if_pos c1, if_neg c2, if_neg (by omega)]; rfl
      · rw [if_neg c1, if_neg (c := Tree.heightDict ((x.1, a) :: r) ≤ d) (by omega)]; rfl

/-- A traversal finds the same with as many steps downwards as the document is deep, and does not end with fewer. -/
theorem readTree_exact : ∀ {D : Nat} {v : Val} {t : Tree}, readTree m F scope D v = .ok t →
    ∀ d, readTree m F scope d v = if t.height ≤ d then .ok t else .diverge
  | 0, _, _, h => nomatch h
  | D + 1, v, t, h => fun d => by
    cases d with
    | zero =>
      have := t.height_pos
      rw [if_neg (by omega)]
      rfl
    | succ d =>
      unfold readTree at h ⊢
      obtain ⟨ty, ht, h⟩ := bind_eq_ok.mp h
      simp only [ht, ok_bind]
      cases ty
      case array =>
        obtain ⟨it, hi, h⟩ := bind_eq_ok.mp h
        obtain ⟨xs, hc, h⟩ := bind_eq_ok.mp h
        cases h
        have h2 := collect_exact (g := readTree m F scope d) (d := d) (fun x a ha => readTree_exact ha d) _ _ _ hc
        have hh : (Tree.arr xs).height = 1 + Tree.heightList xs := by rw [Tree.height]
        simp only [hi, ok_bind, h2]
        by_cases c : Tree.heightList xs ≤ d
        · rw [if_pos c, if_pos (by omega)]; rfl
        · rw [if_neg c, if_neg (by omega)]; rfl
      case dict =>
        obtain ⟨it, hi, h⟩ := bind_eq_ok.mp h
        obtain ⟨xs, hc, h⟩ := bind_eq_ok.mp h
        cases h
        have h2 := collectDict_exact (g := readTree m F scope d) (d := d) (fun x a ha => readTree_exact ha d) _ _ _ hc
        have hh : (Tree.dict xs).height = 1 + Tree.heightDict xs := by rw [Tree.height]
        simp only [hi, ok_bind, h2]
        by_cases c : Tree.heightDict xs ≤ d
        · rw [if_pos c, if_pos (by omega)]; rfl
        · rw [if_neg c, if_neg (by omega)]; rfl
      case pointer => cases h
      case null | undefined | false | true =>
        cases h; exact (if_pos (Nat.le_add_left 1 d)).symm
      all_goals
        obtain ⟨x, hx, h⟩ := bind_eq_ok.mp h
        cases h
        simp only [hx, ok_bind, pure_eq]
        exact (if_pos (Nat.le_add_left 1 d)).symm

theorem collect_height {α : Type} {f : Val → R Tree} {g : Val → R α} {d : Nat}
    (h : ∀ x a b, f x = .ok a → g x = .ok b → a.height ≤ d) :
    ∀ (n : Nat) (it : Iter) (xs : List Tree) (ys : List α), collect m f n it = .ok xs → collect m g n it = .ok ys →
      Tree.heightList xs ≤ d
  | 0, _, _, _ => fun h => nomatch h
  | n + 1, it, xs, ys => fun hc hg => by
    unfold collect at hc hg
    obtain ⟨⟨x, it'⟩, hs, hc⟩ := bind_eq_ok.mp hc
    simp only [hs, ok_bind] at hg
    cases x with
    | none => cases hc; exact Nat.zero_le _
    | some x =>
      obtain ⟨a, ha, hc⟩ := bind_eq_ok.mp hc
      obtain ⟨r, hr, hc⟩ := bind_eq_ok.mp hc
      obtain ⟨b, hb, hg⟩ := bind_eq_ok.mp hg
      obtain ⟨r', hr', hg⟩ := bind_eq_ok.mp hg
      cases hc
      have h1 := h x a b ha hb
      have h2 := collect_height h n it' r r' hr hr'
      rw [Tree.heightList]; omega

theorem collectDict_height {α : Type} {f : Val → R Tree} {g : Val → R α} {d : Nat}
    (h : ∀ x a b, f x = .ok a → g x = .ok b → a.height ≤ d) :
    ∀ (n : Nat) (it : Iter) (xs : List (List UInt8 × Tree)) (ys : List (List UInt8 × α)),
      collectDict m scope f n it = .ok xs → collectDict m scope g n it = .ok ys → Tree.heightDict xs ≤ d
  | 0, _, _, _ => fun h => nomatch h
  | n + 1, it, xs, ys => fun hc hg => by
    unfold collectDict at hc hg
    obtain ⟨⟨x, it'⟩, hs, hc⟩ := bind_eq_ok.mp hc
    simp only [hs, ok_bind] at hg
    cases x with
    | none => cases hc; exact Nat.zero_le _
    | some x =>
      obtain ⟨a, ha, hc⟩ := bind_eq_ok.mp hc
      obtain ⟨r, hr, hc⟩ := bind_eq_ok.mp hc
      obtain ⟨b, hb, hg⟩ := bind_eq_ok.mp hg
      obtain ⟨r', hr', hg⟩ := bind_eq_ok.mp hg
      cases hc
      have h1 := h x.2 a b ha hb
      have h2 := collectDict_height h n it' r r' hr hr'
      have := a.height_pos
      rw [Tree.heightDict]; dsimp only; omega

theorem height_leaf {v : Val} {ty : ValueType} (ht : v.type m = .ok ty) (na : ty ≠ .array) (nd : ty ≠ .dict)
    {D : Nat} {t : Tree} (h : readTree m F scope D v = .ok t) : t.height = 1 := by
  cases D with
  | zero => cases h
  | succ D =>
    unfold readTree at h
    obtain ⟨ty', ht', h⟩ := bind_eq_ok.mp h
    rw [ht] at ht'; cases ht'
    cases ty
    case array => exact absurd rfl na
    case dict => exact absurd rfl nd
    case pointer => cases h
    case null | undefined | false | true => cases h; rfl
    all_goals
      obtain ⟨x, hx, h⟩ := bind_eq_ok.mp h
      cases h
      rfl

/-- A conversion that returns is given as many calls as the value is deep. -/
theorem newFromFleece_height : ∀ {d D : Nat} {v : Val} {t : Tree} {w : Bool} {s : Slot}, readTree m F scope D v = .ok t →
    Slot.newFromFleece m F scope d v w = .ok s → t.height ≤ d
  | 0, _, _, _, _, _ => fun _ h => nomatch h
  | d + 1, D, v, t, w, s => fun hr h => by
    unfold Slot.newFromFleece at h
    obtain ⟨ty, ht, h⟩ := bind_eq_ok.mp h
    by_cases na : ty = .array
    · subst na
      cases D with
      | zero => cases hr
      | succ D =>
        unfold readTree at hr
        rw [ht, ok_bind] at hr
        obtain ⟨it, hi, hr⟩ := bind_eq_ok.mp hr
        obtain ⟨xs, hc, hr⟩ := bind_eq_ok.mp hr
        cases hr
        obtain ⟨wd, _, h⟩ := bind_eq_ok.mp h
        obtain ⟨it', hi', h⟩ := bind_eq_ok.mp h
        rw [hi] at hi'; cases hi'
        obtain ⟨ys, hc', _⟩ := bind_eq_ok.mp h
        have := collect_height (fun x a b ha hb => newFromFleece_height ha hb) _ _ _ _ hc hc'
        rw [Tree.height]; omega
    by_cases nd : ty = .dict
    · subst nd
      cases D with
      | zero => cases hr
      | succ D =>
        unfold readTree at hr
        rw [ht, ok_bind] at hr
        obtain ⟨it, hi, hr⟩ := bind_eq_ok.mp hr
        obtain ⟨xs, hc, hr⟩ := bind_eq_ok.mp hr
        cases hr
        obtain ⟨wd, _, h⟩ := bind_eq_ok.mp h
        obtain ⟨it', hi', h⟩ := bind_eq_ok.mp h
        rw [hi] at hi'; cases hi'
        obtain ⟨ys, hc', _⟩ := bind_eq_ok.mp h
        have := collectDict_height (fun x a b ha hb => newFromFleece_height ha hb) _ _ _ _ hc hc'
        rw [Tree.height]; omega
    rw [height_leaf ht na nd hr]; omega

theorem andThen_ok {x : Enc.OutR} {f : Enc → Enc.OutR} {r : Enc} (h : Enc.andThen x f = .ok (r, .ok ())) :
    ∃ e, x = .ok (e, .ok ()) ∧ f e = .ok (r, .ok ()) := by
  unfold Enc.andThen at h
  obtain ⟨⟨e, a⟩, h1, h2⟩ := bind_eq_ok.mp h
  cases a with
  | ok u => exact ⟨e, h1, h2⟩
  | error x => cases h2

theorem writeItems_height {f : Val → R Tree} {g : Val → Enc → Enc.OutR} {d : Nat}
    (h : ∀ x a e e', f x = .ok a → g x e = .ok (e', .ok ()) → a.height ≤ d) :
    ∀ (n : Nat) (it : Iter) (xs : List Tree) (e e' : Enc), collect m f n it = .ok xs →
      Enc.writeItems m g n it e = .ok (e', .ok ()) → Tree.heightList xs ≤ d
  | 0, _, _, _, _ => fun h => nomatch h
  | n + 1, it, xs, e, e' => fun hc hg => by
    unfold collect at hc
    unfold Enc.writeItems at hg
    obtain ⟨⟨x, it'⟩, hs, hc⟩ := bind_eq_ok.mp hc
    simp only [hs, ok_bind] at hg
    cases x with
    | none => cases hc; exact Nat.zero_le _
    | some x =>
      obtain ⟨a, ha, hc⟩ := bind_eq_ok.mp hc
      obtain ⟨r, hr, hc⟩ := bind_eq_ok.mp hc
      obtain ⟨e1, hb, hg⟩ := andThen_ok hg
      cases hc
      have h1 := h x a _ _ ha hb
      have h2 := writeItems_height h n it' r _ _ hr hg
      rw [Tree.heightList]; omega

theorem writeEntries_height {c : Cfg} {f : Val → R Tree} {g : Val → Enc → Enc.OutR} {d : Nat}
    (h : ∀ x a e e', f x = .ok a → g x e = .ok (e', .ok ()) → a.height ≤ d) :
    ∀ (n : Nat) (it : Iter) (xs : List (List UInt8 × Tree)) (e e' : Enc), collectDict m scope f n it = .ok xs →
      Enc.writeEntries c m scope g n it e = .ok (e', .ok ()) → Tree.heightDict xs ≤ d
  | 0, _, _, _, _ => fun h => nomatch h
  | n + 1, it, xs, e, e' => fun hc hg => by
    unfold collectDict at hc
    unfold Enc.writeEntries at hg
    obtain ⟨⟨x, it'⟩, hs, hc⟩ := bind_eq_ok.mp hc
    simp only [hs, ok_bind] at hg
    cases x with
    | none => cases hc; exact Nat.zero_le _
    | some x =>
      obtain ⟨a, ha, hc⟩ := bind_eq_ok.mp hc
      obtain ⟨r, hr, hc⟩ := bind_eq_ok.mp hc
      obtain ⟨e1, _, hg⟩ := andThen_ok hg
      obtain ⟨e2, hb, hg⟩ := andThen_ok hg
      cases hc
      have h1 := h x.2 a _ _ ha hb
      have h2 := writeEntries_height h n it' r _ _ hr hg
      have := a.height_pos
      rw [Tree.heightDict]; dsimp only; omega

/-- Copying that succeeds is given as many calls as the value is deep. -/
theorem writeFleece_height {c : Cfg} : ∀ {d D : Nat} {v : Val} {t : Tree} {e e' : Enc}, readTree m F scope D v = .ok t →
    Enc.writeFleece c m F scope d v e = .ok (e', .ok ()) → t.height ≤ d
  | 0, _, _, _, _, _ => fun _ h => nomatch h
  | d + 1, D, v, t, e, e' => fun hr h => by
    unfold Enc.writeFleece at h
    obtain ⟨ty, ht, h⟩ := bind_eq_ok.mp h
    by_cases na : ty = .array
    · subst na
      cases D with
      | zero => cases hr
      | succ D =>
        unfold readTree at hr
        rw [ht, ok_bind] at hr
        obtain ⟨it, hi, hr⟩ := bind_eq_ok.mp hr
        obtain ⟨xs, hc, hr⟩ := bind_eq_ok.mp hr
        cases hr
        rw [if_neg (by simp)] at h
        obtain ⟨n, _, h⟩ := bind_eq_ok.mp h
        obtain ⟨e1, _, h⟩ := andThen_ok h
        obtain ⟨it', hi', h⟩ := bind_eq_ok.mp h
        rw [hi] at hi'; cases hi'
        obtain ⟨e2, h, _⟩ := andThen_ok h
        have := writeItems_height (fun x a _ _ ha hb => writeFleece_height ha hb) _ _ _ _ _ hc h
        rw [Tree.height]; omega
    by_cases nd : ty = .dict
    · subst nd
      cases D with
      | zero => cases hr
      | succ D =>
        unfold readTree at hr
        rw [ht, ok_bind] at hr
        obtain ⟨it, hi, hr⟩ := bind_eq_ok.mp hr
        obtain ⟨xs, hc, hr⟩ := bind_eq_ok.mp hr
        cases hr
        rw [if_neg (by simp)] at h
        obtain ⟨e1, _, h⟩ := andThen_ok h
        obtain ⟨it', hi', h⟩ := bind_eq_ok.mp h
        rw [hi] at hi'; cases hi'
        obtain ⟨e2, h, _⟩ := andThen_ok h
        have := writeEntries_height (fun x a _ _ ha hb => writeFleece_height ha hb) _ _ _ _ _ hc h
        rw [Tree.height]; omega
    rw [height_leaf ht na nd hr]; omega

theorem Copies.lower {K : List UInt8 → Prop} : ∀ {d D : Nat} {v : Val}, d ≤ D → Copies m F scope K D v → Copies m F scope K d v
  | 0, _, _, _, _ => trivial
  | d + 1, 0, _, h, _ => absurd h (by omega)
  | d + 1, D + 1, v, h, ⟨h1, h2, h3, h4, h5⟩ =>
    ⟨h1, h2, h3, fun ht it xs hi hc y hy => (h4 ht it xs hi hc y hy).lower (by omega),
      fun ht it xs hi hc y hy => ⟨(h5 ht it xs hi hc y hy).1, (h5 ht it xs hi hc y hy).2.lower (by omega)⟩⟩

/-! ## Against the depth of decoding -/

/-- Where validation gets through with `f` nested calls, a traversal does, in both builds. -/
theorem validateGo_read (hdbg : m.dbg = true) {m' : Mem} (hm : m' = m ∨ m' = m.rel) (F : FloatOps) (scope : Option SharedKeys)
    (f : Nat) (a w : Bool) (v : Val) (de : Nat)
    (hok : validateGo m f a w v de = .ok ()) (hv : v.In m) (hde : de ≤ m.data.length) (hl : 2 ≤ v.len)
    (ha : a = true → ∃ r, v.requiredSize m = .ok r ∧ r ≤ v.len) (e : Val) (he : resolve m w v = .ok e) :
    ∀ g, f ≤ g → (readTree m' F scope g e).Safe := by
  have type_eq : ∀ x : Val, x.type m' = x.type m := by rcases hm with rfl | rfl <;> intro x <;> rfl
  induction f generalizing a w v de e with
  | zero => cases hok
  | succ f ih =>
    intro g hg
    obtain ⟨g, rfl⟩ : ∃ k, g = k + 1 := ⟨g - 1, by omega⟩
    obtain ⟨e', he', hd⟩ := validateGo_deep hdbg (f + 1) a w v de hok hv hde hl ha
    rw [he] at he'; cases he'
    have hd : DeepOK m' e := by
      rcases hm with rfl | rfl
      · exact hd
      · exact hd.rel hdbg
    unfold validateGo at hok
    obtain ⟨t, ht, hok⟩ := bind_eq_ok.mp hok
    have arr : (t = .array ∨ t = .dict) → arrayValidate m (fun w => validateGo m f true w) v de = .ok () →
        (readTree m' F scope (g + 1) e).Safe := by
      intro had hok
      rw [resolve_of_not_pointer _ ht (by rcases had with rfl | rfl <;> simp)] at he
      cases he
      obtain ⟨wd, n, fp, hwd, hn, hfp, hmul, hadd, hle, hok⟩ := arrayValidate_ok hdbg hok
      obtain ⟨w', n', fp', hc, hel⟩ := hd.coll_of ((type_eq _).trans ht) had
      have e1 : wd = w' := by
        have e1 : v.isWide m' = .ok wd := by rcases hm with rfl | rfl <;> exact hwd
        rw [hc.wide] at e1; cases e1; rfl
      have e2 : n = n' := by
        have e1 : v.arrayLen m' = .ok n := by
          rcases hm with rfl | rfl
          · exact hn
          · exact LePanic.ok (arrayLen_prof hdbg) hn
        rw [hc.len] at e1; cases e1; rfl
      have e3 : fp = fp' := by
        have e1 : v.firstPos m' = .ok fp := by
          rcases hm with rfl | rfl
          · exact hfp
          · exact LePanic.ok (firstPos_prof hdbg) hfp
        rw [hc.first] at e1; cases e1; rfl
      subst e1 e2 e3
      have key : ∀ i x, i < n → resolve m' wd (slotAt (v.pos + fp) (wof wd) i) = .ok x → (readTree m' F scope g x).Safe := by
        intro i x hi hx
        obtain ⟨e, h1, h2⟩ := validateElems_ok hok i hi
        obtain ⟨rfl, hin, hw2, r, hr, hrw⟩ := fromRaw_ok h1
        have hiw : (i + 1) * wof wd ≤ n * wof wd := Nat.mul_le_mul_right _ hi
        rw [Nat.add_mul] at hiw
        obtain ⟨x', hx', _⟩ := validateGo_deep hdbg f true wd _ _ h2 hin (by omega) hw2 (fun _ => ⟨r, hr, hrw⟩)
        have hxx : resolve m' wd (slotAt (v.pos + fp) (wof wd) i) = .ok x' := by
          rcases hm with rfl | rfl
          · exact hx'
          · exact LePanic.ok (resolve_prof hdbg _ _) hx'
        rw [hx] at hxx; cases hxx
        exact ih true wd _ _ h2 hin (by omega) hw2 (fun _ => ⟨r, hr, hrw⟩) x hx' g (by omega)
      unfold readTree
      rw [type_eq, ht]
      simp only [ok_bind]
      rcases had with rfl | rfl
      · dsimp only
        rw [hc.iter]
        simp only [ok_bind]
        exact Safe.bind (hc.collect_safe _ hel key _ _ (by simp [iterAt])) fun _ _ => trivial
      · dsimp only
        unfold Val.dictIter
        rw [hc.iter]
        simp only [ok_bind]
        exact Safe.bind (hc.collectDict_safe scope _ hel key _ _ (by simp [iterAt])) fun _ _ => trivial
    cases t
    case array => exact arr (Or.inl rfl) hok
    case dict => exact arr (Or.inr rfl) hok
    case pointer =>
      dsimp only at hok
      obtain ⟨tg, htg, hok⟩ := bind_eq_ok.mp hok
      obtain ⟨hin, hbefore, hl2, _, tt, htt, hnp⟩ := derefChecked_ok htg
      have htg' : resolve m w v = .ok tg := by simp [resolve, ht, derefUnchecked_eq htg]
      rw [he] at htg'; cases htg'
      exact ih false w e v.pos hok hin (by unfold Val.In at hv; omega) hl2 (by simp) e (resolve_of_not_pointer w htt hnp) _ (by omega)
    all_goals
      rw [resolve_of_not_pointer _ ht (by simp)] at he
      cases he
      unfold readTree
      rw [type_eq, ht]
      simp only [ok_bind]
      first
        | trivial
        | exact Safe.bind (hd.toInt_safe F) (by simp)
        | exact Safe.bind (hd.toUnsignedInt_safe F) (by simp)
        | exact Safe.bind (hd.toDouble_safe F) (by simp)
        | exact Safe.bind (toStr_safe hd.inb) (by simp)
        | exact Safe.bind (toData_safe hd.inb) (by simp)

/-- A decoded document is no deeper than decoding was. -/
theorem fromBytesGo_height (hdbg : m.dbg = true) {m' : Mem} (hm : m' = m ∨ m' = m.rel) {f D : Nat} {v : Val} {t : Tree}
    (hok : fromBytesGo m f = .ok v) (h : readTree m' F scope D v = .ok t) : t.height ≤ f := by
  unfold fromBytesGo at hok
  obtain ⟨r, hr, hok⟩ := bind_eq_ok.mp hok
  obtain ⟨u, hu, hok⟩ := bind_eq_ok.mp hok
  cases hok
  obtain ⟨hin, hlt, hl2, _, ty, ht, hnp⟩ := findRoot_ok hr
  have hs := (safe_iff _).mp (validateGo_read hdbg hm F scope f _ _ _ _ hu hin (Nat.le_refl _) hl2 (by simp) _
    (resolve_of_not_pointer _ ht hnp) f (Nat.le_refl _))
  by_cases hle : t.height ≤ f
  · exact hle
  · rw [readTree_exact h f, if_neg hle] at hs
    exact absurd rfl hs.2

end Fleece
