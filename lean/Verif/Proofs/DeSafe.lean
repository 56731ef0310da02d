import Verif.Spec.Asks
import Verif.Proofs.DebugSafe
import Verif.Proofs.DeTy

/-! # Deserializing deeply valid values -/

namespace Fleece
open Res

theorem Res.Fine.read {α : Type} {p : Prop} {x : R α} (h : x.Fine p) : (D.read x).Fine p := by
  cases x with
  | ok a => exact .ok
  | err e => exact .err
  | panic => exact .panic
  | ub => exact absurd rfl h.1
  | diverge => exact .diverge fun hp => h.2 hp rfl

theorem Res.Safe.fread {α : Type} {p : Prop} {x : R α} (h : x.Safe) : (D.read x).Fine p := (Fine.of_safe h).read

theorem dread_eq_ok {α : Type} {x : R α} {a : α} : D.read x = .ok a ↔ x = .ok a := by
  cases x <;> simp [D.read]

theorem DeepOK.new {X : DeCtx} {e : Val} (h : DeepOK X.m e) (w k : Bool) : De.new X e w k = .ok ⟨e, k⟩ := by
  obtain ⟨t, ht, hp⟩ := h.not_pointer
  exact new_ok ht hp w k

theorem DeepOK.any_fine {X : DeCtx} {v : Val} (h : DeepOK X.m v) (k : Bool) {p : Prop} : (De.any X ⟨v, k⟩).Fine p := by
  unfold De.any
  obtain ⟨t, ht, hp⟩ := h.not_pointer
  simp only [ht, dread_ok, ok_bind]
  have hcoll : t = .array ∨ t = .dict → ∃ it, v.iter X.m = .ok it := fun had => by
    obtain ⟨w, n, fp, hc, _⟩ := h.coll_of ht had
    exact ⟨_, hc.iter⟩
  cases t <;> first
    | exact .ok
    | contradiction
    | exact (h.toBool_safe X.F).fread.bind fun _ _ => .ok
    | exact (h.toInt_safe X.F).fread.bind fun _ _ => .ok
    | exact (h.toUnsignedInt_safe X.F).fread.bind fun _ _ => .ok
    | exact (h.toFloat_safe X.F).fread.bind fun _ _ => .ok
    | exact (h.toDouble_safe X.F).fread.bind fun _ _ => .ok
    | exact (toStr_safe h.inb).fread.bind fun _ _ => .ok
    | exact (toData_safe h.inb).fread.bind fun _ _ => .ok
    | (obtain ⟨it, hit⟩ := hcoll (Or.inl rfl); simp only [hit]; exact .ok)
    | (obtain ⟨it, hit⟩ := hcoll (Or.inr rfl); unfold Val.dictIter; simp only [hit]; exact .ok)
    | skip
  dsimp only
  cases k
  · simp only [Bool.false_eq_true, if_false]
    exact (h.toShort_safe X.F).fread.bind fun _ _ => .ok
  · simp only [if_true]
    refine (h.toUnsignedShort_safe X.F).fread.bind fun n _ => ?_
    cases X.scope.bind (·.decode n)
    · exact .err
    · exact .ok

theorem any_seq_inv {X : DeCtx} {d : De} {it : Iter} (h : d.any X = .ok (.seq it)) :
    d.v.type X.m = .ok .array ∧ d.v.iter X.m = .ok it := by
  unfold De.any at h
  obtain ⟨t, ht, h⟩ := bind_eq_ok.mp h
  rw [dread_eq_ok] at ht
  suffices t = .array ∧ d.v.iter X.m = .ok it from ⟨by rw [ht, this.1], this.2⟩
  cases t <;> dsimp only at h <;> first
    | (cases h; done)
    | (obtain ⟨a, ha, h⟩ := bind_eq_ok.mp h; rw [dread_eq_ok] at ha; cases h; first | exact ⟨rfl, ha⟩ | done)
    | skip
  split at h
  · obtain ⟨a, ha, h⟩ := bind_eq_ok.mp h
    split at h <;> cases h
  · obtain ⟨a, ha, h⟩ := bind_eq_ok.mp h; cases h

theorem any_map_inv {X : DeCtx} {d : De} {it : Iter} (h : d.any X = .ok (.map it)) :
    d.v.type X.m = .ok .dict ∧ d.v.iter X.m = .ok it := by
  unfold De.any at h
  obtain ⟨t, ht, h⟩ := bind_eq_ok.mp h
  rw [dread_eq_ok] at ht
  suffices t = .dict ∧ d.v.iter X.m = .ok it from ⟨by rw [ht, this.1], this.2⟩
  cases t <;> dsimp only at h <;> first
    | (cases h; done)
    | (obtain ⟨a, ha, h⟩ := bind_eq_ok.mp h; rw [dread_eq_ok] at ha; cases h; first | exact ⟨rfl, ha⟩ | done)
    | skip
  split at h
  · obtain ⟨a, ha, h⟩ := bind_eq_ok.mp h
    split at h <;> cases h
  · obtain ⟨a, ha, h⟩ := bind_eq_ok.mp h; cases h

theorem seq_inv {X : DeCtx} {d : De} {it : Iter} (h : d.seq X = .ok it) :
    d.v.type X.m = .ok .array ∧ d.v.iter X.m = .ok it := by
  unfold De.seq at h
  obtain ⟨a, ha, h⟩ := bind_eq_ok.mp h
  rw [dread_eq_ok] at ha
  cases a with
  | none => cases h
  | some a =>
    have : a = d.v := by
      unfold Val.asArray at ha
      obtain ⟨t, _, ha⟩ := bind_eq_ok.mp ha
      split at ha <;> cases ha; rfl
    subst this
    exact ⟨asArray_type ha, dread_eq_ok.mp h⟩

theorem map_inv {X : DeCtx} {d : De} {it : Iter} (h : d.map X = .ok it) :
    d.v.type X.m = .ok .dict ∧ d.v.iter X.m = .ok it := by
  unfold De.map at h
  obtain ⟨a, ha, h⟩ := bind_eq_ok.mp h
  rw [dread_eq_ok] at ha
  cases a with
  | none => cases h
  | some a =>
    have : a = d.v := by
      unfold Val.asDict at ha
      obtain ⟨t, _, ha⟩ := bind_eq_ok.mp ha
      split at ha <;> cases ha; rfl
    subst this
    exact ⟨asDict_type ha, dread_eq_ok.mp h⟩

section
variable {X : DeCtx} {v : Val}

theorem DeepOK.seq_fine (h : DeepOK X.m v) (k : Bool) {p : Prop} : (De.seq X ⟨v, k⟩).Fine p := by
  unfold De.seq
  obtain ⟨t, ht, _⟩ := h.not_pointer
  unfold Val.asArray
  simp only [ht, ok_bind]
  split
  · rename_i hh; subst hh
    obtain ⟨w, n, fp, hc, _⟩ := h.coll_of ht (Or.inl rfl)
    simp only [pure_eq, dread_ok, ok_bind, hc.iter]; exact .ok
  · exact .err

theorem DeepOK.map_fine (h : DeepOK X.m v) (k : Bool) {p : Prop} : (De.map X ⟨v, k⟩).Fine p := by
  unfold De.map
  obtain ⟨t, ht, _⟩ := h.not_pointer
  unfold Val.asDict
  simp only [ht, ok_bind]
  split
  · rename_i hh; subst hh
    obtain ⟨w, n, fp, hc, _⟩ := h.coll_of ht (Or.inr rfl)
    unfold Val.dictIter
    simp only [pure_eq, dread_ok, ok_bind, hc.iter]; exact .ok
  · exact .err

variable {w : Bool} {n fp : Nat}

/-- Position `i` of the iterator. -/
theorem Coll.next_cases (h : Coll X.m v w n fp) (he : Elems X.m v w n fp) (i : Nat) (k : Bool) :
    (∃ e, v.Elem X.m i e ∧ DeepOK X.m e ∧ De.next X (iterAt (v.pos + fp) (wof w) n i) k
        = .ok (some ⟨e, k⟩, iterAt (v.pos + fp) (wof w) n (i + 1))) ∨
    (n ≤ i ∧ De.next X (iterAt (v.pos + fp) (wof w) n i) k = .ok (none, iterAt (v.pos + fp) (wof w) n i)) := by
  by_cases hi : i < n
  · obtain ⟨e, h1, h2⟩ := he i hi
    exact Or.inl ⟨e, ⟨n, h.len, hi, by rw [h.getUnchecked hi, h1]⟩, h2, next_ok (h.step hi h1) h2.not_pointer k⟩
  · exact Or.inr ⟨by omega, next_none (iterAt_step_end hi) k⟩

theorem Elem.lt (h : Coll X.m v w n fp) {i : Nat} {e : Val} (he : v.Elem X.m i e) : i < n := by
  obtain ⟨n', h1, h2, _⟩ := he
  rw [h.len] at h1; cases h1; exact h2

theorem Coll.all_fine {α : Type} (h : Coll X.m v w n fp) (he : Elems X.m v w n fp) {p : Prop} {f : De → D α}
    (hf : ∀ i e, v.Elem X.m i e → (f ⟨e, false⟩).Fine p) : ∀ (k i : Nat), n - i < k →
    (De.all X f k (iterAt (v.pos + fp) (wof w) n i)).Fine p
  | 0, _ => fun hk => by omega
  | k + 1, i => fun hk => by
    unfold De.all
    rcases h.next_cases he i false with ⟨e, hel, _, h1⟩ | ⟨_, h1⟩
    · have := Elem.lt h hel
      rw [h1]
      simp only [ok_bind]
      exact (hf i e hel).bind fun _ _ => (all_fine h he hf k (i + 1) (by omega)).bind fun _ _ => .ok
    · rw [h1]; exact .ok

theorem Coll.each_fine {α : Type} (h : Coll X.m v w n fp) (he : Elems X.m v w n fp) {p : Prop} {f : Ty → De → D α} :
    ∀ (ts : List Ty) (i : Nat), (∀ j t e, ts[j]? = some t → v.Elem X.m (i + j) e → (f t ⟨e, false⟩).Fine p) →
    (De.each X f ts (iterAt (v.pos + fp) (wof w) n i)).Fine p
  | [], _ => fun _ => .ok
  | t :: ts, i => fun hf => by
    unfold De.each
    rcases h.next_cases he i false with ⟨e, hel, _, h1⟩ | ⟨_, h1⟩
    · rw [h1]
      simp only [ok_bind]
      exact (hf 0 t e rfl hel).bind fun _ _ => (each_fine h he ts (i + 1) fun j t e ht hel =>
        hf (j + 1) t e ht (by rw [show i + (j + 1) = i + 1 + j by omega]; exact hel)).bind fun _ _ => .ok
    · rw [h1]; exact .err

theorem Coll.pairs_fine {α β : Type} (h : Coll X.m v w n fp) (he : Elems X.m v w n fp) {p : Prop} {fk : De → D α}
    {fv : α → De → D β} (hk : ∀ i e, v.Elem X.m i e → DeepOK X.m e → (fk ⟨e, true⟩).Fine p)
    (hv : ∀ i e a, v.Elem X.m (2 * i + 1) e → (fv a ⟨e, false⟩).Fine p) : ∀ (k i : Nat), n - 2 * i < k →
    (De.pairs X fk fv k (iterAt (v.pos + fp) (wof w) n (2 * i))).Fine p
  | 0, _ => fun hk => by omega
  | k + 1, i => fun hlt => by
    unfold De.pairs
    rcases h.next_cases he (2 * i) true with ⟨e, hel, hd, h1⟩ | ⟨_, h1⟩
    · have := Elem.lt h hel
      rw [h1]
      simp only [ok_bind]
      refine (hk _ e hel hd).bind fun a _ => ?_
      unfold De.nextValue
      rcases h.next_cases he (2 * i + 1) false with ⟨e', hel', _, h2⟩ | ⟨_, h2⟩
      · rw [h2]
        simp only [ok_bind, pure_eq]
        refine (hv i e' a hel').bind fun b _ => ?_
        exact (pairs_fine h he hk hv k (i + 1) (by omega)).bind fun _ _ => .ok
      · rw [h2]; exact .err
    · rw [h1]; exact .ok

theorem DeepOK.ident_fine (h : DeepOK X.m v) (names : List RStr) (k : Bool) {p : Prop} :
    (De.ident X names ⟨v, k⟩).Fine p := by
  unfold De.ident
  refine (h.any_fine k).bind fun a _ => ?_
  cases a <;> first | exact .ok | exact .err

/-- Skipping a deeply valid value. -/
theorem DeepOK.ignore_fine (h : DeepOK X.m v) : ∃ N, ∀ fuel k, (De.ignore X fuel ⟨v, k⟩).Fine (N ≤ fuel) := by
  induction h with
  | @scalar v t r hin len ty na nd np req fits =>
    have h : DeepOK X.m v := .scalar hin len ty na nd np req fits
    refine ⟨1, fun fuel k => ?_⟩
    cases fuel with
    | zero => exact .diverge (by omega)
    | succ fuel =>
      unfold De.ignore
      refine (h.any_fine k).bind fun a ha => ?_
      cases a <;> first
        | exact .ok
        | (have := (any_seq_inv ha).1; rw [ty] at this; cases this; contradiction)
        | (have := (any_map_inv ha).1; rw [ty] at this; cases this; contradiction)
  | @coll v t w n fp hin ty ad wide len first small fits slots elems ih =>
    have h : DeepOK X.m v := .coll hin ty ad wide len first small fits slots elems
    have hc : Coll X.m v w n fp := ⟨hin, wide, len, first, small, fits⟩
    have he : Elems X.m v w n fp := fun i hi => by
      obtain ⟨e, h1⟩ := slots i hi; exact ⟨e, h1, elems i e hi h1⟩
    obtain ⟨N, hN⟩ := exists_bound n
      (fun i f => ∀ e, v.Elem X.m i e → ∀ fuel k, (De.ignore X fuel ⟨e, k⟩).Fine (f ≤ fuel))
      (fun i f g hfg hp e he fuel k => (hp e he fuel k).mono (by omega))
      (fun i hi => by
        obtain ⟨e, h1⟩ := slots i hi
        obtain ⟨f, hf⟩ := ih i e hi h1
        refine ⟨f, fun e' he' => ?_⟩
        obtain ⟨_, _, _, hg⟩ := he'
        rw [hc.getUnchecked hi, h1] at hg; cases hg; exact hf)
    refine ⟨N + 1, fun fuel k => ?_⟩
    cases fuel with
    | zero => exact .diverge (by omega)
    | succ fuel =>
      have hf : ∀ i e, v.Elem X.m i e → ∀ k, (De.ignore X fuel ⟨e, k⟩).Fine (N + 1 ≤ fuel + 1) :=
        fun i e hel k => (hN i (Elem.lt hc hel) e hel fuel k).mono (by omega)
      unfold De.ignore
      refine (h.any_fine k).bind fun a ha => ?_
      cases a <;> first
        | exact .ok
        | skip
      · have hit := (any_seq_inv ha).2
        rw [hc.iter] at hit; cases hit
        dsimp only
        exact (hc.all_fine he (fun i e hel => hf i e hel false) _ 0 (by simp [iterAt])).bind fun _ _ => .ok
      · have hit := (any_map_inv ha).2
        rw [hc.iter] at hit; cases hit
        dsimp only
        exact (hc.pairs_fine he (fun i e hel _ => hf i e hel true) (fun i e _ hel => hf _ e hel false) _ 0
          (by simp [iterAt])).bind fun _ _ => .ok

theorem Coll.fields_fine (h : Coll X.m v w n fp) (he : Elems X.m v w n fp) {p : Prop} {fuel : Nat}
    {f : Ty → De → D SVal} {fs : List (RStr × Ty)}
    (hig : ∀ i e, v.Elem X.m i e → (De.ignore X fuel ⟨e, false⟩).Fine p)
    (hf : ∀ i k t e, (k, t) ∈ fs → v.Elem X.m (2 * i + 1) e → (f t ⟨e, false⟩).Fine p) :
    ∀ (k i : Nat) (got : List (Option SVal)), n - 2 * i < k →
    (De.fields X fuel f fs k (iterAt (v.pos + fp) (wof w) n (2 * i)) got).Fine p
  | 0, _, _ => fun hk => by omega
  | k + 1, i, got => fun hlt => by
    unfold De.fields
    rcases h.next_cases he (2 * i) true with ⟨e, hel, hd, h1⟩ | ⟨_, h1⟩
    · have := Elem.lt h hel
      rw [h1]
      simp only [ok_bind]
      refine (hd.ident_fine _ true).bind fun a _ => ?_
      have hv : (∃ e', v.Elem X.m (2 * i + 1) e' ∧ De.nextValue X (iterAt (v.pos + fp) (wof w) n (2 * i + 1))
          = .ok (⟨e', false⟩, iterAt (v.pos + fp) (wof w) n (2 * (i + 1)))) ∨
          De.nextValue X (iterAt (v.pos + fp) (wof w) n (2 * i + 1)) = .err .keyWithoutValue := by
        unfold De.nextValue
        rcases h.next_cases he (2 * i + 1) false with ⟨e', hel', _, h2⟩ | ⟨_, h2⟩
        · exact Or.inl ⟨e', hel', by rw [h2]; rfl⟩
        · exact Or.inr (by rw [h2]; rfl)
      cases a with
      | none =>
        dsimp only
        rcases hv with ⟨e', hel', h2⟩ | h2
        · rw [h2]
          simp only [ok_bind]
          exact (hig _ e' hel').bind fun _ _ => fields_fine h he hig hf k (i + 1) got (by omega)
        · rw [h2]; exact .err
      | some j =>
        dsimp only
        split
        · rename_i kk t hfs _
          rcases hv with ⟨e', hel', h2⟩ | h2
          · rw [h2]
            simp only [ok_bind]
            exact (hf i kk t e' (List.mem_of_getElem? hfs) hel').bind fun _ _ =>
              fields_fine h he hig hf k (i + 1) _ (by omega)
          · rw [h2]; exact .err
        · exact .err
    · rw [h1]; exact .ok

theorem build_fine {p : Prop} : ∀ (fs : List (RStr × Ty)) (got : List (Option SVal)), (De.build X fs got).Fine p
  | [], got => by cases got <;> exact .ok
  | (k, t) :: fs, [] => .ok
  | (k, t) :: fs, some v :: got => by
    unfold De.build
    exact (build_fine fs got).bind fun _ _ => .ok
  | (k, t) :: fs, none :: got => by
    unfold De.build
    split
    · exact (build_fine fs got).bind fun _ _ => .ok
    · exact .err

/-! ## Enums -/

theorem DeepOK.format_fine (h : DeepOK X.m v) (ht : v.type X.m = .ok .array) :
    ∃ N, ∀ fuel, (De.format X fuel v).Fine (N ≤ fuel) := by
  obtain ⟨N, hN⟩ := h.debugArray_fine ⟨fun _ => [], fun _ => true⟩ X.F X.scope ht
  exact ⟨N, fun fuel => (hN fuel).read.bind fun _ _ => .ok⟩

theorem badLayout_fine {α : Type} {p : Prop} {fuel : Nat} (h : (De.format X fuel v).Fine p) :
    (De.badLayout (α := α) X fuel v).Fine p := h.bind fun _ _ => .err

/-- `array.get(i)` below the length. -/
theorem Coll.elem_cases (h : Coll X.m v w n fp) (he : Elems X.m v w n fp) {i : Nat} (hi : i < n) :
    ∃ e, v.Elem X.m i e ∧ DeepOK X.m e ∧ ∀ fuel, De.elem X fuel v i = (do De.format X fuel v; pure e) := by
  obtain ⟨e, h1, h2⟩ := h.get_elem he hi
  refine ⟨e, ⟨n, h.len, hi, h1⟩, h2, fun fuel => ?_⟩
  unfold De.elem Val.get
  simp only [h.len, ok_bind, h1]
  rw [if_neg (by omega)]
  simp only [pure_eq, dread_ok, ok_bind]

theorem Elem.eq {m : Mem} {i : Nat} {e e' : Val} (h : v.Elem m i e) (h' : v.Elem m i e') : e = e' := by
  obtain ⟨_, _, _, h1⟩ := h
  obtain ⟨_, _, _, h2⟩ := h'
  rw [h1] at h2; cases h2; rfl

/-- The first element names a variant. -/
theorem ident_inv {names : List RStr} {e : Val} {i : Nat} (h : De.ident X names ⟨e, false⟩ = .ok (some i)) :
    e.type X.m = .ok .unsignedInt ∨ ∃ k, names[i]? = some k ∧ (e.toStr X.m = .ok k.bytes ∨ e.toData X.m = .ok k.bytes) := by
  unfold De.ident at h
  obtain ⟨a, ha, h⟩ := bind_eq_ok.mp h
  have hidx : ∀ s : List UInt8, (names.findIdx? fun n => decide (n.bytes = s)) = some i →
      ∃ k, names[i]? = some k ∧ k.bytes = s := by
    intro s hs
    rw [List.findIdx?_eq_some_iff_getElem] at hs
    obtain ⟨hi, hp, _⟩ := hs
    exact ⟨names[i], List.getElem?_eq_getElem hi, by simpa using hp⟩
  unfold De.any at ha
  obtain ⟨t, ht, ha⟩ := bind_eq_ok.mp ha
  rw [dread_eq_ok] at ht
  cases t
  case string =>
    right
    obtain ⟨b, hb, ha⟩ := bind_eq_ok.mp ha
    rw [dread_eq_ok] at hb
    cases ha
    obtain ⟨k, h1, h2⟩ := hidx b (by simpa using h)
    exact ⟨k, h1, Or.inl (by rw [hb, h2])⟩
  case data =>
    right
    obtain ⟨b, hb, ha⟩ := bind_eq_ok.mp ha
    rw [dread_eq_ok] at hb
    cases ha
    obtain ⟨k, h1, h2⟩ := hidx b (by simpa using h)
    exact ⟨k, h1, Or.inr (by rw [hb, h2])⟩
  case unsignedInt => exact Or.inl ht
  case pointer => cases ha
  case short =>
    simp only [Bool.false_eq_true, if_false] at ha
    obtain ⟨b, hb, ha⟩ := bind_eq_ok.mp ha; cases ha; cases h
  all_goals
    dsimp only at ha
    first
      | (cases ha; cases h; done)
      | (obtain ⟨b, hb, ha⟩ := bind_eq_ok.mp ha; cases ha; cases h; done)

theorem DeepOK.hasKeys_fine (h : DeepOK X.m v) (ht : v.asDict X.m = .ok (some v)) {p : Prop} :
    ∀ ks, (De.hasKeys X v ks).Fine p
  | [] => .ok
  | k :: ks => by
    have hall := ((h.everyCall X.F X.scope).dict ht).2.2.2.2 k.bytes
    have hnone := ((h.everyCall X.F none).dict ht).2.2.2.2 k.bytes
    have hrest : ∀ b : Bool, (if b = true then De.hasKeys X v ks else pure false).Fine p := fun b => by
      split
      · exact hasKeys_fine h ht ks
      · exact .ok
    unfold De.hasKeys
    cases hs : X.scope with
    | none => exact hnone.2.1.fread.bind fun b _ => hrest b
    | some sk => exact (hall.2.2 sk).fread.bind fun b _ => hrest b.isSome

/-! ## All types -/

theorem Meets.head {ty ty' ty'' : Ty} {v v' v'' : Val} (h : Asks X ty v ty' v') (hm : Meets X ty' v' ty'' v'') :
    Meets X ty v ty'' v'' := by
  induction hm with
  | refl => exact .step .refl h
  | step _ ha ih => exact .step ih ha

/-- Wherever an enum is read there is enough room. -/
def Roomy (X : DeCtx) (ty : Ty) (v : Val) : Prop := ∀ vs a, Meets X ty v (.enum vs) a → EnumRoom X.m vs a

theorem Roomy.step {ty ty' : Ty} {v v' : Val} (h : Roomy X ty v) (ha : Asks X ty v ty' v') : Roomy X ty' v' :=
  fun vs a hm => h vs a (Meets.head ha hm)

/-- Deserializing `v` as `ty`. -/
def DeFine (X : DeCtx) (ty : Ty) (v : Val) : Prop := ∃ N, ∀ fuel k, (Ty.de X fuel ty ⟨v, k⟩).Fine (N ≤ fuel)

/-- A bound for all elements of a list. -/
theorem bound_mem {α : Type} {P : α → Nat → Prop} (hmono : ∀ a f g, f ≤ g → P a f → P a g) :
    ∀ (l : List α), (∀ a ∈ l, ∃ N, P a N) → ∃ N, ∀ a ∈ l, P a N
  | [], _ => ⟨0, nofun⟩
  | a :: l, h => by
    obtain ⟨N, hN⟩ := h a (by simp)
    obtain ⟨M, hM⟩ := bound_mem hmono l fun b hb => h b (by simp [hb])
    refine ⟨max N M, fun b hb => ?_⟩
    rcases List.mem_cons.mp hb with rfl | hb
    · exact hmono _ _ _ (Nat.le_max_left _ _) hN
    · exact hmono _ _ _ (Nat.le_max_right _ _) (hM b hb)

/-- From the elements to a bound for all of them. -/
theorem Coll.elem_bound (h : Coll X.m v w n fp) {ty : Ty} {Q : Nat → Prop}
    (hf : ∀ i e, Q i → v.Elem X.m i e → DeFine X ty e) :
    ∃ N, ∀ i e, Q i → v.Elem X.m i e → ∀ fuel k, (Ty.de X fuel ty ⟨e, k⟩).Fine (N ≤ fuel) := by
  obtain ⟨N, hN⟩ := exists_bound n
    (fun i f => ∀ e, Q i → v.Elem X.m i e → ∀ fuel k, (Ty.de X fuel ty ⟨e, k⟩).Fine (f ≤ fuel))
    (fun i f g hfg hp e hq he fuel k => (hp e hq he fuel k).mono (by omega))
    (fun i hi => by
      by_cases hex : ∃ e, Q i ∧ v.Elem X.m i e
      · obtain ⟨e, hq, he⟩ := hex
        obtain ⟨f, hf⟩ := hf i e hq he
        exact ⟨f, fun e' _ he' => by rw [Elem.eq he' he]; exact hf⟩
      · exact ⟨0, fun e hq he => absurd ⟨e, hq, he⟩ hex⟩)
  exact ⟨N, fun i e hq he => hN i (Elem.lt h he) e hq he⟩

theorem Res.Fine.of_bind {ε α β : Type} {p : Prop} {x : Res ε α} {f : α → Res ε β} (h : (x >>= f).Fine p) : x.Fine p := by
  cases x with
  | ok a => exact .ok
  | err e => exact .err
  | panic => exact .panic
  | ub => exact absurd rfl h.1
  | diverge => exact .diverge fun hp => h.2 hp rfl

/-- The type of the data of a variant. -/
def Variant.ty : Variant → Ty
  | .unit => .unit
  | .newtype t => t
  | .tuple ts => .tuple ts
  | .struct fs => .struct fs

theorem asks_variant {vs : List (RStr × Variant)} {k : RStr} {d : Variant} {e : Val} (hm : (k, d) ∈ vs) (hd : d ≠ .unit)
    (he : v.Elem X.m 1 e) : Asks X (.enum vs) v d.ty e := by
  cases d with
  | unit => exact absurd rfl hd
  | newtype t => exact .newtypeVariant hm he
  | tuple ts => exact .tupleVariant hm he
  | struct fs => exact .structVariant hm he

theorem Coll.part_fine {fuel i : Nat} {p : Prop} (hc : Coll X.m v w n fp)
    (hfmt : (De.format X fuel v).Fine p) {e : Val} (hd : DeepOK X.m e)
    (hel : De.elem X fuel v i = (do De.format X fuel v; pure e)) {β : Type} {g : De → D β}
    (hg : (g ⟨e, false⟩).Fine p) : (De.part X fuel v i >>= g).Fine p := by
  unfold De.part
  rw [hel]
  cases hf : De.format X fuel v with
  | ok u =>
    simp only [ok_bind, pure_eq, hc.wide, dread_ok, hd.new]
    exact hg
  | err e => exact .err
  | panic => exact .panic
  | ub => exact absurd hf hfmt.1
  | diverge => exact .diverge fun hp => hfmt.2 hp hf

theorem Coll.tupleVariant_fine {fuel N : Nat} (hc : Coll X.m v w n fp) {ts : List Ty}
    (hfmt : (De.format X fuel v).Fine (N ≤ fuel)) {e : Val} (hd : DeepOK X.m e)
    (hel : De.elem X fuel v 1 = (do De.format X fuel v; pure e))
    (hde : ∀ fuel k, (Ty.de X fuel (.tuple ts) ⟨e, k⟩).Fine (N ≤ fuel)) :
    (De.tupleVariant X fuel (Ty.de X fuel) v ts).Fine (N ≤ fuel) := by
  unfold De.tupleVariant
  rw [hel]
  refine Fine.bind (hfmt.bind fun _ _ => .ok) fun e' he' => ?_
  have : e' = e := by
    obtain ⟨_, _, h2⟩ := bind_eq_ok.mp he'
    cases h2; rfl
  subst this
  obtain ⟨t, ht, _⟩ := hd.not_pointer
  unfold Val.asArray
  simp only [ht, ok_bind]
  by_cases hta : t = .array
  · subst hta
    obtain ⟨w', n', fp', hc', he2⟩ := hd.coll_of ht (Or.inl rfl)
    simp only [if_true, pure_eq, dread_ok, ok_bind, hc'.len]
    split
    · simp only [hc.wide, dread_ok, ok_bind, hd.new]
      have hseq : De.seq X ⟨e', false⟩ = .ok (iterAt (e'.pos + fp') (wof w') n' 0) := by
        unfold De.seq Val.asArray
        simp only [ht, ok_bind, if_true, pure_eq, dread_ok, hc'.iter]
      rw [hseq]
      simp only [ok_bind]
      have hany : De.any X ⟨e', false⟩ = .ok (.seq (iterAt (e'.pos + fp') (wof w') n' 0)) := by
        unfold De.any
        simp only [ht, ok_bind, dread_ok, hc'.iter, pure_eq]
      have := hde (fuel + 1) false
      unfold Ty.de at this
      simp only [hany, ok_bind] at this
      exact this.of_bind.mono (by omega)
    · exact badLayout_fine hfmt
  · rw [if_neg hta]
    exact badLayout_fine hfmt

theorem Coll.structVariant_fine {fuel N : Nat} (hc : Coll X.m v w n fp) {fs : List (RStr × Ty)}
    (hfmt : (De.format X fuel v).Fine (N ≤ fuel)) {e : Val} (hd : DeepOK X.m e)
    (hel : De.elem X fuel v 1 = (do De.format X fuel v; pure e))
    (hde : ∀ fuel k, (Ty.de X fuel (.struct fs) ⟨e, k⟩).Fine (N ≤ fuel)) :
    (De.structVariant X fuel (Ty.de X fuel) v fs).Fine (N ≤ fuel) := by
  unfold De.structVariant
  rw [hel]
  refine Fine.bind (hfmt.bind fun _ _ => .ok) fun e' he' => ?_
  have : e' = e := by
    obtain ⟨_, _, h2⟩ := bind_eq_ok.mp he'
    cases h2; rfl
  subst this
  obtain ⟨t, ht, _⟩ := hd.not_pointer
  unfold Val.asDict
  simp only [ht, ok_bind]
  by_cases hta : t = .dict
  · subst hta
    have has : e'.asDict X.m = .ok (some e') := by unfold Val.asDict; simp only [ht, ok_bind, if_true]; rfl
    obtain ⟨w', n', fp', hc', he2⟩ := hd.coll_of ht (Or.inr rfl)
    unfold Val.dictLen
    simp only [if_true, pure_eq, dread_ok, ok_bind, hc'.len]
    split
    · refine (hd.hasKeys_fine has _).bind fun b _ => ?_
      split
      · simp only [hc.wide, dread_ok, ok_bind, hd.new]
        have hmap : De.map X ⟨e', false⟩ = .ok (iterAt (e'.pos + fp') (wof w') n' 0) := by
          unfold De.map
          simp only [has, dread_ok, ok_bind]
          unfold Val.dictIter
          rw [hc'.iter]; rfl
        rw [hmap]
        simp only [ok_bind]
        have := hde (fuel + 1) false
        unfold Ty.de at this
        simp only [hmap, ok_bind] at this
        exact this.of_bind.mono (by omega)
      · exact badLayout_fine hfmt
    · exact badLayout_fine hfmt
  · rw [if_neg hta]
    exact badLayout_fine hfmt

/-- Not a reference and not an option: such a type looks only at the elements of a value. -/
def Ty.Core : Ty → Prop
  | .named _ | .option _ => False
  | _ => True

theorem Ty.Declared.core {t : Ty} (h : t.Declared) : t.Core := by
  cases t <;> first | trivial | exact absurd h id

theorem asArray_cases (h : DeepOK X.m v) : v.type X.m = .ok .array ∧ v.asArray X.m = .ok (some v) ∨
    v.asArray X.m = .ok none := by
  obtain ⟨t, ht, _⟩ := h.not_pointer
  unfold Val.asArray
  simp only [ht, ok_bind]
  by_cases hta : t = .array
  · subst hta; exact Or.inl ⟨rfl, rfl⟩
  · rw [if_neg hta]; exact Or.inr rfl

/-- Reading a value as a type that looks at its elements. -/
theorem DeepOK.core_fine {ty : Ty} (h : DeepOK X.m v) (hcore : ty.Core) (hroom : Roomy X ty v)
    (hrec : v.type X.m = .ok .array ∨ v.type X.m = .ok .dict → ∀ i e, v.Elem X.m i e → ∀ ty, Roomy X ty e → DeFine X ty e) :
    DeFine X ty v := by
  -- types that do not recurse
  have flat : (∀ fuel k {p : Prop}, (Ty.de X (fuel + 1) ty ⟨v, k⟩).Fine p) → DeFine X ty v := fun hf => by
    refine ⟨1, fun fuel k => ?_⟩
    cases fuel with
    | zero => exact .diverge (by omega)
    | succ fuel => exact hf fuel k
  have deep : ∀ N, (∀ fuel k, (Ty.de X (fuel + 1) ty ⟨v, k⟩).Fine (N ≤ fuel)) → DeFine X ty v := fun N hf => by
    refine ⟨N + 1, fun fuel k => ?_⟩
    cases fuel with
    | zero => exact .diverge (by omega)
    | succ fuel => exact (hf fuel k).mono (by omega)
  cases ty with
  | named i => exact absurd hcore id
  | option t => exact absurd hcore id
  | newtypeStruct t =>
    by_cases hta : v.type X.m = .ok .array
    · obtain ⟨w, n, fp, hc, he⟩ := h.coll_of hta (Or.inl rfl)
      obtain ⟨N, hN⟩ := hc.elem_bound (ty := t) (Q := (· = 0)) fun i e hq hel =>
        hrec (Or.inl hta) i e hel t (hroom.step (.newtypeStruct (hq ▸ hel)))
      refine deep N fun fuel k => ?_
      unfold Ty.de
      refine (h.any_fine k).bind fun a ha => ?_
      cases a <;> first
        | exact .err
        | skip
      have hit := (any_seq_inv ha).2
      rw [hc.iter] at hit; cases hit
      dsimp only
      refine (hc.each_fine he [t] 0 fun j t' e hj hel => ?_).bind fun vs _ => ?_
      · cases j with
        | zero => cases hj; exact hN _ e (by simp) hel fuel false
        | succ j => cases hj
      · cases vs
        · exact .err
        · exact .ok
    · refine flat fun fuel k {p} => ?_
      unfold Ty.de
      refine (h.any_fine k).bind fun a ha => ?_
      cases a <;> first
        | exact .err
        | exact absurd (any_seq_inv ha).1 hta
  | seq t =>
    by_cases hta : v.type X.m = .ok .array
    · obtain ⟨w, n, fp, hc, he⟩ := h.coll_of hta (Or.inl rfl)
      obtain ⟨N, hN⟩ := hc.elem_bound (ty := t) (Q := fun _ => True) fun i e _ hel =>
        hrec (Or.inl hta) i e hel t (hroom.step (.seq hel))
      refine deep N fun fuel k => ?_
      unfold Ty.de
      refine (h.seq_fine k).bind fun it ha => ?_
      have hit := (seq_inv ha).2
      rw [hc.iter] at hit; cases hit
      exact (hc.all_fine he (fun i e hel => hN i e trivial hel fuel false) _ 0 (by simp [iterAt])).bind fun _ _ => .ok
    · refine flat fun fuel k {p} => ?_
      unfold Ty.de
      refine (h.seq_fine k).bind fun it ha => absurd (seq_inv ha).1 hta
  | tuple ts =>
    by_cases hta : v.type X.m = .ok .array
    · obtain ⟨w, n, fp, hc, he⟩ := h.coll_of hta (Or.inl rfl)
      obtain ⟨N, hN⟩ := exists_bound ts.length
        (fun j N => ∀ t e, ts[j]? = some t → v.Elem X.m j e → ∀ fuel k, (Ty.de X fuel t ⟨e, k⟩).Fine (N ≤ fuel))
        (fun i f g hfg hp t e ht hel fuel k => (hp t e ht hel fuel k).mono (by omega))
        (fun j hj => by
          obtain ⟨N, hN⟩ := hc.elem_bound (ty := ts[j]) (Q := (· = j)) fun i e hq hel => by
            subst hq
            exact hrec (Or.inl hta) i e hel _ (hroom.step (.tuple (List.getElem?_eq_getElem hj) hel))
          refine ⟨N, fun t e ht hel => ?_⟩
          rw [List.getElem?_eq_getElem hj] at ht; cases ht
          exact hN j e rfl hel)
      refine deep N fun fuel k => ?_
      unfold Ty.de
      refine (h.any_fine k).bind fun a ha => ?_
      cases a <;> first
        | exact .err
        | skip
      have hit := (any_seq_inv ha).2
      rw [hc.iter] at hit; cases hit
      dsimp only
      refine (hc.each_fine he ts 0 fun j t' e hj hel => ?_).bind fun vs _ => .ok
      rw [Nat.zero_add] at hel
      exact hN j (by have := List.getElem?_eq_some_iff.mp hj; exact this.1) t' e hj hel fuel false
    · refine flat fun fuel k {p} => ?_
      unfold Ty.de
      refine (h.any_fine k).bind fun a ha => ?_
      cases a <;> first
        | exact .err
        | exact absurd (any_seq_inv ha).1 hta
  | map t =>
    by_cases hta : v.type X.m = .ok .dict
    · obtain ⟨w, n, fp, hc, he⟩ := h.coll_of hta (Or.inr rfl)
      obtain ⟨N, hN⟩ := hc.elem_bound (ty := t) (Q := fun i => ∃ j, i = 2 * j + 1) fun i e hq hel => by
        obtain ⟨j, rfl⟩ := hq
        exact hrec (Or.inr hta) _ e hel t (hroom.step (.map hel))
      refine deep (N + 1) fun fuel k => ?_
      unfold Ty.de
      refine (h.map_fine k).bind fun it ha => ?_
      have hit := (map_inv ha).2
      rw [hc.iter] at hit; cases hit
      refine (hc.pairs_fine he (fun i e hel hd => ?_)
        (fun i e _ hel => (hN _ e ⟨i, rfl⟩ hel fuel false).mono (by omega)) _ 0 (by simp [iterAt])).bind fun _ _ => .ok
      refine Fine.bind ?_ fun a _ => ?_
      · cases fuel with
        | zero => exact .diverge (by omega)
        | succ fuel =>
          unfold Ty.de
          refine (hd.any_fine true).bind fun a _ => ?_
          cases a <;> first
            | exact .err
            | (dsimp only; split <;> first | exact .ok | exact .panic | exact .err)
      · split
        · exact .ok
        · exact .err
    · refine flat fun fuel k {p} => ?_
      unfold Ty.de
      refine (h.map_fine k).bind fun it ha => absurd (map_inv ha).1 hta
  | struct fs =>
    by_cases hta : v.type X.m = .ok .dict
    · obtain ⟨w, n, fp, hc, he⟩ := h.coll_of hta (Or.inr rfl)
      obtain ⟨N, hN⟩ := bound_mem (P := fun (f : RStr × Ty) N => ∀ i e, (∃ j, i = 2 * j + 1) → v.Elem X.m i e →
          ∀ fuel k, (Ty.de X fuel f.2 ⟨e, k⟩).Fine (N ≤ fuel))
        (fun f a b hab hp i e hq hel fuel k => (hp i e hq hel fuel k).mono (by omega)) fs (fun f hf =>
          hc.elem_bound (ty := f.2) (Q := fun i => ∃ j, i = 2 * j + 1) fun i e hq hel => by
            obtain ⟨j, rfl⟩ := hq
            exact hrec (Or.inr hta) _ e hel f.2 (hroom.step (.field (k := f.1) hf hel)))
      obtain ⟨M, hM⟩ := exists_bound n
        (fun i f => ∀ e, v.Elem X.m i e → ∀ fuel, (De.ignore X fuel ⟨e, false⟩).Fine (f ≤ fuel))
        (fun i f g hfg hp e he fuel => (hp e he fuel).mono (by omega))
        (fun i hi => by
          obtain ⟨e, h1, h2⟩ := hc.get_elem he hi
          obtain ⟨f, hf⟩ := h2.ignore_fine
          refine ⟨f, fun e' he' => ?_⟩
          rw [Elem.eq he' ⟨n, hc.len, hi, h1⟩]
          exact fun fuel => hf fuel false)
      refine deep (max N M) fun fuel k => ?_
      unfold Ty.de
      refine (h.map_fine k).bind fun it ha => ?_
      have hit := (map_inv ha).2
      rw [hc.iter] at hit; cases hit
      unfold De.struct
      refine Fine.bind (Fine.bind (hc.fields_fine he
        (fun i e hel => (hM i (Elem.lt hc hel) e hel fuel).mono (by omega))
        (fun i kk t e hm hel => (hN (kk, t) hm _ e ⟨i, rfl⟩ hel fuel false).mono (by omega)) _ 0 _ (by simp [iterAt]))
        fun got _ => build_fine fs got) fun _ _ => .ok
    · refine flat fun fuel k {p} => ?_
      unfold Ty.de
      refine (h.map_fine k).bind fun it ha => absurd (map_inv ha).1 hta
  | enum vs =>
    rcases asArray_cases h with ⟨hta, has⟩ | has
    · obtain ⟨w, n, fp, hc, he⟩ := h.coll_of hta (Or.inl rfl)
      obtain ⟨n', hlen, hn1, hn2⟩ := hroom vs v .refl hta
      rw [hc.len] at hlen; cases hlen
      obtain ⟨F, hF⟩ := h.format_fine hta
      obtain ⟨N, hN⟩ := bound_mem (P := fun (f : RStr × Variant) N => f.2 ≠ .unit → ∀ e, v.Elem X.m 1 e →
          ∀ fuel k, (Ty.de X fuel f.2.ty ⟨e, k⟩).Fine (N ≤ fuel))
        (fun f a b hab hp hu e hel fuel k => (hp hu e hel fuel k).mono (by omega)) vs (fun f hf => by
          obtain ⟨N, hN⟩ := hc.elem_bound (ty := f.2.ty) (Q := fun i => i = 1 ∧ f.2 ≠ .unit) fun i e hq hel => by
            obtain ⟨rfl, hu⟩ := hq
            exact hrec (Or.inl hta) _ e hel _ (hroom.step (asks_variant (k := f.1) hf hu hel))
          exact ⟨N, fun hu e hel => hN 1 e ⟨rfl, hu⟩ hel⟩)
      obtain ⟨e0, hel0, hd0, hp0⟩ := hc.elem_cases he (show 0 < n by omega)
      refine deep (max F N) fun fuel k => ?_
      have hfmt : (De.format X fuel v).Fine (max F N ≤ fuel) := (hF fuel).mono (by omega)
      unfold Ty.de De.enum
      simp only [has, dread_ok, ok_bind]
      refine hc.part_fine hfmt hd0 (hp0 fuel) ?_
      refine (hd0.ident_fine _ false).bind fun a ha => ?_
      cases a with
      | none => exact .err
      | some i =>
        dsimp only
        cases hvs : vs[i]? with
        | none => exact .err
        | some nd =>
          obtain ⟨name, d⟩ := nd
          have hmem : (name, d) ∈ vs := List.mem_of_getElem? hvs
          -- a variant with data: there is a second element
          have second : d ≠ .unit → ∃ e1, v.Elem X.m 1 e1 ∧ DeepOK X.m e1 ∧
              De.elem X fuel v 1 = (do De.format X fuel v; pure e1) := by
            intro hu
            have : 1 < n := by
              rcases hn2 with h2 | h2
              · omega
              · exfalso
                obtain ⟨hnu, hnames⟩ := h2 e0 hel0
                rcases ident_inv ha with hu' | ⟨kk, hk1, hk2⟩
                · exact hnu hu'
                · rw [List.getElem?_map, hvs] at hk1
                  cases hk1
                  rcases hk2 with hk2 | hk2
                  · exact (hnames name d hmem hu).1 hk2
                  · exact (hnames name d hmem hu).2 hk2
            obtain ⟨e1, a1, a2, a3⟩ := hc.elem_cases he this
            exact ⟨e1, a1, a2, a3 fuel⟩
          cases d with
          | unit =>
            simp only [hc.len, dread_ok, ok_bind]
            split
            · exact .ok
            · exact badLayout_fine hfmt
          | newtype t =>
            obtain ⟨e1, a1, a2, a3⟩ := second (by simp)
            refine hc.part_fine hfmt a2 a3 ?_
            exact ((hN _ hmem (by simp) e1 a1 fuel false).mono (by omega)).bind fun _ _ => .ok
          | tuple ts =>
            obtain ⟨e1, a1, a2, a3⟩ := second (by simp)
            exact (hc.tupleVariant_fine hfmt a2 a3 fun fuel k =>
              (hN _ hmem (by simp) e1 a1 fuel k).mono (by omega)).bind fun _ _ => .ok
          | struct fs =>
            obtain ⟨e1, a1, a2, a3⟩ := second (by simp)
            exact (hc.structVariant_fine hfmt a2 a3 fun fuel k =>
              (hN _ hmem (by simp) e1 a1 fuel k).mono (by omega)).bind fun _ _ => .ok
    · refine flat fun fuel k {p} => ?_
      obtain ⟨t, ht, _⟩ := h.not_pointer
      unfold Ty.de De.enum
      simp only [has, dread_ok, ok_bind, ht]
      exact .err
  | _ =>
    refine flat fun fuel k {p} => ?_
    unfold Ty.de
    refine (h.any_fine k).bind fun a _ => ?_
    cases a <;> dsimp only <;> first
      | exact .ok
      | exact .err
      | (split <;> first | exact .ok | exact .err | exact .panic)
      | (split
         · split <;> first | exact .ok | exact .err
         · exact .panic)

theorem DeepOK.types_fine (hdecl : ∀ t ∈ X.types, t.Declared) (h : DeepOK X.m v)
    (hrec : v.type X.m = .ok .array ∨ v.type X.m = .ok .dict → ∀ i e, v.Elem X.m i e → ∀ ty, Roomy X ty e → DeFine X ty e) :
    ∀ (s : Nat) (ty : Ty), sizeOf ty = s → Roomy X ty v → DeFine X ty v := by
  intro s
  induction s using Nat.strongRecOn with
  | ind s ih =>
    intro ty hs hroom
    cases ty with
    | named i =>
      cases hd : X.types[i]? with
      | none =>
        refine ⟨1, fun fuel k => ?_⟩
        cases fuel with
        | zero => exact .diverge (by omega)
        | succ fuel => unfold Ty.de; simp only [hd]; exact .panic
      | some t =>
        obtain ⟨N, hN⟩ := h.core_fine (hdecl t (List.mem_of_getElem? hd)).core (hroom.step (.named hd)) hrec
        refine ⟨N + 1, fun fuel k => ?_⟩
        cases fuel with
        | zero => exact .diverge (by omega)
        | succ fuel => unfold Ty.de; simp only [hd]; exact (hN fuel k).mono (by omega)
    | option t =>
      obtain ⟨N, hN⟩ := ih (sizeOf t) (by subst hs; simp) t rfl (hroom.step .option)
      refine ⟨N + 1, fun fuel k => ?_⟩
      cases fuel with
      | zero => exact .diverge (by omega)
      | succ fuel =>
        unfold Ty.de
        refine (type_safe h.inb).fread.bind fun a _ => ?_
        cases a <;> first
          | exact .ok
          | exact ((hN fuel k).mono (by omega)).bind fun _ _ => .ok
    | _ => exact h.core_fine trivial hroom hrec

/-- Deserializing a deeply valid value as a type, if there is room for the enums, never reads out of bounds, and ends. -/
theorem DeepOK.de_fine (hdecl : ∀ t ∈ X.types, t.Declared) (h : DeepOK X.m v) : ∀ ty, Roomy X ty v → DeFine X ty v := by
  induction h with
  | @scalar v t r hin len ty na nd np req fits =>
    intro ty' hroom
    refine (DeepOK.scalar hin len ty na nd np req fits).types_fine hdecl (fun had => ?_) _ ty' rfl hroom
    rw [ty] at had
    rcases had with had | had <;> cases had <;> contradiction
  | @coll v t w n fp hin ty ad wide len first small fits slots elems ih =>
    intro ty' hroom
    refine (DeepOK.coll hin ty ad wide len first small fits slots elems).types_fine hdecl
      (fun _ i e hel => ?_) _ ty' rfl hroom
    have hc : Coll X.m v w n fp := ⟨hin, wide, len, first, small, fits⟩
    have hi := Elem.lt hc hel
    obtain ⟨_, _, _, hg⟩ := hel
    rw [hc.getUnchecked hi] at hg
    exact ih i e hi hg

/-! ## Types without enums -/

theorem enumFrees_mem {ts : List Ty} (h : Ty.enumFrees ts = true) {t : Ty} (ht : t ∈ ts) : t.enumFree = true := by
  induction ts with
  | nil => cases ht
  | cons a ts ih =>
    simp only [Ty.enumFrees, Bool.and_eq_true] at h
    rcases List.mem_cons.mp ht with rfl | ht
    · exact h.1
    · exact ih h.2 ht

theorem enumFreeFields_mem {fs : List (RStr × Ty)} (h : Ty.enumFreeFields fs = true) {f : RStr × Ty} (ht : f ∈ fs) :
    f.2.enumFree = true := by
  induction fs with
  | nil => cases ht
  | cons a ts ih =>
    simp only [Ty.enumFreeFields, Bool.and_eq_true] at h
    rcases List.mem_cons.mp ht with rfl | ht
    · exact h.1
    · exact ih h.2 ht

theorem Asks.enumFree {ty ty' : Ty} {v v' : Val} (hdecl : ∀ t ∈ X.types, t.enumFree = true) (h : Asks X ty v ty' v')
    (hf : ty.enumFree = true) : ty'.enumFree = true := by
  cases h with
  | named decl => exact hdecl _ (List.mem_of_getElem? decl)
  | tuple mem => exact enumFrees_mem (by simpa only [Ty.enumFree] using hf) (List.mem_of_getElem? mem)
  | field mem => exact enumFreeFields_mem (by simpa only [Ty.enumFree] using hf) mem
  | newtypeVariant => simp [Ty.enumFree] at hf
  | tupleVariant => simp [Ty.enumFree] at hf
  | structVariant => simp [Ty.enumFree] at hf
  | _ => simpa only [Ty.enumFree] using hf

theorem roomy_of_enumFree {ty : Ty} (hdecl : ∀ t ∈ X.types, t.enumFree = true) (hf : ty.enumFree = true) : Roomy X ty v := by
  have : ∀ ty' v', Meets X ty v ty' v' → ty'.enumFree = true := fun ty' v' h => by
    induction h with
    | refl => exact hf
    | step _ ha ih => exact ha.enumFree hdecl ih
  intro vs a hm
  have := this _ _ hm
  simp [Ty.enumFree] at this

end

end Fleece
