import Verif.Proofs.RepRoot
import Verif.Spec.Cost

/-! # How deep the validator recurses (C54) -/

namespace Fleece
open Res

variable {P : List UInt8 → Prop}

/-! ## Any input -/

/-- Bound of the depth still to come: of a value that ends before `de`, and of an element at `pos`. -/
def dmeasure (isArr : Bool) (de pos : Nat) : Nat :=
  if isArr then (if de ≤ pos + 2 then 3 * pos / 2 + 2 else 3 * pos / 2 + 6) else 3 * de / 2 + 1

theorem validateGo_safe_linear (m : Mem) (hdbg : m.dbg = true) (fuel : Nat) (isArr wide : Bool) (v : Val) (de : Nat)
    (hv : v.In m) (hpos : v.pos < de) (hde : de ≤ m.data.length) (harr : isArr = true → de ≤ v.pos + 4)
    (hfuel : dmeasure isArr de v.pos ≤ fuel) : (validateGo m fuel isArr wide v de).Safe := by
  induction fuel generalizing isArr wide v de with
  | zero => unfold dmeasure at hfuel; split at hfuel <;> try split at hfuel
            all_goals omega
  | succ f ih =>
    unfold validateGo
    apply Safe.bind (type_safe hv)
    intro t ht
    have scalar : (if isArr then pure () else do
        let r ← v.requiredSize m
        if m.base + v.pos + r ≤ m.base + de then pure ()
        else do
          let t ← v.type m
          let avail ← usizeSub m.dbg (m.base + de) (m.base + v.pos)
          .err (.valueOutOfBounds t r avail) : R Unit).Safe := by
      apply Safe.ite
      · intro _; trivial
      · intro _
        apply Safe.bind (requiredSize_safe hv); intro r _
        apply Safe.ite
        · intro _; trivial
        · intro _
          apply Safe.bind (type_safe hv); intro t _
          apply Safe.bind (usizeSub_safe _ _ _); intro t _; trivial
    have arr : (arrayValidate m (fun w => validateGo m f true w) v de).Safe := by
      unfold arrayValidate
      apply Safe.bind (isWide_safe hv)
      intro w _
      apply Safe.bind (arrayLen_safe hv)
      intro n hn
      have hl := arrayLen_ok_len hn
      apply Safe.bind (firstPos_safe hv)
      intro fp hfp
      have hfp2 := firstPos_ge hl hfp
      apply Safe.bind (usizeMul_safe _ _ _)
      intro bytes hbytes
      apply Safe.bind (usizeAdd_safe _ _ _)
      intro e he
      rw [hdbg] at hbytes he
      have := usizeMul_dbg hbytes
      have := usizeAdd_dbg he
      subst bytes; subst e
      apply Safe.ite
      · intro _
        apply Safe.bind (usizeSub_safe _ _ _); intro t _; trivial
      · intro hle
        apply validateElems_safe (bound := de)
        · omega
        · exact hde
        · intro e hin hel hpe hw2 hend
          have hw : (if w = true then 4 else 2) = 2 ∨ (if w = true then 4 else 2) = 4 := by cases w <;> simp
          generalize (if w = true then 4 else 2) = k at *
          apply ih
          · exact hin
          · omega
          · omega
          · intro _; omega
          · unfold dmeasure at hfuel ⊢
            rw [if_pos rfl]
            cases isArr with
            | true =>
              have := harr rfl
              rw [if_pos rfl] at hfuel
              rcases hw with rfl | rfl <;> split at hfuel <;> split <;> omega
            | false =>
              rw [if_neg (by simp)] at hfuel
              rcases hw with rfl | rfl <;> split <;> omega
    have ptr : (do
        let target ← derefChecked m wide v
        validateGo m f false wide target v.pos : R Unit).Safe := by
      apply Safe.bind (derefChecked_safe m wide v hv)
      intro target htgt
      obtain ⟨hin, hbefore, hlen2, _⟩ := derefChecked_ok htgt
      apply ih
      · exact hin
      · omega
      · omega
      · intro h; cases h
      · unfold dmeasure at hfuel ⊢
        rw [if_neg (by simp)]
        split at hfuel
        · split at hfuel <;> omega
        · omega
    cases t
    case array => exact arr
    case dict => exact arr
    case pointer => exact ptr
    all_goals exact scalar

theorem fromBytesGo_safe_linear (m : Mem) (hdbg : m.dbg = true) (fuel : Nat) (hf : 3 * m.data.length / 2 + 1 ≤ fuel) :
    (fromBytesGo m fuel).Safe := by
  unfold fromBytesGo
  apply Safe.bind (findRoot_safe m)
  intro root hroot
  obtain ⟨h1, h2, _⟩ := findRoot_ok hroot
  apply Safe.bind
  · apply validateGo_safe_linear m hdbg fuel _ _ _ _ h1 h2 (Nat.le_refl _) (by simp)
    unfold dmeasure
    simpa using hf
  · intro _ _; trivial

/-! ## Represented documents -/

theorem heightList_mem {xs : List Tree} {t : Tree} (h : t ∈ xs) : t.height ≤ Tree.heightList xs := by
  induction xs with
  | nil => cases h
  | cons x xs ih =>
    simp only [Tree.heightList]
    rcases List.mem_cons.mp h with rfl | h
    · omega
    · have := ih h; omega

theorem heightDict_mem {kvs : List (List UInt8 × Tree)} {e : List UInt8 × Tree} (h : e ∈ kvs) :
    e.2.height ≤ Tree.heightDict kvs ∧ 1 ≤ Tree.heightDict kvs := by
  induction kvs with
  | nil => cases h
  | cons x xs ih =>
    simp only [Tree.heightDict]
    rcases List.mem_cons.mp h with rfl | h
    · omega
    · have := ih h; omega

theorem heightList_le {xs : List Tree} {b : Nat} (h : ∀ t ∈ xs, t.height ≤ b) : Tree.heightList xs ≤ b := by
  induction xs with
  | nil => exact Nat.zero_le _
  | cons x xs ih =>
    simp only [Tree.heightList]
    have h1 := h x (by simp)
    have h2 := ih fun t ht => h t (by simp [ht])
    omega

theorem heightDict_le {kvs : List (List UInt8 × Tree)} {b : Nat} (h : ∀ e ∈ kvs, e.2.height ≤ b ∧ 1 ≤ b) :
    Tree.heightDict kvs ≤ b := by
  induction kvs with
  | nil => exact Nat.zero_le _
  | cons x xs ih =>
    simp only [Tree.heightDict]
    have h1 := h x (by simp)
    have h2 := ih fun t ht => h t (by simp [ht])
    omega

theorem Tree.height_pos (t : Tree) : 1 ≤ t.height := by
  cases t <;> simp only [Tree.height] <;> omega

theorem Tree.Same.height {s t : Tree} (h : Tree.Same s t) : s.height = t.height := by
  induction h with
  | refl => rfl
  | @arr xs ys len each ih =>
    simp only [Tree.height]
    congr 1
    refine Nat.le_antisymm (heightList_le fun t ht => ?_) (heightList_le fun t ht => ?_)
    all_goals
      obtain ⟨i, hi, rfl⟩ := List.mem_iff_getElem.mp ht
      have := ih i _ _ (List.getElem?_eq_getElem (show i < xs.length by omega))
        (List.getElem?_eq_getElem (show i < ys.length by omega))
      have h1 := heightList_mem (List.getElem_mem (show i < xs.length by omega))
      have h2 := heightList_mem (List.getElem_mem (show i < ys.length by omega))
      omega
  | @dict kvs mid lvs perm keys each ih =>
    have hlen : mid.length = lvs.length := by simpa using congrArg List.length keys
    simp only [Tree.height]
    congr 1
    refine Nat.le_antisymm (heightDict_le fun t ht => ?_) (heightDict_le fun t ht => ?_)
    · obtain ⟨i, hi, rfl⟩ := List.mem_iff_getElem.mp (perm.mem_iff.mp ht)
      have := ih i _ _ (List.getElem?_eq_getElem hi) (List.getElem?_eq_getElem (show i < lvs.length by omega))
      have h2 := heightDict_mem (List.getElem_mem (show i < lvs.length by omega))
      omega
    · obtain ⟨i, hi, rfl⟩ := List.mem_iff_getElem.mp ht
      have := ih i _ _ (List.getElem?_eq_getElem (show i < mid.length by omega)) (List.getElem?_eq_getElem hi)
      have h2 := heightDict_mem (perm.mem_iff.mpr (List.getElem_mem (show i < mid.length by omega)))
      omega

theorem slot_ptr_depth {m : Mem} {w : Bool} {q p f : Nat} (hat : At m.data q (ptrBytes w (q - p))) (lt : p < q)
    (even : (q - p) % 2 = 0) (max : q - p ≤ maxOff w) {ty : ValueType} (hty : Val.type m ⟨p, q - p⟩ = .ok ty)
    (hnp : ty ≠ .pointer) (hval : validateGo m f false w ⟨p, q - p⟩ q = .ok ()) :
    validateGo m (f + 1) true w ⟨q, wof w⟩ (q + wof w) = .ok () := by
  have hle := hat.le
  have hpl := ptrBytes_length w (q - p)
  rw [hpl] at hle
  have hw : wof w = if w then 4 else 2 := by cases w <;> rfl
  rw [← hw] at hle hpl
  have hh : Holds m ⟨q, wof w⟩ (ptrBytes w (q - p)) := hat.holds rfl (by unfold Val.In; simp only; omega) (by simp only; omega)
  have hq : q - (q - p) = p := by omega
  obtain ⟨h3, h4⟩ := ptr_deref hh max even (by omega) (by simp only; omega) (by simp only [hq]; exact hty) hnp
  simp only [hq] at h4
  unfold validateGo
  rw [h3]
  simp only [ok_bind, h4]
  exact hval

theorem slot_scalar_depth {m : Mem} {F : FloatOps} {w : Bool} {q f : Nat} {bs : List UInt8} {ty : ValueType} {t : Tree}
    (hat : At m.data q bs) (len : bs.length = wof w) (hs : ScalarBytes F bs ty t) (hf : 0 < f) :
    validateGo m f true w ⟨q, wof w⟩ (q + wof w) = .ok () := by
  have hle := hat.le
  have hh : Holds m ⟨q, wof w⟩ bs := hat.holds rfl (by unfold Val.In; simp only; omega) (by simp only; omega)
  obtain ⟨r, hr, _⟩ := hs.req m _ hh
  exact validate_scalar (hs.type m _ hh) hs.scalar hr (.inl rfl) hf

theorem KeyAt.depth {m : Mem} {F : FloatOps} {w : Bool} {q : Nat} {k : Key} (h : KeyAt m.data F w q k) {f : Nat}
    (hf : 2 ≤ f) : validateGo m f true w ⟨q, wof w⟩ (q + wof w) = .ok () := by
  cases h with
  | @shared b0 b1 tl c hat len hb hc =>
    exact slot_scalar_depth (F := F) hat (by simp only [List.length_cons]; omega) (short_bytes (by omega)) (by omega)
  | inline hat len hs => exact slot_scalar_depth hat len hs (by omega)
  | @pointer s bs ty p hat hs le even max ptr =>
    have h2 := hs.two
    have hle := ptr.le
    have hh : Holds m ⟨p, q - p⟩ bs := hat.holds rfl (by unfold Val.In; simp only; omega) (by simp only; omega)
    obtain ⟨f, rfl⟩ : ∃ g, f = g + 1 := ⟨f - 1, by omega⟩
    obtain ⟨r, hr, hrl⟩ := hs.req m _ hh
    have ht := hs.type m _ hh
    exact slot_ptr_depth ptr (by omega) even max ht (scalar_not hs.scalar).1
      (validate_scalar ht hs.scalar hr (.inr (by simp only; omega)) (by omega))

/-- The recursion is at most twice as deep as the document. -/
theorem Rep.depth {m : Mem} (hbase : m.base + m.data.length < 2 ^ 64) {F : FloatOps} {scope : Option SharedKeys}
    {k : Option Bool} {p e : Nat} {t : Tree} (h : Rep m.data F P scope k p e t) :
    match k with
    | none => ∀ (v : Val) f w de, v.pos = p → v.In m → e ≤ p + v.len → 2 * t.height ≤ f + 1 → e ≤ de →
        validateGo m f false w v de = .ok ()
    | some w => ∀ f, 2 * t.height ≤ f → validateGo m f true w ⟨p, wof w⟩ (p + wof w) = .ok () := by
  induction h with
  | @scalar p bs ty t hat hs =>
    intro v f w de hp hin hl hf hde
    have hh : Holds m v bs := hat.holds hp hin (by omega)
    have := t.height_pos
    obtain ⟨r, hr, hrl⟩ := hs.req m _ hh
    exact validate_scalar (hs.type m _ hh) hs.scalar hr (.inr (by omega)) (by omega)
  | @inline w q bs ty t hat len hs =>
    intro f hf
    have := t.height_pos
    exact slot_scalar_depth hat len hs (by omega)
  | @ptr w q p e t hat lt le even max tgt ih =>
    dsimp only at ih ⊢
    intro f hf
    have hh := t.height_pos
    have hle := hat.le
    have hin : Val.In m ⟨p, q - p⟩ := by unfold Val.In; simp only; omega
    have hok := tgt.ok hbase
    dsimp only at hok
    obtain ⟨ty, h1, h2⟩ := (hok ⟨p, q - p⟩ rfl hin (by simp only; omega)).type
    obtain ⟨f, rfl⟩ : ∃ g, f = g + 1 := ⟨f - 1, by omega⟩
    exact slot_ptr_depth hat (by omega) even max h1 h2 (ih ⟨p, q - p⟩ f w q rfl hin (by simp only; omega) hf le)
  | @empty w q e t no le fits tgt ih =>
    intro f hf
    have := t.height_pos
    obtain ⟨d, w', hat, _, _⟩ := tgt.empty_header no
    obtain ⟨f, rfl⟩ : ∃ k, f = k + 1 := ⟨f - 1, by omega⟩
    exact (slot_empty hbase (w := w) hat fits).2.2.1 f true w
  | @arr p w xs hat small fits each ih =>
    dsimp only at ih ⊢
    intro v f w' de hp hin hl hf hde
    have hhl := headerBytes_length 0x60 (n := xs.length) (by omega) w
    have hhd : headerSize xs.length ≤ hdrLen xs.length := by unfold hdrLen; omega
    have hh : Holds m v (headerBytes 0x60 xs.length w) := hat.holds hp hin (by omega)
    obtain ⟨h1, h2, h3, h4⟩ := header_read false (n := xs.length) (by omega) hh
    simp only [Bool.false_eq_true, if_false] at h1 h3
    simp only [Tree.height] at hf
    obtain ⟨f, rfl⟩ : ∃ k, f = k + 1 := ⟨f - 1, by omega⟩
    unfold validateGo
    rw [h1]
    simp only [ok_bind]
    have hin2 := hin
    unfold Val.In at hin2
    have hw := wof_pos w
    refine arrayValidate_intro h2 h3 h4 (by omega) (by omega) (by omega) ?_
    refine validateElems_intro fun i hi => ?_
    rw [hp]
    have hr := (each i _ (List.getElem?_eq_getElem hi)).ok hbase
    dsimp only at hr
    have := heightList_mem (List.getElem_mem hi)
    exact ⟨_, hr.raw, ih i _ (List.getElem?_eq_getElem hi) f (by omega)⟩
  | @dict p w ks kvs hat small fits len keys text sorted strs vals ih =>
    dsimp only at ih ⊢
    intro v f w' de hp hin hl hf hde
    have hhl := headerBytes_length 0x70 (n := kvs.length) (by omega) w
    have hhd : headerSize kvs.length ≤ hdrLen kvs.length := by unfold hdrLen; omega
    have hh : Holds m v (headerBytes 0x70 kvs.length w) := hat.holds hp hin (by omega)
    obtain ⟨h1, h2, h3, h4⟩ := header_read true (n := kvs.length) (by omega) hh
    simp only [if_true] at h1 h3
    simp only [Tree.height] at hf
    obtain ⟨f, rfl⟩ : ∃ k, f = k + 1 := ⟨f - 1, by omega⟩
    unfold validateGo
    rw [h1]
    simp only [ok_bind]
    have hw := wof_pos w
    refine arrayValidate_intro h2 h3 h4 (by omega) (by omega) (by omega) ?_
    refine validateElems_intro fun i hi => ?_
    rw [hp]
    have hm := heightDict_mem (List.getElem_mem (show i / 2 < kvs.length by omega))
    rcases Nat.mod_two_eq_zero_or_one i with hi2 | hi2
    · obtain ⟨j, rfl⟩ : ∃ j, i = 2 * j := ⟨i / 2, by omega⟩
      have hk := keys j _ (List.getElem?_eq_getElem (by omega))
      exact ⟨_, hk.ok.raw, hk.depth (by omega)⟩
    · obtain ⟨j, rfl⟩ : ∃ j, i = 2 * j + 1 := ⟨i / 2, by omega⟩
      have hj : j < kvs.length := by omega
      have hr := (vals j _ _ (List.getElem?_eq_getElem hj)).ok hbase
      dsimp only at hr
      have hm := heightDict_mem (List.getElem_mem hj)
      exact ⟨_, hr.raw, ih j _ _ (List.getElem?_eq_getElem hj) f (by show 2 * kvs[j].2.height ≤ f; omega)⟩

theorem arrayValidate_elems {m : Mem} {rec : Bool → Val → Nat → R Unit} {v : Val} {de : Nat} {w : Bool} {n fp : Nat}
    (h : arrayValidate m rec v de = .ok ()) (hw : v.isWide m = .ok w) (hn : v.arrayLen m = .ok n)
    (hfp : v.firstPos m = .ok fp) : validateElems m (rec w) (wof w) n (v.pos + fp) = .ok () := by
  unfold arrayValidate at h
  simp only [hw, hn, hfp, ok_bind] at h
  obtain ⟨b, _, h⟩ := bind_eq_ok.mp h
  obtain ⟨e, _, h⟩ := bind_eq_ok.mp h
  split at h
  · obtain ⟨_, _, h⟩ := bind_eq_ok.mp h
    cases h
  · exact h

theorem validateElems_slot {m : Mem} {rec : Val → Nat → R Unit} {w n cur : Nat}
    (h : validateElems m rec w n cur = .ok ()) {i : Nat} (hi : i < n) :
    rec ⟨cur + i * w, w⟩ (cur + i * w + w) = .ok () := by
  obtain ⟨e, h1, h2⟩ := validateElems_ok h i hi
  obtain ⟨rfl, _⟩ := fromRaw_ok h1
  exact h2

/-- The recursion is at least as deep as the document. -/
theorem Rep.deep {m : Mem} (hbase : m.base + m.data.length < 2 ^ 64) {F : FloatOps} {scope : Option SharedKeys}
    {k : Option Bool} {p e : Nat} {t : Tree} (h : Rep m.data F P scope k p e t) :
    match k with
    | none => ∀ (v : Val) f w de, v.pos = p → v.In m → e ≤ p + v.len → validateGo m f false w v de = .ok () → t.height ≤ f
    | some w => ∀ f de, validateGo m f true w ⟨p, wof w⟩ de = .ok () → t.height ≤ f := by
  have hscalar : ∀ {bs : List UInt8} {ty : ValueType} {t : Tree} {v : Val}, ScalarBytes F bs ty t → Holds m v bs →
      t.height = 1 := by
    intro bs ty t v hs hh
    have h := hs.read m v none 0 hh
    have ht := hs.type m v hh
    unfold readTree at h
    rw [ht] at h
    simp only [ok_bind] at h
    have hsc := hs.scalar
    cases ty
    case array => cases hsc
    case dict => cases hsc
    case pointer => cases hsc
    all_goals first
      | (cases h; rfl)
      | (obtain ⟨_, _, h⟩ := bind_eq_ok.mp h; cases h; rfl)
  induction h with
  | @scalar p bs ty t hat hs =>
    intro v f w de hp hin hl hv
    rw [hscalar hs (hat.holds hp hin (by omega))]
    cases f with
    | zero => cases hv
    | succ f => omega
  | @inline w q bs ty t hat len hs =>
    intro f de hv
    have hle := hat.le
    rw [hscalar hs (hat.holds (v := ⟨q, wof w⟩) rfl (by unfold Val.In; simp only; omega) (by simp only; omega))]
    cases f with
    | zero => cases hv
    | succ f => omega
  | @ptr w q p e t hat lt le even max tgt ih =>
    dsimp only at ih ⊢
    intro f de hv
    have hle := hat.le
    have hpl := ptrBytes_length w (q - p)
    have hw : wof w = if w then 4 else 2 := by cases w <;> rfl
    rw [← hw] at hpl
    have hin : Val.In m ⟨p, q - p⟩ := by unfold Val.In; simp only; omega
    have hok := tgt.ok hbase
    dsimp only at hok
    obtain ⟨ty, h1, h2⟩ := (hok ⟨p, q - p⟩ rfl hin (by simp only; omega)).type
    have hh : Holds m ⟨q, wof w⟩ (ptrBytes w (q - p)) :=
      hat.holds rfl (by unfold Val.In; simp only; omega) (by simp only; omega)
    have hq : q - (q - p) = p := by omega
    obtain ⟨h3, h4⟩ := ptr_deref hh max even (by omega) (by simp only; omega) (by simp only [hq]; exact h1) h2
    simp only [hq] at h4
    cases f with
    | zero => cases hv
    | succ f =>
      unfold validateGo at hv
      rw [h3] at hv
      simp only [ok_bind, h4] at hv
      have := ih ⟨p, q - p⟩ f w q rfl hin (by simp only; omega) hv
      omega
  | @empty w q e t no le fits tgt ih =>
    intro f de hv
    have : t.height = 1 := by rcases no with rfl | rfl <;> rfl
    cases f with
    | zero => cases hv
    | succ f => omega
  | @arr p w xs hat small fits each ih =>
    dsimp only at ih ⊢
    intro v f w' de hp hin hl hv
    have hhl := headerBytes_length 0x60 (n := xs.length) (by omega) w
    have hhd : headerSize xs.length ≤ hdrLen xs.length := by unfold hdrLen; omega
    have hh : Holds m v (headerBytes 0x60 xs.length w) := hat.holds hp hin (by omega)
    obtain ⟨h1, h2, h3, h4⟩ := header_read false (n := xs.length) (by omega) hh
    simp only [Bool.false_eq_true, if_false] at h1 h3
    cases f with
    | zero => cases hv
    | succ f =>
      unfold validateGo at hv
      rw [h1] at hv
      simp only [ok_bind] at hv
      have hel := arrayValidate_elems hv h2 h3 h4
      rw [hp] at hel
      simp only [Tree.height]
      have : Tree.heightList xs ≤ f := heightList_le fun t ht => by
        obtain ⟨i, hi, rfl⟩ := List.mem_iff_getElem.mp ht
        exact ih i _ (List.getElem?_eq_getElem hi) f _ (validateElems_slot hel hi)
      omega
  | @dict p w ks kvs hat small fits len keys text sorted strs vals ih =>
    dsimp only at ih ⊢
    intro v f w' de hp hin hl hv
    have hhl := headerBytes_length 0x70 (n := kvs.length) (by omega) w
    have hhd : headerSize kvs.length ≤ hdrLen kvs.length := by unfold hdrLen; omega
    have hh : Holds m v (headerBytes 0x70 kvs.length w) := hat.holds hp hin (by omega)
    obtain ⟨h1, h2, h3, h4⟩ := header_read true (n := kvs.length) (by omega) hh
    simp only [if_true] at h1 h3
    cases f with
    | zero => cases hv
    | succ f =>
      unfold validateGo at hv
      rw [h1] at hv
      simp only [ok_bind] at hv
      have hel := arrayValidate_elems hv h2 h3 h4
      rw [hp] at hel
      simp only [Tree.height]
      have : Tree.heightDict kvs ≤ f := heightDict_le fun t ht => by
        obtain ⟨i, hi, rfl⟩ := List.mem_iff_getElem.mp ht
        have := ih i _ _ (List.getElem?_eq_getElem hi) f _ (validateElems_slot hel (i := 2 * i + 1) (by omega))
        have h1 := (kvs.get ⟨i, hi⟩).2.height_pos
        exact ⟨this, Nat.le_trans h1 this⟩
      omega

theorem Rep.document_deep {m : Mem} (hbase : m.base + m.data.length < 2 ^ 64) {F : FloatOps} {scope : Option SharedKeys}
    {pre : List UInt8} {p e : Nat} {t : Tree} (h : Rep pre F P scope none p e t)
    (hd : m.data = pre ++ rootBytes (pre.length - p)) (hpre : pre.length % 2 = 0) (hp : p % 2 = 0)
    (hmax : pre.length - p ≤ SizedValue.maxWide) {f : Nat} (hf : f < t.height) : fromBytesGo m f = .diverge := by
  obtain ⟨h1, h2, h3⟩ := h.document hbase hd hpre hp hmax
  have hpe := h.le
  have hlen : pre.length ≤ m.data.length := by rw [hd]; simp
  obtain ⟨ty, h4, h5⟩ := h3.type
  unfold fromBytesGo
  rw [find_root hd hpre (by omega) (by omega) (by omega) hmax h4 h5]
  simp only [ok_bind]
  have hdeep := h2.deep hbase
  dsimp only at hdeep
  have hin : Val.In m ⟨p, pre.length - p⟩ := by unfold Val.In; simp only; omega
  have hbig := h3.valid (max f e) false m.data.length (by omega) (by omega)
  rcases validateGo_mono m f (max f e) (by omega) false false ⟨p, pre.length - p⟩ m.data.length with h6 | h6
  · rw [h6]; rfl
  · rw [hbig] at h6
    have := hdeep _ f _ _ rfl hin (by simp only; omega) h6
    omega

theorem Rep.document_depth {m : Mem} (hbase : m.base + m.data.length < 2 ^ 64) {F : FloatOps} {scope : Option SharedKeys}
    {pre : List UInt8} {p e : Nat} {t : Tree} (h : Rep pre F P scope none p e t)
    (hd : m.data = pre ++ rootBytes (pre.length - p)) (hpre : pre.length % 2 = 0) (hp : p % 2 = 0)
    (hmax : pre.length - p ≤ SizedValue.maxWide) {f : Nat} (hf : 2 * t.height ≤ f + 1) :
    fromBytesGo m f = .ok ⟨p, pre.length - p⟩ := by
  obtain ⟨h1, h2, h3⟩ := h.document hbase hd hpre hp hmax
  have hpe := h.le
  have hlen : pre.length ≤ m.data.length := by rw [hd]; simp
  obtain ⟨ty, h4, h5⟩ := h3.type
  unfold fromBytesGo
  rw [find_root hd hpre (by omega) (by omega) (by omega) hmax h4 h5]
  simp only [ok_bind]
  have := h2.depth hbase
  dsimp only at this
  rw [this _ f _ _ rfl (by unfold Val.In; simp only; omega) (by simp only; omega) hf (by omega)]
  rfl

end Fleece
