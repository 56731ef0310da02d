import Verif.Proofs.Cost
import Verif.Proofs.RepRoot
import Verif.Spec.Cost

/-! # The calls of the validator, in terms of the document (C53) -/

namespace Fleece
open Res

variable {P : List UInt8 → Prop}

/-- A list of lower and upper bounds. -/
def sums (b : Nat → Nat) : Nat → Nat
  | 0 => 0
  | n + 1 => b 0 + sums (fun i => b (i + 1)) n

theorem itemsList_sums (xs : List Tree) : Tree.itemsList xs = sums (fun i => match xs[i]? with
    | some t => t.items
    | none => 0) xs.length := by
  induction xs with
  | nil => rfl
  | cons t ts ih => simp [Tree.itemsList, sums, ih]

/-- Slot `i` of a dict. -/
def entryItems (kvs : List (List UInt8 × Tree)) (i : Nat) : Nat :=
  if i % 2 = 0 then 1 else match kvs[i / 2]? with
    | some e => e.2.items
    | none => 0

theorem itemsDict_sums (kvs : List (List UInt8 × Tree)) : Tree.itemsDict kvs = sums (entryItems kvs) (kvs.length * 2) := by
  induction kvs with
  | nil => rfl
  | cons e es ih =>
    have h2 : (es.length + 1) * 2 = es.length * 2 + 1 + 1 := by omega
    simp only [Tree.itemsDict, List.length_cons, h2, sums, ih]
    have : ∀ i, entryItems (e :: es) (i + 1 + 1) = entryItems es i := by
      intro i
      unfold entryItems
      rw [show (i + 1 + 1) % 2 = i % 2 by omega, show (i + 1 + 1) / 2 = i / 2 + 1 by omega]
      simp
    have hf : (fun i => entryItems (e :: es) (i + 1 + 1)) = entryItems es := funext this
    rw [hf]
    have h0 : entryItems (e :: es) 0 = 1 := rfl
    have h1 : entryItems (e :: es) (0 + 1) = e.2.items := rfl
    rw [h0, h1]
    omega

theorem countElems_bound {m : Mem} {rc : Val → Nat → R Nat} {w n : Nat} {b : Nat → Nat} {cur k : Nat}
    (h : countElems m rc w n cur = .ok k)
    (hb : ∀ i e a, i < n → fromRaw m (cur + i * w) w = .ok e → rc e (cur + i * w + w) = .ok a → b i ≤ a ∧ a ≤ 2 * b i) :
    sums b n ≤ k ∧ k ≤ 2 * sums b n := by
  induction n generalizing cur b k with
  | zero => cases h; exact ⟨Nat.le_refl _, Nat.zero_le _⟩
  | succ n ih =>
    unfold countElems at h
    obtain ⟨e, h1, h⟩ := bind_eq_ok.mp h
    obtain ⟨a, h2, h⟩ := bind_eq_ok.mp h
    obtain ⟨c, h3, h⟩ := bind_eq_ok.mp h
    cases h
    have g0 := hb 0 e a (by omega) (by simpa using h1) (by simpa using h2)
    have g1 := ih (b := fun i => b (i + 1)) h3 (fun i e a hi h4 h5 => by
      have : cur + w + i * w = cur + (i + 1) * w := by rw [Nat.add_mul]; omega
      rw [this] at h4 h5
      exact hb (i + 1) e a (by omega) h4 h5)
    simp only [sums]
    omega

theorem arrayCount_elems {m : Mem} {rec : Bool → Val → Nat → R Nat} {v : Val} {de k : Nat} {w : Bool} {n fp : Nat}
    (h : arrayCount m rec v de = .ok k) (hw : v.isWide m = .ok w) (hn : v.arrayLen m = .ok n)
    (hfp : v.firstPos m = .ok fp) : countElems m (rec w) (wof w) n (v.pos + fp) = .ok k := by
  unfold arrayCount at h
  simp only [hw, hn, hfp, ok_bind] at h
  obtain ⟨b, _, h⟩ := bind_eq_ok.mp h
  obtain ⟨e, _, h⟩ := bind_eq_ok.mp h
  split at h
  · obtain ⟨_, _, h⟩ := bind_eq_ok.mp h
    cases h
  · exact h

theorem count_scalar {m : Mem} {v : Val} {f : Nat} {a w : Bool} {de n : Nat} {ty : ValueType} (ht : v.type m = .ok ty)
    (hs : ty.isScalar = true) (h : validateCount m f a w v de = .ok n) : n = 1 := by
  cases f with
  | zero => cases h
  | succ f =>
    unfold validateCount at h
    obtain ⟨ty', ht', h⟩ := bind_eq_ok.mp h
    rw [ht] at ht'
    cases ht'
    obtain ⟨h1, h2, h3⟩ := scalar_not hs
    have : (if a = true then (pure 1 : R Nat) else do
        let r ← v.requiredSize m
        if m.base + v.pos + r ≤ m.base + de then pure 1
        else do
          let t ← v.type m
          let avail ← usizeSub m.dbg (m.base + de) (m.base + v.pos)
          .err (.valueOutOfBounds t r avail)) = .ok n := by
      cases ty <;> first | exact h | contradiction
    split at this
    · cases this; rfl
    · obtain ⟨r, _, this⟩ := bind_eq_ok.mp this
      split at this
      · cases this; rfl
      · obtain ⟨_, _, this⟩ := bind_eq_ok.mp this
        obtain ⟨_, _, this⟩ := bind_eq_ok.mp this
        cases this

theorem count_ptr {m : Mem} {v tg : Val} {f : Nat} {a w : Bool} {de n : Nat} (ht : v.type m = .ok .pointer)
    (hd : derefChecked m w v = .ok tg) (h : validateCount m f a w v de = .ok n) :
    ∃ g k, validateCount m g false w tg v.pos = .ok k ∧ n = 1 + k := by
  cases f with
  | zero => cases h
  | succ f =>
    unfold validateCount at h
    rw [ht] at h
    simp only [ok_bind, hd] at h
    obtain ⟨k, h1, h⟩ := bind_eq_ok.mp h
    cases h
    exact ⟨f, k, h1, rfl⟩

theorem count_coll {m : Mem} {v : Val} {f : Nat} {a w' : Bool} {de k : Nat} {ty : ValueType} (ht : v.type m = .ok ty)
    (hty : ty = .array ∨ ty = .dict) {w : Bool} {n fp : Nat} (hw : v.isWide m = .ok w) (hn : v.arrayLen m = .ok n)
    (hfp : v.firstPos m = .ok fp) (h : validateCount m f a w' v de = .ok k) :
    ∃ g j, countElems m (fun e d => validateCount m g true w e d) (wof w) n (v.pos + fp) = .ok j ∧ k = 1 + j := by
  cases f with
  | zero => cases h
  | succ f =>
    unfold validateCount at h
    rw [ht] at h
    simp only [ok_bind] at h
    rcases hty with rfl | rfl
    all_goals
      obtain ⟨j, h1, h⟩ := bind_eq_ok.mp h
      cases h
      exact ⟨f, j, arrayCount_elems h1 hw hn hfp, rfl⟩

theorem Holds.ptr_tgt {m : Mem} {w : Bool} {q p : Nat} (hat : At m.data q (ptrBytes w (q - p))) (lt : p < q)
    (even : (q - p) % 2 = 0) (max : q - p ≤ maxOff w) {ty : ValueType} (hty : Val.type m ⟨p, q - p⟩ = .ok ty)
    (hnp : ty ≠ .pointer) :
    Val.type m ⟨q, wof w⟩ = .ok .pointer ∧ derefChecked m w ⟨q, wof w⟩ = .ok ⟨p, q - p⟩ := by
  have hle := hat.le
  have hpl := ptrBytes_length w (q - p)
  rw [hpl] at hle
  have hw : wof w = if w then 4 else 2 := by cases w <;> rfl
  rw [← hw] at hle hpl
  have hh : Holds m ⟨q, wof w⟩ (ptrBytes w (q - p)) := hat.holds rfl (by unfold Val.In; simp only; omega) (by simp only; omega)
  have hq : q - (q - p) = p := by omega
  obtain ⟨h3, h4⟩ := ptr_deref hh max even (by omega) (by simp only; omega) (by simp only [hq]; exact hty) hnp
  simp only [hq] at h4
  exact ⟨h3, h4⟩

theorem KeyAt.cost {m : Mem} {F : FloatOps} {w : Bool} {q : Nat} {k : Key} (h : KeyAt m.data F w q k) {f de n : Nat}
    {a : Bool} (hc : validateCount m f a w ⟨q, wof w⟩ de = .ok n) : 1 ≤ n ∧ n ≤ 2 := by
  cases h with
  | @shared b0 b1 tl c hat len hb hcc =>
    have hle := hat.le
    have hh : Holds m ⟨q, wof w⟩ (b0 :: b1 :: tl) := hat.holds rfl
      (by unfold Val.In; simp only [List.length_cons] at *; omega) (by simp only [List.length_cons]; omega)
    have ht : Val.type m ⟨q, wof w⟩ = .ok .short := by rw [hh.type, fromByte_short _ (by omega)]
    have := count_scalar ht rfl hc
    omega
  | inline hat len hs =>
    have hle := hat.le
    have hh : Holds m ⟨q, wof w⟩ _ := hat.holds rfl (by unfold Val.In; simp only; omega) (by simp only; omega)
    have := count_scalar (hs.type m _ hh) hs.scalar hc
    omega
  | @pointer s bs ty p hat hs le even max ptr =>
    have h2 := hs.two
    have hle := ptr.le
    have hh : Holds m ⟨p, q - p⟩ bs := hat.holds rfl (by unfold Val.In; simp only; omega) (by simp only; omega)
    have ht := hs.type m _ hh
    obtain ⟨h3, h4⟩ := Holds.ptr_tgt ptr (by omega) even max ht (scalar_not hs.scalar).1
    obtain ⟨g, j, h5, h6⟩ := count_ptr h3 h4 hc
    have := count_scalar ht hs.scalar h5
    omega

theorem scalar_items {F : FloatOps} {bs : List UInt8} {ty : ValueType} {t : Tree} {m : Mem} {v : Val}
    (hs : ScalarBytes F bs ty t) (hh : Holds m v bs) : t.items = 1 := by
  have h := hs.read m v none 0 hh
  have ht := hs.type m v hh
  unfold readTree at h
  rw [ht] at h
  simp only [ok_bind] at h
  have hsc := hs.scalar
  cases ty
  case array => cases hsc
  case dict => cases hsc
  case pointer => cases hsc
  all_goals first
    | (cases h; rfl)
    | (obtain ⟨_, _, h⟩ := bind_eq_ok.mp h; cases h; rfl)

/-- The validator is called at least once, and at most twice, for every value and key of the represented document. -/
theorem Rep.cost {m : Mem} (hbase : m.base + m.data.length < 2 ^ 64) {F : FloatOps} {scope : Option SharedKeys}
    {k : Option Bool} {p e : Nat} {t : Tree} (h : Rep m.data F P scope k p e t) :
    match k with
    | none => ∀ (v : Val) f w de n, v.pos = p → v.In m → e ≤ p + v.len → validateCount m f false w v de = .ok n →
        t.items ≤ n ∧ n + 1 ≤ 2 * t.items
    | some w => ∀ f de n, validateCount m f true w ⟨p, wof w⟩ de = .ok n → t.items ≤ n ∧ n ≤ 2 * t.items := by
  induction h with
  | @scalar p bs ty t hat hs =>
    intro v f w de n hp hin hl hc
    have hh : Holds m v bs := hat.holds hp hin (by omega)
    have := count_scalar (hs.type m _ hh) hs.scalar hc
    rw [scalar_items hs hh]
    omega
  | @inline w q bs ty t hat len hs =>
    intro f de n hc
    have hle := hat.le
    have hh : Holds m ⟨q, wof w⟩ bs := hat.holds rfl (by unfold Val.In; simp only; omega) (by simp only; omega)
    have := count_scalar (hs.type m _ hh) hs.scalar hc
    rw [scalar_items hs hh]
    omega
  | @ptr w q p e t hat lt le even max tgt ih =>
    dsimp only at ih ⊢
    intro f de n hc
    have hle := hat.le
    have hin : Val.In m ⟨p, q - p⟩ := by unfold Val.In; simp only; omega
    have hok := tgt.ok hbase
    dsimp only at hok
    obtain ⟨ty, h1, h2⟩ := (hok ⟨p, q - p⟩ rfl hin (by simp only; omega)).type
    obtain ⟨h3, h4⟩ := Holds.ptr_tgt hat (by omega) even max h1 h2
    obtain ⟨g, j, h5, h6⟩ := count_ptr h3 h4 hc
    have := ih ⟨p, q - p⟩ g w _ j rfl hin (by simp only; omega) h5
    omega
  | @empty w q e t no le fits tgt ih =>
    dsimp only at ih ⊢
    intro f de n hc
    have hin : Val.In m ⟨q, wof w⟩ := by unfold Val.In; simp only; omega
    obtain ⟨d, w', hat, _, _⟩ := tgt.empty_header no
    have h2 : 2 ≤ wof w := by cases w <;> decide
    have hl := headerBytes_length (if d then 0x70 else 0x60) (n := 0) (by omega) w'
    have hs : headerSize 0 = 2 := rfl
    have hh : Holds m ⟨q, wof w⟩ (headerBytes (if d then 0x70 else 0x60) 0 w') := hat.holds rfl hin (by simp only; omega)
    obtain ⟨h3, _⟩ := header_read d (n := 0) (by omega) hh
    have heq : validateCount m f false w ⟨q, wof w⟩ de = .ok n := by
      cases f with
      | zero => exact hc
      | succ f =>
        unfold validateCount at hc ⊢
        rw [h3] at hc ⊢
        cases d <;> exact hc
    have := ih _ f w de n rfl hin le heq
    omega
  | @arr p w xs hat small fits each ih =>
    dsimp only at ih ⊢
    intro v f w' de n hp hin hl hc
    have hhl := headerBytes_length 0x60 (n := xs.length) (by omega) w
    have hhd : headerSize xs.length ≤ hdrLen xs.length := by unfold hdrLen; omega
    have hh : Holds m v (headerBytes 0x60 xs.length w) := hat.holds hp hin (by omega)
    obtain ⟨h1, h2, h3, h4⟩ := header_read false (n := xs.length) (by omega) hh
    simp only [Bool.false_eq_true, if_false] at h1 h3
    obtain ⟨g, j, h5, rfl⟩ := count_coll h1 (.inl rfl) h2 h3 h4 hc
    rw [hp] at h5
    have := countElems_bound (b := fun i => match xs[i]? with
      | some t => t.items
      | none => 0) h5 (fun i e a hi g1 g2 => by
        obtain ⟨rfl, _⟩ := fromRaw_ok g1
        have := ih i _ (List.getElem?_eq_getElem hi) _ _ _ g2
        simpa [List.getElem?_eq_getElem hi] using this)
    rw [← itemsList_sums] at this
    simp only [Tree.items]
    omega
  | @dict p w ks kvs hat small fits len keys text sorted strs vals ih =>
    dsimp only at ih ⊢
    intro v f w' de n hp hin hl hc
    have hhl := headerBytes_length 0x70 (n := kvs.length) (by omega) w
    have hhd : headerSize kvs.length ≤ hdrLen kvs.length := by unfold hdrLen; omega
    have hh : Holds m v (headerBytes 0x70 kvs.length w) := hat.holds hp hin (by omega)
    obtain ⟨h1, h2, h3, h4⟩ := header_read true (n := kvs.length) (by omega) hh
    simp only [if_true] at h1 h3
    obtain ⟨g, j, h5, rfl⟩ := count_coll h1 (.inr rfl) h2 h3 h4 hc
    rw [hp] at h5
    have := countElems_bound (b := entryItems kvs) h5 (fun i e a hi g1 g2 => by
        obtain ⟨rfl, _⟩ := fromRaw_ok g1
        unfold entryItems
        rcases Nat.mod_two_eq_zero_or_one i with hi2 | hi2
        · obtain ⟨j, rfl⟩ : ∃ j, i = 2 * j := ⟨i / 2, by omega⟩
          have := (keys j _ (List.getElem?_eq_getElem (by omega))).cost g2
          rw [if_pos (by omega)]
          omega
        · obtain ⟨j, rfl⟩ : ∃ j, i = 2 * j + 1 := ⟨i / 2, by omega⟩
          have hj : j < kvs.length := by omega
          have := ih j _ _ (List.getElem?_eq_getElem hj) _ _ _ g2
          rw [if_neg (by omega), show (2 * j + 1) / 2 = j by omega, List.getElem?_eq_getElem hj]
          exact this)
    rw [← itemsDict_sums] at this
    simp only [Tree.items]
    omega

/-- The calls made for a represented document. -/
theorem Rep.document_cost {m : Mem} (hbase : m.base + m.data.length < 2 ^ 64) {F : FloatOps} {scope : Option SharedKeys}
    {pre : List UInt8} {p e : Nat} {t : Tree} (h : Rep pre F P scope none p e t)
    (hd : m.data = pre ++ rootBytes (pre.length - p)) (hpre : pre.length % 2 = 0) (hp : p % 2 = 0)
    (hmax : pre.length - p ≤ SizedValue.maxWide) :
    ∃ n, fromBytesCount m = .ok n ∧ t.items ≤ n ∧ n + 1 ≤ 2 * t.items := by
  obtain ⟨h1, h2, h3⟩ := h.document hbase hd hpre hp hmax
  have hpe := h.le
  have hlen : pre.length ≤ m.data.length := by rw [hd]; simp
  obtain ⟨n, hn⟩ := count_of_ok h1
  refine ⟨n, hn, ?_⟩
  obtain ⟨ty, h4, h5⟩ := h3.type
  unfold fromBytesCount at hn
  rw [find_root hd hpre (by omega) (by omega) (by omega) hmax h4 h5] at hn
  simp only [ok_bind] at hn
  have := h2.cost hbase
  dsimp only at this
  exact this _ _ _ _ _ rfl (by unfold Val.In; simp only; omega) (by simp only; omega) hn

/-! ## The document as a user built it -/

theorem sums_congr {a b : Nat → Nat} {n : Nat} (h : ∀ i, i < n → a i = b i) : sums a n = sums b n := by
  induction n generalizing a b with
  | zero => rfl
  | succ n ih =>
    simp only [sums]
    rw [h 0 (by omega), ih fun i hi => h (i + 1) (by omega)]

theorem itemsDict_perm {a b : List (List UInt8 × Tree)} (h : a.Perm b) : Tree.itemsDict a = Tree.itemsDict b := by
  induction h with
  | nil => rfl
  | cons x _ ih => simp only [Tree.itemsDict, ih]
  | swap x y l => simp only [Tree.itemsDict]; omega
  | trans _ _ h1 h2 => rw [h1, h2]

theorem Tree.Same.items {s t : Tree} (h : Tree.Same s t) : s.items = t.items := by
  induction h with
  | refl => rfl
  | @arr xs ys len each ih =>
    simp only [Tree.items, itemsList_sums, len]
    congr 1
    refine sums_congr fun i hi => ?_
    have := ih i _ _ (List.getElem?_eq_getElem (show i < xs.length by omega)) (List.getElem?_eq_getElem hi)
    simpa [List.getElem?_eq_getElem hi, List.getElem?_eq_getElem (show i < xs.length by omega)] using this
  | @dict kvs mid lvs perm keys each ih =>
    have hlen : mid.length = lvs.length := by simpa using congrArg List.length keys
    simp only [Tree.items, itemsDict_perm perm, itemsDict_sums, hlen]
    congr 1
    refine sums_congr fun i hi => ?_
    unfold entryItems
    split
    · rfl
    · have := ih (i / 2) _ _ (List.getElem?_eq_getElem (show i / 2 < mid.length by omega))
        (List.getElem?_eq_getElem (show i / 2 < lvs.length by omega))
      simpa [List.getElem?_eq_getElem (show i / 2 < lvs.length by omega),
        List.getElem?_eq_getElem (show i / 2 < mid.length by omega)] using this

/-! ### Every call adds at most one value or key -/

/-- What an open collection will be, at most. -/
def Frame.items : Frame → Nat
  | .arr xs => 1 + Tree.itemsList xs
  | .dict kvs none => 1 + Tree.itemsDict kvs
  | .dict kvs (some _) => 2 + Tree.itemsDict kvs

def Build.items (b : Build) : Nat := (b.stack.map Frame.items).sum + (match b.root with
  | some t => t.items
  | none => 0)

theorem itemsList_append (xs ys : List Tree) : Tree.itemsList (xs ++ ys) = Tree.itemsList xs + Tree.itemsList ys := by
  induction xs with
  | nil => simp [Tree.itemsList]
  | cons t ts ih => simp only [List.cons_append, Tree.itemsList, ih]; omega

theorem itemsDict_append (xs ys : List (List UInt8 × Tree)) :
    Tree.itemsDict (xs ++ ys) = Tree.itemsDict xs + Tree.itemsDict ys := by
  induction xs with
  | nil => simp [Tree.itemsDict]
  | cons t ts ih => simp only [List.cons_append, Tree.itemsDict, ih]; omega

theorem Build.close_items (rest : List Frame) (t : Tree) :
    (Build.close rest t).items ≤ (rest.map Frame.items).sum + t.items := by
  unfold Build.close
  split
  · simp [Build.items]
  · simp [Build.items, Frame.items, itemsList_append, Tree.itemsList]; omega
  · simp [Build.items, Frame.items, itemsDict_append, Tree.itemsDict]; omega
  · simp [Build.items]

theorem Build.put_items {b b' : Build} {t : Tree} (h : b.put t = .ok b') : b'.items ≤ b.items + t.items := by
  unfold Build.put at h
  split at h
  · cases h
  · cases h; rename_i heq; simp [Build.items, heq, Frame.items, itemsList_append, Tree.itemsList]; omega
  · cases h; rename_i heq; simp [Build.items, heq, Frame.items, itemsDict_append, Tree.itemsDict]; omega
  · cases h

theorem Scalar.tree_items (F : FloatOps) (x : Scalar) : (x.tree F).items = 1 := by cases x <;> rfl

theorem Build.step_items {F : FloatOps} {b b' : Build} {op : Op} (h : b.step F op = .ok b') : b'.items ≤ b.items + 1 := by
  have hopen : ∀ f err, Frame.items f = 1 → b.open f err = .ok b' → b'.items ≤ b.items + 1 := by
    intro f err hf h
    unfold Build.open at h
    split at h
    · cases h
    · split at h
      · cases h
      · cases h; simp [Build.items, hf]; omega
  cases op with
  | beginArray n => exact hopen _ _ rfl h
  | beginDict => exact hopen _ _ rfl h
  | key k =>
    simp only [Build.step] at h
    split at h
    · cases h; rename_i heq; simp [Build.items, heq, Frame.items]; omega
    · cases h
    · cases h
  | value x =>
    have := Build.put_items h
    rw [Scalar.tree_items] at this
    exact this
  | endArray =>
    simp only [Build.step] at h
    split at h
    · cases h
      rename_i xs rest heq
      have := Build.close_items rest (.arr xs)
      simp [Build.items, heq, Frame.items, Tree.items] at this ⊢
      omega
    · cases h
  | endDict =>
    simp only [Build.step] at h
    split at h
    · cases h
      rename_i kvs rest heq
      have := Build.close_items rest (.dict kvs)
      simp [Build.items, heq, Frame.items, Tree.items] at this ⊢
      omega
    · cases h
    · cases h

theorem Build.run_items (F : FloatOps) (b : Build) (ops : List Op) : (b.run F ops).1.items ≤ b.items + ops.length := by
  induction ops generalizing b with
  | nil => exact Nat.le_refl _
  | cons op ops ih =>
    simp only [Build.run, List.length_cons]
    have := ih (b.next F op).1
    have h2 : (b.next F op).1.items ≤ b.items + 1 := by
      unfold Build.next
      split
      · rename_i heq; exact Build.step_items heq
      · simp
    omega

theorem Build.finishGo_items (n : Nat) (b : Build) : (Build.finishGo n b).items ≤ b.items := by
  induction n generalizing b with
  | zero => exact Nat.le_refl _
  | succ n ih =>
    unfold Build.finishGo
    split
    · exact Nat.le_refl _
    · rename_i xs rest heq
      have := ih (Build.close rest (.arr xs))
      have h2 := Build.close_items rest (.arr xs)
      simp [Build.items, heq, Frame.items, Tree.items] at this h2 ⊢
      omega
    · rename_i kvs k rest heq
      have := ih (Build.close rest (.dict kvs))
      have h2 := Build.close_items rest (.dict kvs)
      cases k <;> simp [Build.items, heq, Frame.items, Tree.items] at this h2 ⊢ <;> omega

/-- A document has at most as many values and keys as calls were made. -/
theorem Build.finish_items {F : FloatOps} {ops : List Op} {t : Tree} (h : (Build.run F {} ops).1.finish = some t) :
    t.items ≤ ops.length := by
  have h1 := Build.run_items F {} ops
  have h2 := Build.finishGo_items (Build.run F {} ops).1.stack.length (Build.run F {} ops).1
  unfold Build.finish at h
  have h3 : ({} : Build).items = 0 := rfl
  have : t.items ≤ (Build.finishGo (Build.run F {} ops).1.stack.length (Build.run F {} ops).1).items := by
    unfold Build.items
    rw [h]
    simp
  omega

end Fleece
