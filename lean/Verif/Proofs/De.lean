import Verif.Spec.Serde
import Verif.Proofs.WriteOps
import Verif.Proofs.KeyOrder
import Verif.Props.C24

/-!
# Deserializing a document
-/

namespace Fleece
open Res

theorem dread_ok {α : Type} (a : α) : D.read (.ok a : R α) = .ok a := rfl

/-! ## Lists of values -/

theorem trees_eq (F : FloatOps) (vs : List SVal) : SVal.trees F vs = vs.map (·.tree F) := by
  induction vs with
  | nil => simp [SVal.trees]
  | cons v vs ih => simp [SVal.trees, ih]

theorem fieldTrees_eq (F : FloatOps) (fs : List (RStr × SVal)) :
    SVal.fieldTrees F fs = fs.map fun f => (f.1.bytes, f.2.tree F) := by
  induction fs with
  | nil => simp [SVal.fieldTrees]
  | cons f fs ih => simp [SVal.fieldTrees, ih]

theorem entryTrees_eq (F : FloatOps) (kvs : List (SVal × SVal)) :
    SVal.entryTrees F kvs = kvs.map fun e => (e.1.keyText.bytes, e.2.tree F) := by
  induction kvs with
  | nil => simp [SVal.entryTrees]
  | cons e kvs ih => simp [SVal.entryTrees, ih]

theorem everyOf_mem {S : Scalar → Prop} {K : RStr → Prop} {vs : List SVal} :
    SVal.EveryOf S K vs ↔ ∀ v ∈ vs, v.Every S K := by
  induction vs with
  | nil => simp [SVal.EveryOf]
  | cons v vs ih => simp [SVal.EveryOf, ih]

theorem everyEntry_mem {S : Scalar → Prop} {K : RStr → Prop} {vs : List (SVal × SVal)} :
    SVal.EveryEntry S K vs ↔ ∀ e ∈ vs, K e.1.keyText ∧ e.2.Every S K := by
  induction vs with
  | nil => simp [SVal.EveryEntry]
  | cons v vs ih => simp [SVal.EveryEntry, ih, and_assoc]

theorem everyField_mem {S : Scalar → Prop} {K : RStr → Prop} {vs : List (RStr × SVal)} :
    SVal.EveryField S K vs ↔ ∀ e ∈ vs, K e.1 ∧ e.2.Every S K := by
  induction vs with
  | nil => simp [SVal.EveryField]
  | cons v vs ih => simp [SVal.EveryField, ih, and_assoc]

theorem returnsAll_mem {F : FloatOps} {vs : List SVal} : SVal.ReturnsAll F vs ↔ ∀ v ∈ vs, v.Returns F := by
  induction vs with
  | nil => simp [SVal.ReturnsAll]
  | cons v vs ih => simp [SVal.ReturnsAll, ih]

theorem returnsEntries_mem {F : FloatOps} {vs : List (SVal × SVal)} :
    SVal.ReturnsEntries F vs ↔ ∀ e ∈ vs, e.2.Returns F := by
  induction vs with
  | nil => simp [SVal.ReturnsEntries]
  | cons v vs ih => simp [SVal.ReturnsEntries, ih]

theorem returnsFields_mem {F : FloatOps} {vs : List (RStr × SVal)} :
    SVal.ReturnsFields F vs ↔ ∀ e ∈ vs, e.2.Returns F := by
  induction vs with
  | nil => simp [SVal.ReturnsFields]
  | cons v vs ih => simp [SVal.ReturnsFields, ih]

/-! ## Documents up to the order of dicts -/

theorem Tree.Same.arr_inv {xs : List Tree} {t : Tree} (h : Tree.Same (.arr xs) t) : ∃ ys, t = .arr ys ∧
    xs.length = ys.length ∧ ∀ (i : Nat) x y, xs[i]? = some x → ys[i]? = some y → Tree.Same x y := by
  cases h with
  | refl => exact ⟨xs, rfl, rfl, fun i x y a b => by rw [a] at b; cases b; exact .refl _⟩
  | arr len each => exact ⟨_, rfl, len, each⟩

theorem Tree.Same.dict_inv {kvs : List (List UInt8 × Tree)} {t : Tree} (h : Tree.Same (.dict kvs) t) :
    ∃ mid lvs, t = .dict lvs ∧ kvs.Perm mid ∧ mid.map (·.1) = lvs.map (·.1) ∧
      ∀ (i : Nat) (x y : List UInt8 × Tree), mid[i]? = some x → lvs[i]? = some y → Tree.Same x.2 y.2 := by
  cases h with
  | refl => exact ⟨kvs, kvs, rfl, .refl _, rfl, fun i x y a b => by rw [a] at b; cases b; exact .refl _⟩
  | dict perm keys each => exact ⟨_, _, rfl, perm, keys, each⟩

theorem Tree.Same.leaf_inv {t t' : Tree} (h : Tree.Same t t') (ha : ∀ xs, t ≠ .arr xs) (hd : ∀ kvs, t ≠ .dict kvs) :
    t' = t := by
  cases h with
  | refl => rfl
  | arr => exact absurd rfl (ha _)
  | dict => exact absurd rfl (hd _)

/-! ## Scalars -/

theorem holds_iff {t : IntTy} {n : Int} : t.Holds n ↔ t.lo ≤ n ∧ n ≤ t.hi := by
  have hz8 : Int8.size = 2 ^ 8 := rfl
  have hz16 : Int16.size = 2 ^ 16 := rfl
  have hz32 : Int32.size = 2 ^ 32 := rfl
  have hz64 : Int64.size = 2 ^ 64 := rfl
  cases t <;> simp only [IntTy.Holds, IntTy.lo, IntTy.hi]
  · refine ⟨?_, fun h => ⟨Int8.ofInt n, by rw [Int8.toInt_ofInt, hz8, Int.bmod_eq_of_le (by omega) (by omega)]⟩⟩
    rintro ⟨x, rfl⟩; have := x.toInt_lt; have := x.le_toInt; omega
  · refine ⟨?_, fun h => ⟨Int16.ofInt n, by rw [Int16.toInt_ofInt, hz16, Int.bmod_eq_of_le (by omega) (by omega)]⟩⟩
    rintro ⟨x, rfl⟩; have := x.toInt_lt; have := x.le_toInt; omega
  · refine ⟨?_, fun h => ⟨Int32.ofInt n, by rw [Int32.toInt_ofInt, hz32, Int.bmod_eq_of_le (by omega) (by omega)]⟩⟩
    rintro ⟨x, rfl⟩; have := x.toInt_lt; have := x.le_toInt; omega
  · refine ⟨?_, fun h => ⟨Int64.ofInt n, by rw [Int64.toInt_ofInt, hz64, Int.bmod_eq_of_le (by omega) (by omega)]⟩⟩
    rintro ⟨x, rfl⟩; have := x.toInt_lt; have := x.le_toInt; omega
  · refine ⟨?_, fun h => ⟨UInt8.ofNat n.toNat, by simp; omega⟩⟩
    rintro ⟨x, rfl⟩; have := x.toNat_lt; omega
  · refine ⟨?_, fun h => ⟨UInt16.ofNat n.toNat, by simp; omega⟩⟩
    rintro ⟨x, rfl⟩; have := x.toNat_lt; omega
  · refine ⟨?_, fun h => ⟨UInt32.ofNat n.toNat, by simp; omega⟩⟩
    rintro ⟨x, rfl⟩; have := x.toNat_lt; omega
  · refine ⟨?_, fun h => ⟨UInt64.ofNat n.toNat, by simp; omega⟩⟩
    rintro ⟨x, rfl⟩; have := x.toNat_lt; omega

theorem intTy_tree (F : FloatOps) (t : IntTy) (n : Int) (lo : t.lo ≤ n) (hi : n ≤ t.hi) : (t.scalar n).tree F = .int n := by
  have hz8 : Int8.size = 2 ^ 8 := rfl
  have hz16 : Int16.size = 2 ^ 16 := rfl
  have hz32 : Int32.size = 2 ^ 32 := rfl
  have hz64 : Int64.size = 2 ^ 64 := rfl
  cases t <;> simp only [IntTy.lo, IntTy.hi] at lo hi <;> simp only [IntTy.scalar, Scalar.tree, Tree.int.injEq]
  · rw [Int8.toInt_ofInt, hz8, Int.bmod_eq_of_le (by omega) (by omega)]
  · rw [Int16.toInt_ofInt, hz16, Int.bmod_eq_of_le (by omega) (by omega)]
  · rw [Int32.toInt_ofInt, hz32, Int.bmod_eq_of_le (by omega) (by omega)]
  · rw [Int64.toInt_ofInt, hz64, Int.bmod_eq_of_le (by omega) (by omega)]
  all_goals (simp; omega)

/-- What a visitor sees of a scalar. -/
inductive Sees (F : FloatOps) : Tree → Visit → Prop where
  | null : Sees F .null .none
  | undefined : Sees F .undefined .unit
  | bool (b : Bool) : Sees F (.bool b) (.bool b)
  | i64 (i : Int) : Sees F (.int i) (.i64 i)
  | u64 (n : Nat) : Sees F (.int n) (.u64 n)
  | f32 (b : UInt32) : Sees F (.float (F.widen b)) (.f32 (F.narrow (F.widen b)))
  | f64 (d : UInt64) : Sees F (.float d) (.f64 d)
  | str (s : List UInt8) : Sees F (.str s) (.str s)
  | data (d : List UInt8) : Sees F (.data d) (.bytes d)

theorem floatBits_widen {m : Mem} {F : FloatOps} {v : Val} {d : UInt64} (h : v.floatBits m F false = .ok d) :
    ∃ b, d = F.widen b := by
  unfold Val.floatBits at h
  simp only [Bool.false_eq_true, if_false] at h
  obtain ⟨bs, _, h⟩ := bind_eq_ok.mp h
  cases h
  exact ⟨_, rfl⟩

theorem any_leaf {X : DeCtx} {v : Val} {ty : ValueType} {t : Tree} (ht : v.type X.m = .ok ty) (na : ty ≠ .array)
    (nd : ty ≠ .dict) (h : readTree X.m X.F X.scope 1 v = .ok t) :
    ∃ w, De.any X ⟨v, false⟩ = .ok w ∧ Sees X.F t w := by
  unfold readTree at h
  unfold De.any
  simp only [ht, ok_bind, dread_ok] at h ⊢
  cases ty <;> dsimp only at h ⊢
  case null => cases h; exact ⟨_, rfl, .null⟩
  case undefined => cases h; exact ⟨_, rfl, .undefined⟩
  case false => cases h; simp only [Val.toBool, ht, ok_bind, pure_eq, dread_ok]; exact ⟨_, rfl, .bool _⟩
  case true => cases h; simp only [Val.toBool, ht, ok_bind, pure_eq, dread_ok]; exact ⟨_, rfl, .bool _⟩
  case short =>
    obtain ⟨i, hi, h⟩ := bind_eq_ok.mp h
    cases h
    have hs : v.shortInt X.m = .ok i := by
      unfold Val.toInt at hi; rw [ht] at hi; exact hi
    have hsh : v.toShort X.m X.F = .ok i := by unfold Val.toShort; rw [ht]; exact hs
    simp only [Bool.false_eq_true, if_false, hsh, dread_ok, ok_bind, pure_eq]
    exact ⟨_, rfl, .i64 _⟩
  case int =>
    obtain ⟨i, hi, h⟩ := bind_eq_ok.mp h
    cases h
    simp only [hi, dread_ok, ok_bind, pure_eq]
    exact ⟨_, rfl, .i64 _⟩
  case unsignedInt =>
    obtain ⟨i, hi, h⟩ := bind_eq_ok.mp h
    cases h
    simp only [hi, dread_ok, ok_bind, pure_eq]
    exact ⟨_, rfl, .u64 _⟩
  case float =>
    obtain ⟨d, hd, h⟩ := bind_eq_ok.mp h
    cases h
    have hb : v.floatBits X.m X.F false = .ok d := by unfold Val.toDouble at hd; rw [ht] at hd; exact hd
    obtain ⟨b, rfl⟩ := floatBits_widen hb
    simp only [Val.toFloat, hd, dread_ok, ok_bind, pure_eq]
    exact ⟨_, rfl, .f32 _⟩
  case double32 =>
    obtain ⟨d, hd, h⟩ := bind_eq_ok.mp h
    cases h
    simp only [hd, dread_ok, ok_bind, pure_eq]
    exact ⟨_, rfl, .f64 _⟩
  case double64 =>
    obtain ⟨d, hd, h⟩ := bind_eq_ok.mp h
    cases h
    simp only [hd, dread_ok, ok_bind, pure_eq]
    exact ⟨_, rfl, .f64 _⟩
  case string =>
    obtain ⟨d, hd, h⟩ := bind_eq_ok.mp h
    cases h
    simp only [hd, dread_ok, ok_bind, pure_eq]
    exact ⟨_, rfl, .str _⟩
  case data =>
    obtain ⟨d, hd, h⟩ := bind_eq_ok.mp h
    cases h
    simp only [hd, dread_ok, ok_bind, pure_eq]
    exact ⟨_, rfl, .data _⟩
  case array => exact absurd rfl na
  case dict => exact absurd rfl nd
  case pointer => cases h

/-! ## The type of a value that matches -/

/-- The type, which is not a pointer, and null only for null. -/
theorem Matches.type {m : Mem} {F : FloatOps} {scope : Option SharedKeys} {probe : List UInt8 → Prop} {v : Val} {t : Tree}
    (h : Matches m F scope probe v t) : ∃ ty, v.type m = .ok ty ∧ ty ≠ .pointer ∧ (ty = .null ↔ t = .null) := by
  cases h with
  | @leaf v ty t type na nd read =>
    refine ⟨ty, type, ?_, ?_⟩
    · rintro rfl
      unfold readTree at read
      rw [type] at read
      cases read
    · unfold readTree at read
      simp only [type, ok_bind] at read
      constructor
      · rintro rfl; cases read; rfl
      · rintro rfl
        cases ty <;> dsimp only at read
        case null => rfl
        case array => exact absurd rfl na
        case dict => exact absurd rfl nd
        all_goals first
          | (cases read; done)
          | (obtain ⟨_, _, read⟩ := bind_eq_ok.mp read; cases read)
  | arr u type => exact ⟨_, asArray_type type, by simp, by simp⟩
  | dict u type => exact ⟨_, asDict_type type, by simp, by simp⟩

/-- `Deserializer::new` leaves such a value alone. -/
theorem new_ok {X : DeCtx} {v : Val} {ty : ValueType} (ht : v.type X.m = .ok ty) (hp : ty ≠ .pointer) (w k : Bool) :
    De.new X v w k = .ok ⟨v, k⟩ := by
  unfold De.new
  simp only [ht, dread_ok, ok_bind, if_neg hp, pure_eq]

/-! ## Arrays -/

/-- Its type is known and not a pointer. -/
def Val.Direct (m : Mem) (v : Val) : Prop := ∃ ty, v.type m = .ok ty ∧ ty ≠ .pointer

theorem Matches.direct {m : Mem} {F : FloatOps} {scope : Option SharedKeys} {probe : List UInt8 → Prop} {v : Val} {t : Tree}
    (h : Matches m F scope probe v t) : v.Direct m := by
  obtain ⟨ty, h1, h2, _⟩ := h.type
  exact ⟨ty, h1, h2⟩

theorem next_ok {X : DeCtx} {it it' : Iter} {v : Val} (hs : it.step X.m = .ok (some v, it')) (hv : v.Direct X.m) (k : Bool) :
    De.next X it k = .ok (some ⟨v, k⟩, it') := by
  obtain ⟨ty, h1, h2⟩ := hv
  unfold De.next
  simp only [hs, dread_ok, ok_bind, new_ok h1 h2, pure_eq]

theorem next_none {X : DeCtx} {it it' : Iter} (hs : it.step X.m = .ok (none, it')) (k : Bool) :
    De.next X it k = .ok (none, it') := by
  unfold De.next
  simp only [hs, dread_ok, ok_bind, pure_eq]

theorem all_ok {α : Type} {X : DeCtx} {f : De → D α} {n : Nat} : ∀ {n' : Nat} {it : Iter} {us : List Val} {as : List α},
    collect X.m (fun x => .ok x) n it = .ok us → n ≤ n' → as.length = us.length →
    (∀ (i : Nat) u a, us[i]? = some u → as[i]? = some a → u.Direct X.m ∧ f ⟨u, false⟩ = .ok a) →
    De.all X f n' it = .ok as := by
  induction n with
  | zero => intro n' it us as h; cases h
  | succ n ih =>
    intro n' it us as h hn hl he
    unfold collect at h
    obtain ⟨⟨x, it'⟩, hs, h⟩ := bind_eq_ok.mp h
    cases n' with
    | zero => omega
    | succ n' =>
      unfold De.all
      cases x with
      | none =>
        cases h
        cases as with
        | nil => simp only [next_none hs, ok_bind, pure_eq]
        | cons _ _ => cases hl
      | some x =>
        obtain ⟨_, h0, h⟩ := bind_eq_ok.mp h
        obtain ⟨rest, hr, h⟩ := bind_eq_ok.mp h
        cases h0; cases h
        cases as with
        | nil => cases hl
        | cons a as =>
          obtain ⟨h1, h2⟩ := he 0 x a rfl rfl
          have hrest := ih (n' := n') (as := as) hr (by omega) (by simpa using hl)
            (fun i u a b c => he (i + 1) u a (by simpa using b) (by simpa using c))
          simp only [next_ok hs h1, ok_bind, h2, hrest, pure_eq]

theorem each_ok {α : Type} {X : DeCtx} {f : Ty → De → D α} (ts : List Ty) : ∀ {n : Nat} {it : Iter} {us : List Val} {as : List α},
    collect X.m (fun x => .ok x) n it = .ok us → ts.length ≤ us.length → as.length = ts.length →
    (∀ (i : Nat) t u a, ts[i]? = some t → us[i]? = some u → as[i]? = some a → u.Direct X.m ∧ f t ⟨u, false⟩ = .ok a) →
    De.each X f ts it = .ok as := by
  induction ts with
  | nil =>
    intro n it us as h hl hl' _
    cases as with
    | nil => rfl
    | cons _ _ => simp at hl'
  | cons t ts ih =>
    intro n it us as h hl hl' he
    cases n with
    | zero => cases h
    | succ n =>
      unfold collect at h
      obtain ⟨⟨x, it'⟩, hs, h⟩ := bind_eq_ok.mp h
      cases x with
      | none => cases h; simp at hl
      | some x =>
        obtain ⟨_, h0, h⟩ := bind_eq_ok.mp h
        obtain ⟨rest, hr, h⟩ := bind_eq_ok.mp h
        cases h0; cases h
        cases as with
        | nil => cases hl'
        | cons a as =>
          obtain ⟨h1, h2⟩ := he 0 t x a rfl rfl rfl
          unfold De.each
          simp only [next_ok hs h1, ok_bind, h2, ih hr (by simpa using hl) (by simpa using hl')
            (fun i t u a b c d => he (i + 1) t u a (by simpa using b) (by simpa using c) (by simpa using d)), pure_eq]

/-! ## Dicts -/

/-- Raw iteration over keys and values. -/
inductive Walk (X : DeCtx) : Iter → List (List UInt8 × Val) → Prop where
  | nil {it it' : Iter} (stop : De.next X it true = .ok (none, it')) : Walk X it []
  | cons {it it1 it2 : Iter} {d : De} {k : List UInt8} {u : Val} {es : List (List UInt8 × Val)}
      (key : De.next X it true = .ok (some d, it1)) (text : d.any X = .ok (.str k))
      (value : De.nextValue X it1 = .ok (⟨u, false⟩, it2)) (rest : Walk X it2 es) : Walk X it ((k, u) :: es)

theorem toStr_string {m : Mem} {v : Val} {s : List UInt8} (h : v.toStr m = .ok s) (hs : s ≠ []) : v.type m = .ok .string := by
  unfold Val.toStr at h
  obtain ⟨ty, h1, h2⟩ := bind_eq_ok.mp h
  cases ty <;> dsimp only at h2 <;> first | exact h1 | (cases h2; exact absurd rfl hs)

theorem dictStep_some {m : Mem} {scope : Option SharedKeys} {it it2 : Iter} {key : List UInt8} {x : Val}
    (h : it.dictStep m scope = .ok (some (key, x), it2)) : ∃ k it1 kt, it.step m = .ok (some k, it1) ∧ k.type m = .ok kt ∧
      it1.step m = .ok (some x, it2) ∧
      ((kt = .short ∧ ∃ sk c, scope = some sk ∧ k.getShort m = .ok c ∧ sk.decode c = some key) ∨
        (kt ≠ .short ∧ k.toStr m = .ok key)) := by
  unfold Iter.dictStep at h
  obtain ⟨⟨k, it1⟩, hs, h⟩ := bind_eq_ok.mp h
  cases k with
  | none => cases h
  | some k =>
    dsimp only at h
    obtain ⟨kt, hkt, h⟩ := bind_eq_ok.mp h
    have hvalue : ∀ {key' : List UInt8}, (do
        let (x, it2) ← it1.step m
        match x with
        | none => pure (none, it2)
        | some x => pure (some (key', x), it2) : R (Option (List UInt8 × Val) × Iter)) = .ok (some (key, x), it2) →
        key' = key ∧ it1.step m = .ok (some x, it2) := by
      intro key' h
      obtain ⟨⟨y, it3⟩, hs2, h⟩ := bind_eq_ok.mp h
      cases y with
      | none => cases h
      | some y => cases h; exact ⟨rfl, hs2⟩
    by_cases hsh : kt = .short
    · rw [if_pos hsh] at h
      cases hsc : scope with
      | none => rw [hsc] at h; cases h
      | some sk =>
        rw [hsc] at h
        dsimp only at h
        obtain ⟨c, hc, h⟩ := bind_eq_ok.mp h
        simp only [pure_eq, ok_bind] at h
        cases hdec : sk.decode c with
        | none => rw [hdec] at h; cases h
        | some key' =>
          rw [hdec] at h
          obtain ⟨rfl, h2⟩ := hvalue h
          exact ⟨k, it1, kt, hs, hkt, h2, .inl ⟨hsh, sk, c, rfl, hc, hdec⟩⟩
    · rw [if_neg hsh] at h
      obtain ⟨s, hst, h⟩ := bind_eq_ok.mp h
      simp only [pure_eq, ok_bind] at h
      obtain ⟨rfl, h2⟩ := hvalue h
      exact ⟨k, it1, kt, hs, hkt, h2, .inr ⟨hsh, hst⟩⟩

theorem walk_of_collect {X : DeCtx} {n : Nat} : ∀ {it : Iter} {es : List (List UInt8 × Val)},
    collectDict X.m X.scope (fun x => .ok x) n it = .ok es → (∀ e ∈ es, e.1 ≠ [] ∧ e.2.Direct X.m) →
    it.index ≤ it.len → (it.next = none → it.index = it.len) → it.len = it.index + 2 * es.length → Walk X it es := by
  induction n with
  | zero => intro it es h; cases h
  | succ n ih =>
    intro it es h he c0 c1 c2
    unfold collectDict at h
    obtain ⟨⟨x, it2⟩, hd, h⟩ := bind_eq_ok.mp h
    cases x with
    | none =>
      cases h
      unfold Iter.dictStep at hd
      obtain ⟨⟨k, it1⟩, hs, hd⟩ := bind_eq_ok.mp hd
      obtain ⟨g1, g2⟩ := step_counts hs c0 c1
      cases k with
      | none => exact .nil (next_none hs _)
      | some k => have := (g2 rfl).1; simp at c2; omega
    | some x =>
      obtain ⟨key, x⟩ := x
      obtain ⟨_, h0, h⟩ := bind_eq_ok.mp h
      obtain ⟨rest, hr, h⟩ := bind_eq_ok.mp h
      cases h0; cases h
      obtain ⟨hk, hx⟩ := he (key, x) (by simp)
      obtain ⟨k, it1, kt, hs, hkt, hs2, hcase⟩ := dictStep_some hd
      obtain ⟨_, q1, q2, q3⟩ := (step_counts hs c0 c1).2 rfl
      obtain ⟨_, q4, q5, q6⟩ := (step_counts hs2 (by omega) q3).2 rfl
      have hnp : kt ≠ .pointer ∧ De.any X ⟨k, true⟩ = .ok (.str key) := by
        rcases hcase with ⟨rfl, sk, c, hsc, hc, hdec⟩ | ⟨hsh, hst⟩
        · refine ⟨by simp, ?_⟩
          have hu : k.toUnsignedShort X.m X.F = .ok c := by unfold Val.toUnsignedShort; rw [hkt]; exact hc
          unfold De.any
          simp only [hkt, dread_ok, ok_bind, if_true, hu, hsc, Option.bind_some, hdec, pure_eq]
        · have hty := toStr_string hst hk
          rw [hkt] at hty
          cases hty
          refine ⟨by simp, ?_⟩
          unfold De.any
          simp only [hkt, dread_ok, ok_bind, hst, pure_eq]
      refine .cons (next_ok hs ⟨kt, hkt, hnp.1⟩ true) hnp.2 (it2 := it2) ?_ ?_
      · unfold De.nextValue
        simp only [next_ok hs2 hx, ok_bind, pure_eq]
      · exact ih hr (fun e h => he e (by simp [h])) (by simp at c2; omega) q6 (by simp at c2; omega)

theorem usizeMul_even {dbg : Bool} {a n : Nat} {ε : Type} (h : (usizeMul dbg a 2 : Res ε Nat) = .ok n) : n % 2 = 0 := by
  unfold usizeMul at h
  split at h
  · cases h; omega
  · split at h
    · cases h
    · cases h; omega

theorem dict_even {m : Mem} {v : Val} {n : Nat} (ht : v.type m = .ok .dict) (h : v.arrayLen m = .ok n) : n % 2 = 0 := by
  unfold Val.arrayLen at h
  obtain ⟨s, _, h⟩ := bind_eq_ok.mp h
  dsimp only at h
  split at h
  · obtain ⟨rest, _, h⟩ := bind_eq_ok.mp h
    obtain ⟨⟨r, sz⟩, _, h⟩ := bind_eq_ok.mp h
    dsimp only at h
    split at h
    · cases h; rfl
    · rw [ht] at h; exact usizeMul_even h
  · rw [ht] at h; exact usizeMul_even h

/-- Walking over a dict. -/
theorem dict_walk {X : DeCtx} {probe : List UInt8 → Prop} {v : Val} {kvs : List (List UInt8 × Tree)}
    (h : Matches X.m X.F X.scope probe v (.dict kvs)) (hk : ∀ e ∈ kvs, e.1 ≠ []) :
    ∃ (u : Nat → Val) (it : Iter), De.map X ⟨v, false⟩ = .ok it ∧ Walk X it (kvs.mapIdx fun i kv => (kv.1, u i)) ∧
      kvs.length ≤ it.len ∧ v.asDict X.m = .ok (some v) ∧ v.dictLen X.m = .ok kvs.length ∧
      (∀ k, probe k → k ∈ kvs.map Prod.fst → ∃ r, v.Lookup X.m X.scope k (some r)) ∧
      ∀ (i : Nat) (k : List UInt8) (t : Tree), kvs[i]? = some (k, t) → Matches X.m X.F X.scope probe (u i) t := by
  generalize hd : Tree.dict kvs = t at h
  cases h with
  | leaf type na nd read => subst hd; exact absurd rfl ((Props.leaf_read type na nd read).2 _)
  | arr => cases hd
  | @dict _ kvs' u type len iter order found absent each =>
    cases hd
    obtain ⟨it, h1, h2⟩ := iter
    obtain ⟨c1, c2, c3⟩ := iter_counts h1
    have hev := dict_even (asDict_type type) c1
    have hlen : it.len / 2 = kvs.length := by
      unfold Val.dictLen at len
      rw [c1] at len
      simpa using len
    refine ⟨u, it, ?_, ?_, by omega, type, len, ?_, each⟩
    · unfold De.map
      simp only [type, dread_ok, ok_bind, h1]
    · refine walk_of_collect h2 ?_ (by omega) (fun h => by have := c3 h; omega) (by simp; omega)
      intro e he
      obtain ⟨i, hi, rfl⟩ := List.mem_iff_getElem.mp he
      simp only [List.length_mapIdx] at hi
      simp only [List.getElem_mapIdx]
      exact ⟨hk _ (List.getElem_mem _), (each i kvs[i].1 kvs[i].2 (by simp [hi])).direct⟩
    · intro k hp hm
      obtain ⟨i, t, _, h4⟩ := found k hp hm
      exact ⟨_, h4⟩

end Fleece
