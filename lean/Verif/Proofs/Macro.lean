import Verif.Spec.Literal
import Verif.Proofs.Ser
import Verif.Proofs.SerOps

/-!
# The calls that `fleece!` makes
-/

namespace Fleece
open Res

mutual
def Lit.ops : Lit → List Op
  | .val x => [.value x]
  | .arr xs => .beginArray 10 :: ((Lit.opsAll xs).flatten ++ [.endArray])
  | .dict kvs => .beginDict :: (((Lit.opsOf kvs).map fun p => Op.key p.1 :: p.2).flatten ++ [.endDict])

def Lit.opsAll : List Lit → List (List Op)
  | [] => []
  | x :: xs => x.ops :: Lit.opsAll xs

def Lit.opsOf : List (RStr × Lit) → List (RStr × List Op)
  | [] => []
  | kv :: kvs => (kv.1, kv.2.ops) :: Lit.opsOf kvs
end

/-- All calls, none of which may fail. -/
def Enc.runMust (c : Cfg) : List Op → Enc → Exec Enc
  | [], e => .ok e
  | op :: ops, e => do
    let e ← unwrapUnchecked (e.step c op)
    Enc.runMust c ops e

theorem Enc.runMust_append (c : Cfg) (l r : List Op) : ∀ e : Enc,
    Enc.runMust c (l ++ r) e = (Enc.runMust c l e >>= fun e => Enc.runMust c r e) := by
  induction l with
  | nil => intro e; rfl
  | cons op l ih => intro e; simp only [List.cons_append, Enc.runMust, ih, bind_assoc]

theorem Enc.runMust_one (c : Cfg) (op : Op) (e : Enc) : Enc.runMust c [op] e = unwrapUnchecked (e.step c op) := by
  simp only [Enc.runMust]
  cases unwrapUnchecked (e.step c op) <;> rfl

theorem Enc.runMust_run {c : Cfg} (ops : List Op) : ∀ {e e' : Enc} {rs : List (Except EncodeError Unit)},
    e.run c ops = .ok (e', rs) → (∀ r ∈ rs, r = .ok ()) → Enc.runMust c ops e = .ok e' := by
  induction ops with
  | nil => intro e e' rs h _; cases h; rfl
  | cons op ops ih =>
    intro e e' rs h hr
    obtain ⟨e1, r, rs', h1, h2, rfl⟩ := Enc.run_cons h
    have h0 := hr r (by simp)
    subst h0
    simp only [Enc.runMust, unwrapUnchecked, h1, ok_bind]
    exact ih h2 fun r hr' => hr r (by simp [hr'])

mutual
theorem Lit.write_ops (c : Cfg) : ∀ (l : Lit) (e : Enc), l.write c e = Enc.runMust c l.ops e
  | .val x, e => by rw [Lit.write, Lit.ops, Enc.runMust_one]; rfl
  | .arr xs, e => by
    rw [Lit.write, Lit.ops, Enc.runMust]
    simp only [Enc.runMust_append, Enc.runMust_one, Lit.pushAll_ops c xs]
    rfl
  | .dict kvs, e => by
    rw [Lit.write, Lit.ops, Enc.runMust]
    simp only [Enc.runMust_append, Enc.runMust_one, Lit.insertAll_ops c kvs]
    rfl

theorem Lit.pushAll_ops (c : Cfg) : ∀ (xs : List Lit) (e : Enc),
    Lit.pushAll c xs e = Enc.runMust c (Lit.opsAll xs).flatten e
  | [], e => rfl
  | x :: xs, e => by
    rw [Lit.pushAll, Lit.opsAll, List.flatten_cons, Enc.runMust_append, Lit.write_ops c x]
    simp only [Lit.pushAll_ops c xs]

theorem Lit.insertAll_ops (c : Cfg) : ∀ (kvs : List (RStr × Lit)) (e : Enc),
    Lit.insertAll c kvs e = Enc.runMust c ((Lit.opsOf kvs).map fun p => Op.key p.1 :: p.2).flatten e
  | [], e => rfl
  | kv :: kvs, e => by
    rw [Lit.insertAll, Lit.opsOf, List.map_cons, List.flatten_cons, List.cons_append, Enc.runMust]
    simp only [Enc.runMust_append, Lit.write_ops c kv.2, Lit.insertAll_ops c kvs]
    rfl
end

mutual
theorem Lit.spells (F : FloatOps) (K : RStr → Prop) : ∀ l : Lit, l.Every Scalar.Survives K → Spells F (l.tree F) l.ops
  | .val x, h => by simp only [Lit.Every] at h; exact .scalar h
  | .arr xs, h => by
    simp only [Lit.Every] at h
    rw [Lit.tree, Lit.ops]
    obtain ⟨h1, h2⟩ := Lit.spellsAll F K xs h
    exact .arr (.inr (by omega)) h1 h2
  | .dict kvs, h => by
    simp only [Lit.Every] at h
    rw [Lit.tree, Lit.ops]
    obtain ⟨h1, h2⟩ := Lit.spellsOf F K kvs h
    exact .dict h1 (fun i x p hx hp => (h2 i x p hx hp).1) (fun i x p hx hp => (h2 i x p hx hp).2)

theorem Lit.spellsAll (F : FloatOps) (K : RStr → Prop) : ∀ xs : List Lit, Lit.EveryOf Scalar.Survives K xs →
    (Lit.opsAll xs).length = (Lit.trees F xs).length ∧
    ∀ (i : Nat) x p, (Lit.trees F xs)[i]? = some x → (Lit.opsAll xs)[i]? = some p → Spells F x p
  | [], _ => ⟨rfl, nofun⟩
  | x :: xs, h => by
    simp only [Lit.EveryOf] at h
    have h0 := Lit.spells F K x h.1
    obtain ⟨h1, h2⟩ := Lit.spellsAll F K xs h.2
    refine ⟨by simpa [Lit.opsAll, Lit.trees] using h1, ?_⟩
    intro i y p hy hp
    cases i with
    | zero => simp [Lit.opsAll, Lit.trees] at hy hp; subst hy; subst hp; exact h0
    | succ i => simp [Lit.opsAll, Lit.trees] at hy hp; exact h2 i y p hy hp

theorem Lit.spellsOf (F : FloatOps) (K : RStr → Prop) : ∀ kvs : List (RStr × Lit), Lit.EveryEntry Scalar.Survives K kvs →
    (Lit.opsOf kvs).length = (Lit.entries F kvs).length ∧
    ∀ (i : Nat) x p, (Lit.entries F kvs)[i]? = some x → (Lit.opsOf kvs)[i]? = some p → p.1.bytes = x.1 ∧ Spells F x.2 p.2
  | [], _ => ⟨rfl, nofun⟩
  | kv :: kvs, h => by
    simp only [Lit.EveryEntry] at h
    have h0 := Lit.spells F K kv.2 h.2.1
    obtain ⟨h1, h2⟩ := Lit.spellsOf F K kvs h.2.2
    refine ⟨by simpa [Lit.opsOf, Lit.entries] using h1, ?_⟩
    intro i y p hy hp
    cases i with
    | zero => simp [Lit.opsOf, Lit.entries] at hy hp; subst hy; subst hp; exact ⟨rfl, h0⟩
    | succ i => simp [Lit.opsOf, Lit.entries] at hy hp; exact h2 i y p hy hp
end

mutual
theorem Lit.ops_in {S : Scalar → Prop} {K : RStr → Prop} : ∀ l : Lit, l.Every S K → ∀ op ∈ l.ops, op.In S K
  | .val x, h => by simpa [Lit.ops, Lit.Every, Op.In] using h
  | .arr xs, h => by
    simp only [Lit.Every] at h
    have := Lit.opsAll_in xs h
    intro op hop
    simp only [Lit.ops, List.mem_cons, List.mem_append, List.not_mem_nil, or_false] at hop
    rcases hop with rfl | hop | rfl
    · trivial
    · exact this op hop
    · trivial
  | .dict kvs, h => by
    simp only [Lit.Every] at h
    have := Lit.opsOf_in kvs h
    intro op hop
    simp only [Lit.ops, List.mem_cons, List.mem_append, List.not_mem_nil, or_false] at hop
    rcases hop with rfl | hop | rfl
    · trivial
    · exact this op hop
    · trivial

theorem Lit.opsAll_in {S : Scalar → Prop} {K : RStr → Prop} : ∀ xs : List Lit, Lit.EveryOf S K xs →
    ∀ op ∈ (Lit.opsAll xs).flatten, op.In S K
  | [], _ => by simp [Lit.opsAll]
  | x :: xs, h => by
    simp only [Lit.EveryOf] at h
    have h1 := Lit.ops_in x h.1
    have h2 := Lit.opsAll_in xs h.2
    intro op hop
    simp only [Lit.opsAll, List.flatten_cons, List.mem_append] at hop
    exact hop.elim (h1 op) (h2 op)

theorem Lit.opsOf_in {S : Scalar → Prop} {K : RStr → Prop} : ∀ kvs : List (RStr × Lit), Lit.EveryEntry S K kvs →
    ∀ op ∈ ((Lit.opsOf kvs).map fun p => Op.key p.1 :: p.2).flatten, op.In S K
  | [], _ => by simp [Lit.opsOf]
  | kv :: kvs, h => by
    simp only [Lit.EveryEntry] at h
    have h1 := Lit.ops_in kv.2 h.2.1
    have h2 := Lit.opsOf_in kvs h.2.2
    intro op hop
    simp only [Lit.opsOf, List.map_cons, List.flatten_cons, List.mem_append, List.mem_cons] at hop
    rcases hop with (rfl | hop) | hop
    · exact h.1
    · exact h1 op hop
    · exact h2 op hop
end

theorem unwrap_eq_ok {α : Type} {x : R α} {a : α} (h : x = .ok a) : unwrap x = .ok a := by rw [h]; rfl

/-- What `finish_value` gives of bytes that are accepted. -/
theorem Enc.finishValue_ok {c : Cfg} {e : Enc} {base : Nat} {out : List UInt8} {v : Val} (h : e.finish c = .ok out)
    (hd : c.dbg = true → fromBytes ⟨out, base, c.dbg⟩ = .ok v)
    (hr : c.dbg = false → fromBytesUnchecked ⟨out, base, c.dbg⟩ = .ok v) :
    e.finishValue c base = .ok ⟨⟨out, base, c.dbg⟩, v⟩ := by
  unfold Enc.finishValue
  simp only [h, ok_bind]
  split
  · next hc => exact unwrap_eq_ok (by simp only [cloneFromBytes, hd hc, ok_bind, pure_eq])
  · next hc => exact unwrap_eq_ok (by simp only [cloneFromBytesUnchecked, hr (by simpa using hc), ok_bind, pure_eq])

end Fleece
