import Verif.Spec.Doc
import Verif.Spec.KeyOrder

/-!
# Specification: a value seen through the reader API

`Matches m F scope probe v t`: whatever a client learns about `v` by `len`, indexing, iteration and lookup, all the way
down, agrees with the document `t`.
-/

namespace Fleece

/-- The key under which the text `k` is kept, given the shared keys. -/
def keyOf (scope : Option SharedKeys) (k : List UInt8) : Key :=
  match scope.bind (·.encode k) with
  | some c => .shared c
  | none => .string k

/-- Every way of looking up `k` gives `r`: `Dict::get` and, if there are shared keys, `Dict::get_with_shared_keys`. -/
def Val.Lookup (m : Mem) (scope : Option SharedKeys) (v : Val) (k : List UInt8) (r : Option Val) : Prop :=
  v.dictGet m scope k = .ok r ∧ v.containsKey m scope k = .ok r.isSome ∧
    ∀ sk, scope = some sk → v.dictGetWith m sk k = .ok r

/-- See the module comment. `probe` are the texts for which lookup is promised to work. -/
inductive Matches (m : Mem) (F : FloatOps) (scope : Option SharedKeys) (probe : List UInt8 → Prop) : Val → Tree → Prop where
  /-- a scalar -/
  | leaf {v : Val} {ty : ValueType} {t : Tree} (type : v.type m = .ok ty) (na : ty ≠ .array) (nd : ty ≠ .dict)
      (read : readTree m F scope 1 v = .ok t) : Matches m F scope probe v t
  /-- `len` is the number of elements, `get(i)` is the `i`-th, iteration yields each once, in this order -/
  | arr {v : Val} {xs : List Tree} (u : Nat → Val) (type : v.asArray m = .ok (some v))
      (len : v.arrayLen m = .ok xs.length) (get : ∀ i, i < xs.length → v.get m i = .ok (some (u i)))
      (iter : ∃ it, v.iter m = .ok it ∧ collect m (fun x => .ok x) (xs.length + 1) it = .ok (xs.mapIdx fun i _ => u i))
      (each : ∀ (i : Nat) (t : Tree), xs[i]? = some t → Matches m F scope probe (u i) t) : Matches m F scope probe v (.arr xs)
  /-- `len` is the number of entries; iteration yields each entry once, in the order of the keys; looking up the text of
  an entry gives (one of) its values; looking up any other text gives nothing -/
  | dict {v : Val} {kvs : List (List UInt8 × Tree)} (u : Nat → Val) (type : v.asDict m = .ok (some v))
      (len : v.dictLen m = .ok kvs.length)
      (iter : ∃ it, v.dictIter m = .ok it ∧
        collectDict m scope (fun x => .ok x) (kvs.length + 1) it = .ok (kvs.mapIdx fun i kv => (kv.1, u i)))
      (order : kvs.Pairwise fun a b => Key.Lt (keyOf scope a.1) (keyOf scope b.1) ∨ a.1 = b.1)
      (found : ∀ k, probe k → k ∈ kvs.map Prod.fst → ∃ i t, kvs[i]? = some (k, t) ∧ v.Lookup m scope k (some (u i)))
      (absent : ∀ k, probe k → k ∉ kvs.map Prod.fst → v.Lookup m scope k none)
      (each : ∀ (i : Nat) (k : List UInt8) (t : Tree), kvs[i]? = some (k, t) → Matches m F scope probe (u i) t) :
      Matches m F scope probe v (.dict kvs)

/-- The bytes are accepted by `from_bytes`, wherever they lie in memory, and what a client sees of the root is `t` (up to
the order of dict entries, which is that of the keys). -/
def Shows (F : FloatOps) (scope : Option SharedKeys) (probe : List UInt8 → Prop) (out : List UInt8) (t : Tree) : Prop :=
  ∀ m : Mem, m.data = out → m.base + out.length < 2 ^ 64 →
    ∃ v t', fromBytes m = .ok v ∧ Tree.Same t t' ∧ Matches m F scope probe v t'

theorem Matches.weaken {m : Mem} {F : FloatOps} {scope : Option SharedKeys} {p q : List UInt8 → Prop} {v : Val} {t : Tree}
    (h : Matches m F scope p v t) (hpq : ∀ k, q k → p k) : Matches m F scope q v t := by
  induction h with
  | leaf type na nd read => exact .leaf type na nd read
  | arr u type len get iter _ ih => exact .arr u type len get iter ih
  | dict u type len iter order found absent _ ih =>
    exact .dict u type len iter order (fun k hk => found k (hpq k hk)) (fun k hk => absent k (hpq k hk)) ih

theorem Shows.weaken {F : FloatOps} {scope : Option SharedKeys} {p q : List UInt8 → Prop} {out : List UInt8} {t : Tree}
    (h : Shows F scope p out t) (hpq : ∀ k, q k → p k) : Shows F scope q out t := by
  intro m hm hb
  obtain ⟨v, t', h1, h2, h3⟩ := h m hm hb
  exact ⟨v, t', h1, h2, h3.weaken hpq⟩

end Fleece
