import Verif.Proofs.CutSim

/-! # What is lost of a document in narrow slots, counted -/

namespace Fleece

/-! ## Calls that may be rejected -/

/-- Data of one byte in the document under construction makes the encoder's state bad, also if calls are rejected. -/
theorem Enc.Bad.orderly {c : Cfg} {F : FloatOps} (ops : List Op) : ∀ {e e' : Enc} {b : Build} {rs : List (Except EncodeError Unit)},
    e.WF → e.Nested → e.phi + Op.total ops ≤ SizedValue.maxNarrow → Shape e b → b.Ordered → Orderly F b ops →
    (b.Has Tree.ByteNode → e.Bad) → e.run c ops = .ok (e', rs) →
    e'.Nested ∧ ((b.run F ops).1.Has Tree.ByteNode → e'.Bad) := by
  have hmn : SizedValue.maxNarrow ≤ SizedValue.maxWide := by decide
  have hmw : SizedValue.maxWide < 2 ^ 32 := by decide
  induction ops with
  | nil => intro e e' b rs _ hn _ _ _ _ hb h; cases h; exact ⟨hn, hb⟩
  | cons op ops ih =>
    intro e e' b rs hw hn hp hs hord hor hb h
    rw [Op.total_cons] at hp
    obtain ⟨e1, r, rs', h1, h2, rfl⟩ := Enc.run_cons h
    have ht := Enc.step_trans hw (by omega) (by omega) h1
    obtain ⟨hw1, hp1⟩ := ht.inv hw (by omega) (by omega)
    obtain ⟨hor1, hor2, hor3⟩ := hor
    obtain ⟨hres, hshape⟩ := ht.shape hw F hs
    have hnd : ¬ (op = .endArray ∧ e.waitingForKey = true) := by
      rintro ⟨ho, hk⟩
      obtain ⟨kvs, rest, hk⟩ := hs.waiting hk
      exact hor1 ho kvs rest hk
    refine ih hw1 (ht.nested hn) (by omega) (hshape hnd) (Build.next_ordered hord _) hor3 ?_ h2
    intro hhas
    cases hst : b.step F op with
    | ok b' =>
      have hr : r = .ok () := by rw [← hres]; unfold Build.next; rw [hst]
      have hhas' : b'.Has Tree.ByteNode := by unfold Build.next at hhas; rw [hst] at hhas; exact hhas
      rcases (Build.step_has byteNode_leaf hord hst).mp hhas' with hx | ⟨x, rfl, hx⟩
      · exact ht.bad hr hw hn (by omega) (hb hx)
      · cases x with
        | data d =>
          cases hx with
          | here hd =>
            obtain ⟨y, rfl⟩ := List.length_eq_one_iff.mp hd
            exact ht.bad_data hr
        | _ => cases hx with | here hd => cases hd
    | error x =>
      have hb' : b.Has Tree.ByteNode := by unfold Build.next at hhas; rw [hst] at hhas; exact hhas
      have hr : r = .error x := by rw [← hres]; unfold Build.next; rw [hst]
      rcases hb hb' with ⟨coll, hc, s, hs1, hs2⟩ | ⟨hcl, hroot⟩
      · cases ht with
        | reject => exact .inl ⟨coll, hc, s, hs1, hs2.mono (List.prefix_append _ _)⟩
        | discard hs' => exact absurd ⟨rfl, by unfold Enc.waitingForKey; rw [hs']⟩ hnd
        | _ => cases hr
      · have := closed_step (hw.closed hcl) hcl (by
          rintro k rfl
          have hn := hor2 ⟨k, rfl⟩
          rw [hs.closed, hn] at hcl; cases hcl) h1
        rw [this]
        exact .inr ⟨hcl, hroot⟩

/-! ## Counting -/

mutual
/-- Strings, data, and dict entries. -/
def Tree.load : Tree → Nat
  | .str _ => 1
  | .data _ => 1
  | .arr xs => Tree.loadAll xs
  | .dict kvs => Tree.loadOf kvs
  | _ => 0
/-- Of several. -/
def Tree.loadAll : List Tree → Nat
  | [] => 0
  | x :: xs => x.load + Tree.loadAll xs
/-- Of a dict. -/
def Tree.loadOf : List (List UInt8 × Tree) → Nat
  | [] => 0
  | kv :: kvs => 1 + kv.2.load + Tree.loadOf kvs
end

theorem Tree.loadAll_eq (xs : List Tree) : Tree.loadAll xs = (xs.map Tree.load).sum := by
  induction xs with
  | nil => rfl
  | cons x xs ih => simp [Tree.loadAll, ih]

theorem Tree.loadOf_eq (kvs : List (List UInt8 × Tree)) : Tree.loadOf kvs = (kvs.map fun kv => 1 + kv.2.load).sum := by
  induction kvs with
  | nil => rfl
  | cons x xs ih => simp [Tree.loadOf, ih]

/-- Equal documents have equally many. -/
theorem Tree.Same.load {t u : Tree} (h : Tree.Same t u) : t.load = u.load := by
  induction h with
  | refl t => rfl
  | @arr xs ys len each ih =>
    simp only [Tree.load, Tree.loadAll_eq]
    congr 1
    apply List.ext_getElem?
    intro i
    simp only [List.getElem?_map]
    by_cases hi : i < xs.length
    · rw [List.getElem?_eq_getElem hi, List.getElem?_eq_getElem (by omega)]
      simp only [Option.map_some, Option.some.injEq]
      exact ih i _ _ (List.getElem?_eq_getElem hi) (List.getElem?_eq_getElem (by omega))
    · rw [List.getElem?_eq_none (by omega), List.getElem?_eq_none (by omega)]
  | @dict kvs mid lvs perm keys each ih =>
    have len : mid.length = lvs.length := by simpa using congrArg List.length keys
    simp only [Tree.load, Tree.loadOf_eq]
    rw [(perm.map fun kv => 1 + kv.2.load).sum_nat]
    congr 1
    apply List.ext_getElem?
    intro i
    simp only [List.getElem?_map]
    by_cases hi : i < mid.length
    · rw [List.getElem?_eq_getElem hi, List.getElem?_eq_getElem (by omega)]
      simp only [Option.map_some, Option.some.injEq]
      rw [ih i _ _ (List.getElem?_eq_getElem hi) (List.getElem?_eq_getElem (by omega))]
    · rw [List.getElem?_eq_none (by omega), List.getElem?_eq_none (by omega)]

theorem Tree.loadOf_filter (q : List UInt8 × Tree → Bool) (kvs : List (List UInt8 × Tree)) :
    Tree.loadOf (kvs.filter q) ≤ Tree.loadOf kvs ∧
      ((∃ kv ∈ kvs, q kv = false) → Tree.loadOf (kvs.filter q) < Tree.loadOf kvs) := by
  induction kvs with
  | nil => exact ⟨Nat.le_refl _, by rintro ⟨_, h, _⟩; cases h⟩
  | cons kv kvs ih =>
    cases hq : q kv with
    | true =>
      rw [List.filter_cons_of_pos hq]
      simp only [Tree.loadOf]
      refine ⟨by omega, ?_⟩
      rintro ⟨x, hx, hx'⟩
      rcases List.mem_cons.mp hx with rfl | hx
      · rw [hq] at hx'; cases hx'
      · have := ih.2 ⟨x, hx, hx'⟩; omega
    | false =>
      rw [List.filter_cons_of_neg (by simp [hq])]
      simp only [Tree.loadOf]
      exact ⟨by omega, fun _ => by omega⟩

mutual
/-- Nothing is added. -/
theorem Tree.lossy_load : (t : Tree) → t.lossy.load ≤ t.load
  | .null | .undefined | .bool _ | .int _ | .float _ => by simp [Tree.lossy]
  | .str s => by
    match s with
    | [] => simp [Tree.lossy, Tree.load]
    | [_] => simp [Tree.lossy, Tree.load]
    | _ :: _ :: _ => simp [Tree.lossy]
  | .data d => by
    match d with
    | [] => simp [Tree.lossy, Tree.load]
    | _ :: _ => simp [Tree.lossy]
  | .arr xs => by simpa only [Tree.lossy, Tree.load] using Tree.lossyAll_load xs
  | .dict kvs => by
    simp only [Tree.lossy, Tree.load]
    exact Nat.le_trans (Tree.loadOf_filter _ _).1 (Tree.lossyOf_load kvs)
theorem Tree.lossyAll_load : (xs : List Tree) → Tree.loadAll (Tree.lossyAll xs) ≤ Tree.loadAll xs
  | [] => Nat.le_refl _
  | x :: xs => by
    have h1 := Tree.lossy_load x
    have h2 := Tree.lossyAll_load xs
    simp only [Tree.lossyAll, Tree.loadAll]; omega
theorem Tree.lossyOf_load : (kvs : List (List UInt8 × Tree)) → Tree.loadOf (Tree.lossyOf kvs) ≤ Tree.loadOf kvs
  | [] => Nat.le_refl _
  | (k, v) :: kvs => by
    have h1 := Tree.lossy_load v
    have h2 := Tree.lossyOf_load kvs
    simp only [Tree.lossyOf, Tree.loadOf]; omega
end

theorem Tree.lossyAll_lt {xs : List Tree} {x : Tree} (hx : x ∈ xs) (h : x.lossy.load < x.load) :
    Tree.loadAll (Tree.lossyAll xs) < Tree.loadAll xs := by
  induction xs with
  | nil => cases hx
  | cons y ys ih =>
    have h1 := Tree.lossy_load y
    have h2 := Tree.lossyAll_load ys
    simp only [Tree.lossyAll, Tree.loadAll]
    rcases List.mem_cons.mp hx with rfl | hx
    · omega
    · have := ih hx; omega

theorem Tree.lossyOf_lt {kvs : List (List UInt8 × Tree)} {kv : List UInt8 × Tree} (hx : kv ∈ kvs)
    (h : kv.2.lossy.load < kv.2.load) : Tree.loadOf (Tree.lossyOf kvs) < Tree.loadOf kvs := by
  induction kvs with
  | nil => cases hx
  | cons y ys ih =>
    have h1 := Tree.lossy_load y.2
    have h2 := Tree.lossyOf_load ys
    simp only [Tree.lossyOf, Tree.loadOf]
    rcases List.mem_cons.mp hx with rfl | hx
    · omega
    · have := ih hx; omega

theorem Tree.Has.imp {p q : Tree → Prop} (hpq : ∀ t, p t → q t) {t : Tree} (h : t.Has p) : t.Has q := by
  induction h with
  | here h => exact .here (hpq _ h)
  | elem hx _ ih => exact .elem hx ih
  | entry hx _ ih => exact .entry hx ih

theorem Tree.byteNode_tiny (t : Tree) (h : t.ByteNode) : t.TinyNode := by
  cases t with
  | data d => simp only [Tree.ByteNode] at h; simp only [Tree.TinyNode]; omega
  | _ => cases h

/-- A tiny value or key is a loss. -/
theorem Tree.Has.lossy_lt {t : Tree} (h : t.Has Tree.TinyNode) (hno : ¬ t.Has Tree.ByteNode) : t.lossy.load < t.load := by
  induction h with
  | @here t h =>
    match t, h, hno with
    | .str [], _, _ => simp [Tree.lossy, Tree.load]
    | .str [_], _, _ => simp [Tree.lossy, Tree.load]
    | .str (_ :: _ :: _), h, _ => simp only [Tree.TinyNode, List.length_cons] at h; omega
    | .data [], _, _ => simp [Tree.lossy, Tree.load]
    | .data [_], _, h => exact absurd (.here rfl) h
    | .data (_ :: _ :: _), h, _ => simp only [Tree.TinyNode, List.length_cons] at h; omega
    | .dict kvs, ⟨kv, hkv, hl⟩, _ =>
      simp only [Tree.lossy, Tree.load]
      refine Nat.lt_of_lt_of_le ((Tree.loadOf_filter _ _).2 ⟨(kv.1, kv.2.lossy), ?_, ?_⟩) (Tree.lossyOf_load kvs)
      · rw [Tree.lossyOf_eq]; exact List.mem_map.mpr ⟨kv, hkv, rfl⟩
      · rw [List.all_eq_false]
        refine ⟨kv, hkv, ?_⟩
        simp only [Bool.or_eq_true, decide_eq_true_eq, not_or]
        exact ⟨by omega, List.lt_irrefl _⟩
  | elem hx h ih =>
    simp only [Tree.lossy, Tree.load]
    exact Tree.lossyAll_lt hx (ih fun h => hno (.elem hx h))
  | entry hx h ih =>
    simp only [Tree.lossy, Tree.load]
    exact Nat.lt_of_le_of_lt (Tree.loadOf_filter _ _).1 (Tree.lossyOf_lt hx (ih fun h => hno (.entry hx h)))

mutual
/-- Without any nothing changes. -/
theorem Tree.lossy_self : (t : Tree) → ¬ t.Has Tree.TinyNode → t.lossy = t
  | .null, _ | .undefined, _ | .bool _, _ | .int _, _ | .float _, _ => by simp [Tree.lossy]
  | .str s, h => by
    match s, h with
    | [], h => exact absurd (.here (by simp [Tree.TinyNode])) h
    | [_], h => exact absurd (.here (by simp [Tree.TinyNode])) h
    | _ :: _ :: _, _ => simp [Tree.lossy]
  | .data d, h => by
    match d, h with
    | [], h => exact absurd (.here (by simp [Tree.TinyNode])) h
    | _ :: _, _ => simp [Tree.lossy]
  | .arr xs, h => by
    simp only [Tree.lossy]
    rw [Tree.lossyAll_self xs fun x hx hh => h (.elem hx hh)]
  | .dict kvs, h => by
    simp only [Tree.lossy]
    rw [Tree.lossyOf_self kvs fun x hx hh => h (.entry hx hh), List.filter_eq_self.mpr]
    intro kv hkv
    rw [List.all_eq_true]
    intro l hl
    simp only [Bool.or_eq_true, decide_eq_true_eq]
    exact .inl (Nat.le_of_not_lt fun hlt => h (.here ⟨l, hl, hlt⟩))
theorem Tree.lossyAll_self : (xs : List Tree) → (∀ x ∈ xs, ¬ x.Has Tree.TinyNode) → Tree.lossyAll xs = xs
  | [], _ => rfl
  | x :: xs, h => by
    simp only [Tree.lossyAll]
    rw [Tree.lossy_self x (h x (by simp)), Tree.lossyAll_self xs fun y hy => h y (List.mem_cons_of_mem _ hy)]
theorem Tree.lossyOf_self : (kvs : List (List UInt8 × Tree)) → (∀ kv ∈ kvs, ¬ kv.2.Has Tree.TinyNode) → Tree.lossyOf kvs = kvs
  | [], _ => rfl
  | (k, v) :: kvs, h => by
    simp only [Tree.lossyOf]
    rw [Tree.lossy_self v (h (k, v) (by simp)), Tree.lossyOf_self kvs fun y hy => h y (List.mem_cons_of_mem _ hy)]
end

end Fleece
