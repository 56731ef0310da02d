import Verif.Model.Iters
import Verif.Spec.Iteration
import Verif.Proofs.MutNamed
import Verif.Proofs.Total
import Verif.Props.C25

/-!
# C50 Iterators announce how many items are still to come

`Iterator::size_hint` promises that at least `lower` and at most `upper` items follow; everything in the crate returns
`(n, Some(n))`, so `n` must be exact, at any time. `Taken` are the states of an iterator in the middle of a loop, `Yields`
what the rest of the loop gets.
-/

namespace Fleece.Props
open Fleece Res

/-- **C50, arrays.** Every array reachable in an accepted document, in either profile, at any time. -/
theorem C50_array (m : Mem) (hdbg : m.dbg = true) (root : Val) (hok : fromBytes m = .ok root)
    (m' : Mem) (hm : m' = m ∨ m' = { m with dbg := false }) (scope : Option SharedKeys)
    (a : Val) (ha : Reach m' scope root a) (harr : a.asArray m' = .ok (some a)) :
    ∃ start, a.iter m' = .ok start ∧ ∀ i it, Taken (Iter.step m') start i it →
      ∃ xs, Yields (Iter.step m') it xs ∧ it.sizeHint m'.dbg = .ok xs.length := by
  have hd : DeepOK m root := fromBytesGo_deep hdbg _ _ hok
  have hd' : DeepOK m' root := by
    rcases hm with rfl | rfl
    · exact hd
    · exact hd.rel hdbg
  obtain ⟨w, n, fp, hc, he⟩ := (hd'.reach ha).coll_of (asArray_type harr) (Or.inl rfl)
  have hy : ∀ d i, n - i = d → i ≤ n → ∃ xs, Yields (Iter.step m') (iterAt (a.pos + fp) (wof w) n i) xs ∧ xs.length = d := by
    intro d
    induction d with
    | zero => intro i h1 h2; exact ⟨[], .done (iterAt_step_end (by omega)), rfl⟩
    | succ d ih =>
      intro i h1 h2
      obtain ⟨e, hr, _⟩ := he i (by omega)
      obtain ⟨xs, h3, h4⟩ := ih (i + 1) (by omega) (by omega)
      exact ⟨e :: xs, .more (hc.step (by omega) hr) h3, by simp [h4]⟩
  refine ⟨_, hc.iter, fun i it ht => ?_⟩
  have hs : i ≤ n ∧ it = iterAt (a.pos + fp) (wof w) n i := by
    induction ht with
    | zero => exact ⟨by omega, rfl⟩
    | @succ i s1 s2 x _ hn ih =>
      obtain ⟨h1, rfl⟩ := ih
      rcases hc.step_cases he i with ⟨e, hi, _, hs⟩ | ⟨_, hs⟩
      · rw [hs] at hn; cases hn; exact ⟨hi, rfl⟩
      · rw [hs] at hn; cases hn
  obtain ⟨hi, rfl⟩ := hs
  obtain ⟨xs, h1, h2⟩ := hy _ i rfl hi
  refine ⟨xs, h1, ?_⟩
  unfold Iter.sizeHint usizeSub iterAt
  simp only
  rw [if_pos (by omega), h2]

/-- An accepted array of two, in the middle of a loop. -/
example : fromBytes { data := [0x60, 0x02, 0, 5, 0, 6, 0x80, 0x03] } = .ok ⟨0, 6⟩ ∧
    (⟨0, 6⟩ : Val).asArray { data := [0x60, 0x02, 0, 5, 0, 6, 0x80, 0x03] } = .ok (some ⟨0, 6⟩) ∧
    Taken (Iter.step { data := [0x60, 0x02, 0, 5, 0, 6, 0x80, 0x03] }) ⟨some ⟨2, 2⟩, 2, 0, 2⟩ 1 ⟨some ⟨4, 2⟩, 2, 1, 2⟩ ∧
    (⟨some ⟨4, 2⟩, 2, 1, 2⟩ : Iter).sizeHint true = .ok 1 :=
  ⟨by decide +kernel, by decide +kernel, .succ (x := ⟨2, 2⟩) .zero (by decide +kernel), by decide +kernel⟩

/-! ## Dicts -/

theorem step_some {m : Mem} {it it' : Iter} {x : Val} (h : it.step m = .ok (some x, it')) :
    it.index < it.len ∧ it'.index = it.index + 1 ∧ it'.len = it.len := by
  unfold Iter.step at h
  cases hn : it.next with
  | none => rw [hn] at h; cases h
  | some cur =>
    rw [hn] at h
    simp only at h
    split at h
    · cases h
    · obtain ⟨t, _, h⟩ := bind_eq_ok.mp h
      split at h
      all_goals
        obtain ⟨r, _, h⟩ := bind_eq_ok.mp h
        split at h
        · obtain ⟨s, _, h⟩ := bind_eq_ok.mp h
          cases h
          exact ⟨by omega, rfl, rfl⟩
        · cases h
          exact ⟨by omega, rfl, rfl⟩

theorem dictStep_some_index {m : Mem} {scope : Option SharedKeys} {it it' : Iter} {x : List UInt8 × Val}
    (h : it.dictStep m scope = .ok (some x, it')) : it.index + 2 ≤ it.len ∧ it'.index = it.index + 2 ∧ it'.len = it.len := by
  unfold Iter.dictStep at h
  obtain ⟨⟨k, it1⟩, h1, h⟩ := bind_eq_ok.mp h
  cases k with
  | none => cases h
  | some k =>
    obtain ⟨a1, a2, a3⟩ := step_some h1
    obtain ⟨t, _, h⟩ := bind_eq_ok.mp h
    dsimp only at h
    have key : ∃ key y it2, it1.step m = .ok (some y, it2) ∧ (some (key, y), it2) = (some x, it') := by
      split at h
      · split at h
        · obtain ⟨n, _, h⟩ := bind_eq_ok.mp h
          obtain ⟨key, _, h⟩ := bind_eq_ok.mp h
          cases key with
          | none => cases h
          | some key =>
            obtain ⟨⟨y, it2⟩, h2, h⟩ := bind_eq_ok.mp h
            cases y with
            | none => cases h
            | some y => cases h; exact ⟨_, _, _, h2, rfl⟩
        · cases h
      · obtain ⟨n, _, h⟩ := bind_eq_ok.mp h
        simp only [pure_eq, ok_bind] at h
        obtain ⟨⟨y, it2⟩, h2, h⟩ := bind_eq_ok.mp h
        cases y with
        | none => cases h
        | some y => cases h; exact ⟨_, _, _, h2, rfl⟩
    obtain ⟨_, _, _, h2, h⟩ := key
    cases h
    obtain ⟨b1, b2, b3⟩ := step_some h2
    exact ⟨by omega, by omega, by omega⟩

theorem dictTaken {m : Mem} {scope : Option SharedKeys} {s it : Iter} {i : Nat} (h : Taken (Iter.dictStep m scope) s i it)
    (h0 : s.index = 0) : it.len = s.len ∧ it.index = 2 * i ∧ 2 * i ≤ s.len := by
  induction h with
  | zero => exact ⟨rfl, h0, by omega⟩
  | succ _ hn ih =>
    obtain ⟨a1, a2, a3⟩ := ih
    obtain ⟨b1, b2, b3⟩ := dictStep_some_index hn
    exact ⟨by omega, by omega, by omega⟩

theorem dictYields {m : Mem} {scope : Option SharedKeys} {it : Iter} {xs : List (List UInt8 × Val)}
    (h : Yields (Iter.dictStep m scope) it xs) (hi : it.index ≤ it.len) : it.index + 2 * xs.length ≤ it.len := by
  induction h with
  | done _ => simpa using hi
  | more hn _ ih =>
    obtain ⟨b1, b2, b3⟩ := dictStep_some_index hn
    have := ih (by omega)
    simp only [List.length_cons]
    omega

theorem dictIter_index {m : Mem} {v : Val} {it : Iter} (h : v.dictIter m = .ok it) :
    it.index = 0 ∧ v.dictLen m = .ok (it.len / 2) := by
  unfold Val.dictIter Val.iter at h
  obtain ⟨_, _, h⟩ := bind_eq_ok.mp h
  obtain ⟨_, _, h⟩ := bind_eq_ok.mp h
  obtain ⟨n, h3, h⟩ := bind_eq_ok.mp h
  cases h
  refine ⟨rfl, ?_⟩
  unfold Val.dictLen
  simp only [h3, ok_bind, pure_eq]

theorem dictHint_eq {dbg : Bool} {it : Iter} (h : it.index ≤ it.len) : it.dictHint dbg = .ok ((it.len - it.index) / 2) := by
  unfold Iter.dictHint Iter.sizeHint usizeSub
  rw [if_pos h]
  rfl

/-- **C50, dicts, never too little.** Every dict reachable in an accepted document, in either profile, with any shared keys
or none, at any time: a loop ends, and the hint is at least the number of items it gets; it is `len` minus the number of
items taken. Missing from the full claim: that the hint is not too much, which is false (`C50_refuted_dict`). -/
theorem C50_dict_partial (m : Mem) (hdbg : m.dbg = true) (root : Val) (hok : fromBytes m = .ok root)
    (m' : Mem) (hm : m' = m ∨ m' = { m with dbg := false }) (scope : Option SharedKeys)
    (d : Val) (hr : Reach m' scope root d) (hdict : d.asDict m' = .ok (some d)) :
    ∃ n start, d.dictLen m' = .ok n ∧ d.dictIter m' = .ok start ∧ ∀ i it, Taken (Iter.dictStep m' scope) start i it →
      ∃ xs, Yields (Iter.dictStep m' scope) it xs ∧ it.dictHint m'.dbg = .ok (n - i) ∧ i + xs.length ≤ n := by
  have hd : DeepOK m root := fromBytesGo_deep hdbg _ _ hok
  have hd' : DeepOK m' root := by
    rcases hm with rfl | rfl
    · exact hd
    · exact hd.rel hdbg
  obtain ⟨w, n, fp, hc, he⟩ := (hd'.reach hr).coll_of (asDict_type hdict) (Or.inr rfl)
  have hy : ∀ d' i, n - i ≤ d' → ∃ xs, Yields (Iter.dictStep m' scope) (iterAt (d.pos + fp) (wof w) n i) xs := by
    intro d'
    induction d' with
    | zero =>
      intro i h1
      rcases hc.dictStep_cases scope he i with ⟨_, _, h2, _⟩ | ⟨j, _, h2⟩
      · omega
      · exact ⟨[], .done h2⟩
    | succ d' ih =>
      intro i h1
      rcases hc.dictStep_cases scope he i with ⟨k, e, h2, _, _, h3⟩ | ⟨j, _, h2⟩
      · obtain ⟨xs, h4⟩ := ih (i + 2) (by omega)
        exact ⟨_, .more h3 h4⟩
      · exact ⟨[], .done h2⟩
  have hit : d.dictIter m' = .ok (iterAt (d.pos + fp) (wof w) n 0) := hc.iter
  obtain ⟨h0, hlen⟩ := dictIter_index hit
  refine ⟨_, _, hlen, hit, fun i it ht => ?_⟩
  have hs : ∃ j, it = iterAt (d.pos + fp) (wof w) n j := by
    clear hlen
    induction ht with
    | zero => exact ⟨0, rfl⟩
    | @succ i s1 s2 x _ hn ih =>
      obtain ⟨j, rfl⟩ := ih
      rcases hc.dictStep_cases scope he j with ⟨k, e, h2, _, _, h3⟩ | ⟨j', _, h2⟩
      · rw [h3] at hn; cases hn; exact ⟨_, rfl⟩
      · rw [h2] at hn; cases hn
  obtain ⟨j, hj⟩ := hs
  obtain ⟨xs, h1⟩ := hy _ j (Nat.le_refl _)
  rw [← hj] at h1
  obtain ⟨a1, a2, a3⟩ := dictTaken ht h0
  have hb := dictYields h1 (by omega)
  refine ⟨xs, h1, ?_, by omega⟩
  rw [dictHint_eq (by omega)]
  congr 1
  omega

/-- An accepted dict of two, `{0: 5, 1: 6}` with shared keys, in the middle of a loop with a table that knows them: one item
left, hint 1. -/
example : fromBytes { data := [0x70, 0x02, 0, 0, 0, 5, 0, 1, 0, 6, 0x80, 0x05] } = .ok ⟨0, 10⟩ ∧
    (⟨0, 10⟩ : Val).asDict { data := [0x70, 0x02, 0, 0, 0, 5, 0, 1, 0, 6, 0x80, 0x05] } = .ok (some ⟨0, 10⟩) ∧
    Taken (Iter.dictStep { data := [0x70, 0x02, 0, 0, 0, 5, 0, 1, 0, 6, 0x80, 0x05] } (some ⟨[([0x61], 0), ([0x62], 1)]⟩))
      ⟨some ⟨2, 2⟩, 2, 0, 4⟩ 1 ⟨some ⟨6, 2⟩, 2, 2, 4⟩ ∧
    (⟨some ⟨6, 2⟩, 2, 2, 4⟩ : Iter).dictHint true = .ok 1 :=
  ⟨by decide +kernel, by decide +kernel, .succ (x := ([0x61], ⟨4, 2⟩)) .zero (by decide +kernel), by decide +kernel⟩

theorem collectDict_yields {m : Mem} {scope : Option SharedKeys} {n : Nat} : ∀ {it : Iter} {xs : List (List UInt8 × Val)},
    collectDict m scope (fun x => .ok x) n it = .ok xs → Yields (Iter.dictStep m scope) it xs := by
  induction n with
  | zero => intro it xs h; cases h
  | succ n ih =>
    intro it xs h
    unfold collectDict at h
    obtain ⟨⟨o, it'⟩, h1, h⟩ := bind_eq_ok.mp h
    cases o with
    | none => cases h; exact .done h1
    | some v =>
      simp only [ok_bind] at h
      obtain ⟨r, h2, h⟩ := bind_eq_ok.mp h
      cases h
      exact .more h1 (ih h2)

/-- **C50, dicts whose keys can be read.** A value that shows the dict `kvs` (which documents do: C24, C30, C49): at any time
the hint is exactly the number of entries still to come. -/
theorem C50_dict_exact_partial (m : Mem) (F : FloatOps) (scope : Option SharedKeys) (probe : List UInt8 → Prop) (v : Val)
    (t' : Tree) (hm : Matches m F scope probe v t') (kvs : List (List UInt8 × Tree)) (hs : Tree.Same (.dict kvs) t') :
    ∃ start, v.dictIter m = .ok start ∧ ∀ i it, Taken (Iter.dictStep m scope) start i it →
      ∃ xs, Yields (Iter.dictStep m scope) it xs ∧ i + xs.length = kvs.length ∧ it.dictHint m.dbg = .ok xs.length := by
  obtain ⟨items, start, mid, h1, h2, h3, h4, h5, _⟩ := C25_iter m F scope probe v t' hm kvs hs
  have hl : items.length = kvs.length := by
    rw [h4.length_eq]; simpa using congrArg List.length h5
  obtain ⟨h0, hlen⟩ := dictIter_index h1
  rw [h3] at hlen
  have hlen : kvs.length = start.len / 2 := by simpa using hlen
  refine ⟨start, h1, fun i it ht => ?_⟩
  obtain ⟨hi, hy⟩ := (collectDict_yields h2).drop ht
  obtain ⟨a1, a2, a3⟩ := dictTaken ht h0
  refine ⟨_, hy, by rw [List.length_drop]; omega, ?_⟩
  rw [dictHint_eq (by omega), List.length_drop]
  congr 1
  omega

/-- **C50 is false of every dict that begins with a shared key** and is read without shared keys, say because its scope has
ended (C49): `size_hint` promises all entries, at least one, and the loop gets none. -/
theorem C50_refuted_dict (m : Mem) (hdbg : m.dbg = true) (root : Val) (hok : fromBytes m = .ok root)
    (m' : Mem) (hm : m' = m ∨ m' = { m with dbg := false }) (d : Val) (hr : Reach m' none root d)
    (hdict : d.asDict m' = .ok (some d)) (n : Nat) (hlen : d.dictLen m' = .ok n) (hn : 0 < n) (k x : Val)
    (hfirst : d.dictFirst m' = .ok (some (k, x))) (hk : k.type m' = .ok .short) :
    ∃ it, d.dictIter m' = .ok it ∧ it.dictHint m'.dbg = .ok n ∧ Yields (Iter.dictStep m' none) it [] := by
  have hd : DeepOK m root := fromBytesGo_deep hdbg _ _ hok
  have hd' : DeepOK m' root := by
    rcases hm with rfl | rfl
    · exact hd
    · exact hd.rel hdbg
  obtain ⟨w, l, fp, hc, he⟩ := (hd'.reach hr).coll_of (asDict_type hdict) (Or.inr rfl)
  have hit : d.dictIter m' = .ok (iterAt (d.pos + fp) (wof w) l 0) := hc.iter
  obtain ⟨h0, hlen'⟩ := dictIter_index hit
  rw [hlen] at hlen'
  have hnl : n = l / 2 := by cases hlen'; rfl
  refine ⟨_, hit, ?_, .done (s' := iterAt (d.pos + fp) (wof w) l 1) ?_⟩
  · rw [dictHint_eq (by simp [iterAt])]
    simp only [iterAt, Nat.sub_zero, hnl]
  · obtain ⟨e, he1, _⟩ := he 0 (by omega)
    have hek : e = k := by
      unfold Val.dictFirst at hfirst
      simp only [hc.len, ok_bind] at hfirst
      rw [if_neg (by omega)] at hfirst
      obtain ⟨p, hp, hfirst⟩ := bind_eq_ok.mp hfirst
      cases hfirst
      unfold Val.pairUnchecked at hp
      obtain ⟨o, ho, hp⟩ := bind_eq_ok.mp hp
      have : o = 0 := by
        unfold usizeMul at ho
        simp at ho
        exact ho.symm
      subst this
      obtain ⟨k', hk', hp⟩ := bind_eq_ok.mp hp
      obtain ⟨x', _, hp⟩ := bind_eq_ok.mp hp
      cases hp
      rw [hc.getUnchecked (by omega), he1] at hk'
      cases hk'; rfl
    subst hek
    unfold Iter.dictStep
    rw [hc.step (by omega) he1]
    simp only [ok_bind, hk, if_true, pure_eq]

/-- Such a dict: the document of `C49_refuted`. -/
example : fromBytes { data := [0x70, 0x02, 0, 0, 0x38, 0, 0, 1, 0x34, 0, 0x80, 5] } = .ok ⟨0, 10⟩ ∧
    (⟨0, 10⟩ : Val).dictLen { data := [0x70, 0x02, 0, 0, 0x38, 0, 0, 1, 0x34, 0, 0x80, 5] } = .ok 2 ∧
    (⟨0, 10⟩ : Val).dictFirst { data := [0x70, 0x02, 0, 0, 0x38, 0, 0, 1, 0x34, 0, 0x80, 5] } = .ok (some (⟨2, 2⟩, ⟨4, 2⟩)) ∧
    (⟨2, 2⟩ : Val).type { data := [0x70, 0x02, 0, 0, 0x38, 0, 0, 1, 0x34, 0, 0x80, 5] } = .ok .short := by decide +kernel

/-- **After `None` a dict iterator may go on**, with pairs that are not in the dict. In this accepted document, `{0: "ab",
1: true}` with shared keys 0 and 1, read without them: the first `next` is `None`, the second `("ab", 1)`. -/
theorem C50_resumes : ∃ it it1 it2 : Iter,
    fromBytes { data := [0x42, 0x61, 0x62, 0, 0x70, 0x02, 0, 0, 0x80, 0x04, 0, 1, 0x38, 0, 0x80, 5] } = .ok ⟨4, 10⟩ ∧
    (⟨4, 10⟩ : Val).dictIter { data := [0x42, 0x61, 0x62, 0, 0x70, 0x02, 0, 0, 0x80, 0x04, 0, 1, 0x38, 0, 0x80, 5] } = .ok it ∧
    it.dictStep { data := [0x42, 0x61, 0x62, 0, 0x70, 0x02, 0, 0, 0x80, 0x04, 0, 1, 0x38, 0, 0x80, 5] } none = .ok (none, it1) ∧
    it1.dictStep { data := [0x42, 0x61, 0x62, 0, 0x70, 0x02, 0, 0, 0x80, 0x04, 0, 1, 0x38, 0, 0x80, 5] } none =
      .ok (some ([0x61, 0x62], ⟨10, 2⟩), it2) :=
  ⟨⟨some ⟨6, 2⟩, 2, 0, 4⟩, ⟨some ⟨8, 2⟩, 2, 1, 4⟩, ⟨some ⟨12, 2⟩, 2, 3, 4⟩, by decide +kernel⟩

/-! ## serde -/

/-- **C50, deserialization.** What the sequence and map accesses of the deserializer announce when a visitor gets hold of
them: the number of elements of the array, of entries of the dict. -/
theorem C50_access (m : Mem) (v : Val) (it : Iter) (h : v.iter m = .ok it) :
    v.arrayLen m = .ok it.seqHint ∧ v.dictLen m = .ok it.mapHint ∧ ∀ xs, Yields (Iter.step m) it xs → xs.length ≤ it.seqHint := by
  refine ⟨?_, (dictIter_index h).2, fun xs hy => ?_⟩
  · unfold Val.iter at h
    obtain ⟨_, _, h⟩ := bind_eq_ok.mp h
    obtain ⟨_, _, h⟩ := bind_eq_ok.mp h
    obtain ⟨n, h3, h⟩ := bind_eq_ok.mp h
    cases h; exact h3
  · have : ∀ {it : Iter} {xs : List Val}, Yields (Iter.step m) it xs → it.index ≤ it.len → it.index + xs.length ≤ it.len := by
      intro it xs h
      induction h with
      | done _ => intro h; simpa using h
      | more hn _ ih =>
        intro h
        obtain ⟨b1, b2, b3⟩ := step_some hn
        have := ih (by omega)
        simp only [List.length_cons]
        omega
    have := this hy (by rw [(dictIter_index h).1]; omega)
    unfold Iter.seqHint
    omega

/-! ## Mutable collections -/

theorem mutArray_yields (l : List Slot) : ∀ (d i : Nat), l.length - i = d → Yields MutArrayIter.step ⟨l, i⟩ (l.drop i) := by
  intro d
  induction d with
  | zero =>
    intro i h
    rw [List.drop_eq_nil_of_le (by omega)]
    refine .done (s' := ⟨l, i + 1⟩) ?_
    simp only [MutArrayIter.step]
    rw [List.getElem?_eq_none (by omega)]
  | succ d ih =>
    intro i h
    have hi : i < l.length := by omega
    rw [List.drop_eq_getElem_cons hi]
    refine .more (s' := ⟨l, i + 1⟩) ?_ (ih (i + 1) (by omega))
    simp only [MutArrayIter.step, List.getElem?_eq_getElem hi]

theorem mutArray_taken {l : List Slot} {i : Nat} {it : MutArrayIter} (h : Taken MutArrayIter.step (.new l) i it) :
    it = ⟨l, i⟩ ∧ i ≤ l.length := by
  induction h with
  | zero => exact ⟨rfl, by omega⟩
  | @succ i s1 s2 x _ hn ih =>
    obtain ⟨rfl, h2⟩ := ih
    simp only [MutArrayIter.step, Res.ok.injEq, Prod.mk.injEq] at hn
    obtain ⟨h3, rfl⟩ := hn
    exact ⟨rfl, (List.getElem?_eq_some_iff.mp h3).1⟩

/-- **C50, mutable arrays.** A loop gets the elements, and at its start the hint is right. Missing from the full claim: later
on, when it is false (`C50_refuted_mut_array`). -/
theorem C50_mut_array_partial (l : List Slot) : Yields MutArrayIter.step (.new l) l ∧ (MutArrayIter.new l).hint = l.length :=
  ⟨mutArray_yields l _ 0 rfl, rfl⟩

/-- **C50 is false of every mutable array, once an item has been taken**: the hint is still the length of the array. -/
theorem C50_refuted_mut_array (l : List Slot) (i : Nat) (hi : 0 < i) (it : MutArrayIter)
    (h : Taken MutArrayIter.step (.new l) i it) :
    ∃ xs, Yields MutArrayIter.step it xs ∧ it.hint = xs.length + i ∧ it.hint ≠ xs.length := by
  obtain ⟨rfl, h2⟩ := mutArray_taken h
  refine ⟨_, mutArray_yields l _ i rfl, ?_, ?_⟩
  all_goals simp only [MutArrayIter.hint, List.length_drop]; omega

example : Taken MutArrayIter.step (.new [.inline [0x38, 0]]) 1 ⟨[.inline [0x38, 0]], 1⟩ := .succ .zero rfl

theorem mutDict_yields {sk : Option SharedKeys} : ∀ {map : List (Key × Slot)},
    (∀ e ∈ map, (mutDecodeKey sk e.1).isSome = true) → ∃ xs, Yields MutDictIter.step ⟨map, sk⟩ xs ∧ xs.length = map.length ∧
      xs = Slot.pairsGo sk map := by
  intro map
  induction map with
  | nil => intro _; exact ⟨[], .done (s' := ⟨[], sk⟩) rfl, rfl, rfl⟩
  | cons e r ih =>
    intro h
    obtain ⟨xs, h1, h2, h3⟩ := ih fun e he => h e (List.mem_cons_of_mem _ he)
    obtain ⟨k, hk⟩ := Option.isSome_iff_exists.mp (h e (List.mem_cons_self ..))
    refine ⟨(k, e.2) :: xs, .more (s' := ⟨r, sk⟩) ?_ h1, by simp [h2], ?_⟩
    · simp only [MutDictIter.step, hk, Option.map_some]
    · simp only [Slot.pairsGo, hk, h3]

/-- **C50, mutable dicts.** Every dict, anywhere in anything built by a program of mutable collections (starting from nothing
or from converted documents, `load`), with any keys, including those which shared keys confuse (C32): at any time the hint is
exactly the number of entries still to come, and a loop gets as many entries as `len` says. -/
theorem C50_mut_dict {β : Type} (dbg : Bool) (load : β → Exec Slot)
    (hload : ∀ b s, load b = .ok s → ∃ m F scope fuel v w, (∀ t, scope = some t → t.WF) ∧
      Slot.newFromFleece m F scope fuel v w = .ok s)
    (p : Prog β) (hp : p.Tables) (s : Slot) (hs : p.eval dbg load = .ok s) (path : List Hop) (sk : Option SharedKeys)
    (map : List (Key × Slot)) (hd : s.follow path = some (.dict sk map)) (i : Nat) (it : MutDictIter)
    (ht : Taken MutDictIter.step (.new sk map) i it) :
    ∃ xs, Yields MutDictIter.step it xs ∧ it.hint = xs.length ∧ i + xs.length = (Slot.dict sk map).len := by
  have hn : (Slot.dict sk map).Named := by
    refine (Prog.named (dbg := dbg) (load := load) (fun b s h => ?_) hp hs).follow hd
    obtain ⟨m, F, scope, fuel, v, w, h1, h2⟩ := hload b s h
    exact Slot.Named.newFromFleece h1 h2
  cases hn with
  | dict wf keys each =>
    have hst : ∀ {i : Nat} {it : MutDictIter}, Taken MutDictIter.step (.new sk map) i it → it = ⟨map.drop i, sk⟩ ∧ i ≤ map.length := by
      intro i it ht
      induction ht with
      | zero => exact ⟨rfl, by omega⟩
      | @succ i s1 s2 x _ hn ih =>
        obtain ⟨rfl, h2⟩ := ih
        unfold MutDictIter.step at hn
        cases hm : map.drop i with
        | nil => rw [hm] at hn; cases hn
        | cons e r =>
          rw [hm] at hn
          simp only [Res.ok.injEq, Prod.mk.injEq] at hn
          obtain ⟨_, rfl⟩ := hn
          have hl := congrArg List.length hm
          simp only [List.length_drop, List.length_cons] at hl
          refine ⟨?_, by omega⟩
          rw [← List.drop_drop, hm]
          rfl
    obtain ⟨rfl, hi⟩ := hst ht
    obtain ⟨xs, h1, h2, _⟩ := mutDict_yields (sk := sk) (map := map.drop i) fun e he => keys e (List.mem_of_mem_drop he)
    refine ⟨xs, h1, h2.symm, ?_⟩
    rw [h2, List.length_drop]
    simp only [Slot.len]
    omega

/-- Such a dict: one entry, in a program without loaded documents. -/
example : (Prog.put (.dict none) [] (.insert [0x61]) (.scalar .null) : Prog Empty).Tables ∧
    (Prog.put (.dict none) [] (.insert [0x61]) (.scalar .null) : Prog Empty).eval true Empty.elim =
      .ok (.dict none [(.string [0x61], .inline [0x30, 0, 0, 0, 0, 0, 0, 0, 0, 0, 0, 0, 0, 0, 0])]) := ⟨by simp [Prog.Tables], by rfl⟩

end Fleece.Props
