import Verif.Proofs.LookupDoc
import Verif.Proofs.DeSafe
import Verif.Props.C29
import Verif.Props.C72

/-!
# C78 Shared keys load from any bytes

`SharedKeys::from_state_bytes` on bytes from anywhere: what it returns depends only on what the elements of the array are, in a
way that a few lines say (`Spec.load`). In a build with debug assertions it panics exactly if `from_bytes` does or if it comes
to an element that is not a string; it never reads outside the bytes. Without the assertions, on the same documents, it takes
what is not a string for an empty key.
-/

namespace Fleece.Props
open Fleece Res

namespace Load

/-- What comes of loading. -/
inductive Outcome where
  | panics
  /-- `None` -/
  | refused
  /-- a table with these keys, the codes being their places -/
  | table (keys : List (List UInt8))
deriving DecidableEq

/-- A name that can be a key: at most 16 bytes, of letters, digits, `_` and `-`. -/
def Allowed (U : CharTable) (k : List UInt8) : Prop :=
  k.length ≤ 16 ∧ ∃ cs, utf8Decode? k = some cs ∧ ∀ c ∈ cs, U.keyChar c = true

instance (U : CharTable) (k : List UInt8) : Decidable (Allowed U k) :=
  match h : utf8Decode? k with
  | none => isFalse (by rintro ⟨_, cs, h', _⟩; rw [h] at h'; cases h')
  | some cs =>
    if hc : k.length ≤ 16 ∧ ∀ c ∈ cs, U.keyChar c = true then isTrue ⟨hc.1, cs, h, hc.2⟩
    else isFalse (by rintro ⟨hl, cs', h', h2⟩; rw [h] at h'; cases h'; exact hc ⟨hl, h2⟩)

/-- The elements in order: `some` name, or `none` for what is not a string. Each name that is not there yet is added, cut to
15 bytes; the first that may not be one (or the first after 2048 keys) ends it all. -/
def load (U : CharTable) (asserts : Bool) : List (Option (List UInt8)) → List (List UInt8) → Outcome
  | [], keys => .table keys
  | x :: xs, keys =>
    if asserts = true ∧ x = none then .panics
    else
      let k := x.getD []
      if Allowed U k ∧ keys.length < 2048 then
        load U asserts xs (if k.take 15 ∈ keys then keys else keys ++ [k.take 15])
      else .refused

end Load

open Load

/-- What the code returns for it. -/
def Load.Outcome.res : Outcome → R (Option SharedKeys)
  | .panics => .panic
  | .refused => .ok none
  | .table keys => .ok (some ⟨keys.zipIdx⟩)

/-- The elements of an array: `some` text for strings, `none` for others. -/
def ElementsAre (m : Mem) (v : Val) (xs : List (Option (List UInt8))) : Prop :=
  v.arrayLen m = .ok xs.length ∧ ∀ i x, xs[i]? = some x → ∃ e, v.get m i = .ok (some e) ∧
    match x with
    | some s => e.type m = .ok .string ∧ e.toStr m = .ok s
    | none => ∃ t, e.type m = .ok t ∧ t ≠ .string

theorem canEncode_iff {U : CharTable} {k : List UInt8} (h : k.length ≤ 16) : SharedKeys.canEncode U k = true ↔ Allowed U k := by
  unfold SharedKeys.canEncode Allowed
  cases hd : utf8Decode? k with
  | none => simp
  | some cs => simp [h]

theorem lookup_zip (keys : List (List UInt8)) (k : List UInt8) :
    (⟨keys.zipIdx⟩ : SharedKeys).lookup k = none ↔ k ∉ keys := by
  rw [SharedKeys.lookup_none]
  constructor
  · intro h hk
    obtain ⟨i, hi⟩ := List.mem_iff_getElem?.mp hk
    exact h (k, i) (List.mk_mem_zipIdx_iff_getElem?.mpr hi) rfl
  · intro h e he heq
    obtain ⟨a, i⟩ := e
    have := List.mk_mem_zipIdx_iff_getElem?.mp he
    exact h (heq ▸ List.mem_of_getElem? this)

theorem insert_zip {U : CharTable} {keys : List (List UInt8)} (hl : keys.length ≤ 2048) (k : List UInt8) :
    (⟨keys.zipIdx⟩ : SharedKeys).encodeAndInsert U k =
      if Allowed U k ∧ keys.length < 2048 then
        (if k.take 15 ∈ keys then (⟨keys.zipIdx⟩, (⟨keys.zipIdx⟩ : SharedKeys).lookup (k.take 15))
         else (⟨(keys ++ [k.take 15]).zipIdx⟩, some keys.length))
      else (⟨keys.zipIdx⟩, none) := by
  have hlen : (⟨keys.zipIdx⟩ : SharedKeys).len = keys.length := by
    simp only [SharedKeys.len, List.length_zipIdx]; omega
  have hmk : SharedKeys.maxKeyLen = 16 := rfl
  have hmx : SharedKeys.maxKeys = 2048 := rfl
  unfold SharedKeys.encodeAndInsert SharedKeys.canAdd
  rw [hlen]
  by_cases hc : Allowed U k ∧ keys.length < 2048
  · obtain ⟨ha, hk⟩ := hc
    have hce := (canEncode_iff ha.1).mpr ha
    have hz : zstr k = k.take 15 := by
      unfold zstr
      have hnn := SharedKeys.canEncode_no_nul hce
      have : ∀ l : List UInt8, (∀ b ∈ l, b ∈ k) → l.takeWhile (· != 0) = l := by
        intro l
        induction l with
        | nil => intro _; rfl
        | cons b l ih =>
          intro h
          rw [List.takeWhile_cons_of_pos, ih fun x hx => h x (List.mem_cons_of_mem _ hx)]
          have : b ≠ 0 := fun hb => hnn (hb ▸ h b (by simp))
          simpa using this
      exact this _ fun b hb => List.mem_of_mem_take hb
    have hadd : (!(decide (keys.length < SharedKeys.maxKeys) && decide (k.length ≤ SharedKeys.maxKeyLen) &&
        SharedKeys.canEncode U k)) = false := by simp [hmk, hmx, hk, ha.1, hce]
    rw [hadd, hz]
    simp only [Bool.false_eq_true, if_false]
    rw [if_pos (show Allowed U k ∧ keys.length < 2048 from ⟨ha, hk⟩)]
    by_cases hm : k.take 15 ∈ keys
    · rw [if_pos hm]
      cases hlk : (⟨keys.zipIdx⟩ : SharedKeys).lookup (k.take 15) with
      | none => exact absurd hm ((lookup_zip _ _).mp hlk)
      | some x => rfl
    · rw [if_neg hm, (lookup_zip _ _).mpr hm, List.zipIdx_append]
      simp
  · rw [if_neg hc, if_pos ?_]
    by_cases hk : keys.length < 2048
    · have ha : ¬ Allowed U k := fun ha => hc ⟨ha, hk⟩
      by_cases h16 : k.length ≤ 16
      · have : SharedKeys.canEncode U k ≠ true := fun h => ha ((canEncode_iff h16).mp h)
        simp [this]
      · simp [hmk, h16]
    · simp [hmx, hk]

theorem toStr_other {m : Mem} {e : Val} {t : ValueType} (h : e.type m = .ok t) (hs : t ≠ .string) : e.toStr m = .ok [] := by
  unfold Val.toStr
  rw [h]
  cases t <;> first | rfl | exact absurd rfl hs

/-- The loop, from any position. -/
theorem loop_spec {m : Mem} {U : CharTable} {v : Val} {w : Bool} {n fp : Nat} (hc : Coll m v w n fp) (he : Elems m v w n fp)
    {xs : List (Option (List UInt8))} (hx : ElementsAre m v xs) : ∀ (k i : Nat) (keys : List (List UInt8)), n - i < k →
    keys.length ≤ 2048 → SharedKeys.loadLoop m U k (iterAt (v.pos + fp) (wof w) n i) ⟨keys.zipIdx⟩ =
      (load U m.dbg (xs.drop i) keys).res := by
  have hn : n = xs.length := by have := hx.1; rw [hc.len] at this; cases this; rfl
  intro k
  induction k with
  | zero => intro i keys hk; omega
  | succ k ih =>
    intro i keys hk hl
    unfold SharedKeys.loadLoop
    by_cases hi : i < n
    · obtain ⟨e, h1, h2⟩ := he i hi
      rw [hc.step hi h1]
      simp only [ok_bind]
      have hxi : i < xs.length := by omega
      obtain ⟨e', g1, g2⟩ := hx.2 i xs[i] (List.getElem?_eq_getElem hxi)
      have hee : e' = e := by
        unfold Val.get at g1
        rw [hc.len] at g1
        simp only [ok_bind, hc.getUnchecked hi, h1, pure_eq] at g1
        rw [if_neg (by omega)] at g1
        cases g1; rfl
      subst hee
      rw [List.drop_eq_getElem_cons hxi]
      generalize xs[i] = x at g2
      have key : ∀ s, e'.toStr m = .ok s → x.getD [] = s → ¬ (m.dbg = true ∧ x = none) → ∀ t, e'.type m = .ok t →
          (m.dbg && decide (t ≠ .string)) = false →
          (do
            let t ← e'.type m
            if m.dbg && decide (t ≠ .string) then .panic
            else
              let key ← e'.toStr m
              match (⟨keys.zipIdx⟩ : SharedKeys).encodeAndInsert U key with
              | (sk', some _) => SharedKeys.loadLoop m U k (iterAt (v.pos + fp) (wof w) n (i + 1)) sk'
              | (_, none) => pure none) = (load U m.dbg (x :: xs.drop (i + 1)) keys).res := by
        intro s hs hxs hna t ht htd
        rw [ht]
        simp only [ok_bind, htd, hs]
        rw [if_neg (by simp), insert_zip hl, load, if_neg hna, hxs]
        dsimp only
        by_cases ha : Allowed U s ∧ keys.length < 2048
        · rw [if_pos ha, if_pos ha]
          by_cases hm : s.take 15 ∈ keys
          · rw [if_pos hm, if_pos hm]
            cases hlk : (⟨keys.zipIdx⟩ : SharedKeys).lookup (s.take 15) with
            | none => exact absurd hm ((lookup_zip _ _).mp hlk)
            | some c => exact ih (i + 1) keys (by omega) hl
          · rw [if_neg hm, if_neg hm]
            exact ih (i + 1) _ (by omega) (by simp; omega)
        · rw [if_neg ha, if_neg ha]
          rfl
      cases x with
      | some s =>
        obtain ⟨g3, g4⟩ := g2
        exact key s g4 rfl (by simp) _ g3 (by simp)
      | none =>
        obtain ⟨t, g3, g4⟩ := g2
        cases hd : m.dbg with
        | true =>
          rw [g3]
          simp [g4, load, Outcome.res]
        | false =>
          have := key [] (toStr_other g3 g4) rfl (by simp [hd]) t g3 (by simp [hd])
          rw [hd] at this
          exact this
    · rw [iterAt_step_end hi, List.drop_eq_nil_of_le (by omega)]
      rfl

/-- Every array of an accepted document has elements. -/
theorem elements_exist {m : Mem} {v : Val} {w : Bool} {n fp : Nat} (hc : Coll m v w n fp) (he : Elems m v w n fp) :
    ∃ xs, ElementsAre m v xs := by
  have hsel : ∀ i, ∃ x : Option (List UInt8), i < n → ∃ e, v.get m i = .ok (some e) ∧
      match x with
      | some s => e.type m = .ok .string ∧ e.toStr m = .ok s
      | none => ∃ t, e.type m = .ok t ∧ t ≠ .string := by
    intro i
    by_cases hi : i < n
    · obtain ⟨e, h1, h2⟩ := he i hi
      have hg : v.get m i = .ok (some e) := by
        unfold Val.get
        rw [hc.len]
        simp only [ok_bind, hc.getUnchecked hi, h1, pure_eq]
        rw [if_neg (by omega)]
      obtain ⟨t, ht, _⟩ := h2.not_pointer
      obtain ⟨s, hs⟩ := h2.toStr_ok
      by_cases hst : t = .string
      · subst hst; exact ⟨some s, fun _ => ⟨e, hg, ht, hs⟩⟩
      · exact ⟨none, fun _ => ⟨e, hg, t, ht, hst⟩⟩
    · exact ⟨none, fun h => absurd h hi⟩
  obtain ⟨f, hf⟩ := Classical.axiomOfChoice hsel
  refine ⟨(List.range n).map f, by rw [hc.len]; simp, fun i x hx => ?_⟩
  simp only [List.getElem?_map, Option.map_eq_some_iff] at hx
  obtain ⟨j, hj, rfl⟩ := hx
  obtain ⟨hlt, hj⟩ := List.getElem?_eq_some_iff.mp hj
  simp at hlt hj
  subst hj
  exact hf _ hlt

/-- What any accepted root loads as, in either build. -/
theorem state_value {m : Mem} {U : CharTable} {v : Val} (h : DeepOK m v) :
    ((∃ t, v.type m = .ok t ∧ t ≠ .array) ∧ SharedKeys.fromStateValue m U v = .ok none) ∨
    (v.type m = .ok .array ∧ ∃ xs, ElementsAre m v xs ∧ SharedKeys.fromStateValue m U v = (load U m.dbg xs []).res) := by
  obtain ⟨t, ht, _⟩ := h.not_pointer
  by_cases ha : t = .array
  · subst ha
    right
    obtain ⟨w, n, fp, hc, he⟩ := h.coll_of ht (.inl rfl)
    obtain ⟨xs, hx⟩ := elements_exist hc he
    refine ⟨ht, xs, hx, ?_⟩
    unfold SharedKeys.fromStateValue Val.asArray
    simp only [ht, ok_bind, if_true, pure_eq, hc.iter]
    have := loop_spec (U := U) hc he hx ((iterAt (v.pos + fp) (wof w) n 0).len + 1) 0 [] (by simp [iterAt]) (by simp)
    simpa [SharedKeys.new] using this
  · left
    refine ⟨⟨t, ht, ha⟩, ?_⟩
    unfold SharedKeys.fromStateValue Val.asArray
    simp only [ht, ok_bind, ha, if_false, pure_eq]

theorem ElementsAre.unique {m : Mem} {v : Val} {xs ys : List (Option (List UInt8))} (h : ElementsAre m v xs)
    (h' : ElementsAre m v ys) : xs = ys := by
  have hl : xs.length = ys.length := by have := h.1.symm.trans h'.1; injection this
  apply List.ext_getElem hl
  intro i h1 h2
  obtain ⟨e, a1, a2⟩ := h.2 i _ (List.getElem?_eq_getElem h1)
  obtain ⟨e', b1, b2⟩ := h'.2 i _ (List.getElem?_eq_getElem h2)
  rw [a1] at b1; cases b1
  generalize xs[i] = x at a2
  generalize ys[i] = y at b2
  cases x with
  | some s =>
    cases y with
    | some s' => have := a2.2.symm.trans b2.2; cases this; rfl
    | none => obtain ⟨t, g1, g2⟩ := b2; have := a2.1.symm.trans g1; cases this; exact absurd rfl g2
  | none =>
    cases y with
    | none => rfl
    | some s => obtain ⟨t, g1, g2⟩ := a2; have := b2.1.symm.trans g1; cases this; exact absurd rfl g2

/-- **C78, any bytes.** In a build with debug assertions and overflow checks: bytes that `from_bytes` refuses, and roots that are not arrays, give
`None`; for an array the result is the one the elements call for. It panics if `from_bytes` does. It always returns or panics. -/
theorem C78_any_bytes (m : Mem) (hdbg : m.dbg = true) (U : CharTable) :
    (fromBytes m = .panic ∧ SharedKeys.fromStateBytes m U = .panic) ∨
    (∃ x, fromBytes m = .err x ∧ SharedKeys.fromStateBytes m U = .ok none) ∨
    (∃ v t, fromBytes m = .ok v ∧ v.type m = .ok t ∧ t ≠ .array ∧ SharedKeys.fromStateBytes m U = .ok none) ∨
    (∃ v xs, fromBytes m = .ok v ∧ v.type m = .ok .array ∧ ElementsAre m v xs ∧
      SharedKeys.fromStateBytes m U = (load U true xs []).res) := by
  have hsafe : (fromBytes m).Safe := fromBytesGo_safe m hdbg _ (Nat.le_refl _)
  unfold SharedKeys.fromStateBytes
  cases hf : fromBytes m with
  | ok v =>
    dsimp only
    rcases state_value (U := U) (fromBytesGo_deep hdbg _ _ hf) with ⟨⟨t, h1, h2⟩, h3⟩ | ⟨h1, xs, h2, h3⟩
    · exact .inr (.inr (.inl ⟨v, t, rfl, h1, h2, h3⟩))
    · rw [hdbg] at h3
      exact .inr (.inr (.inr ⟨v, xs, rfl, h1, h2, h3⟩))
  | err x => exact .inr (.inl ⟨x, rfl, rfl⟩)
  | panic => exact .inl ⟨rfl, rfl⟩
  | ub => rw [hf] at hsafe; cases hsafe
  | diverge => rw [hf] at hsafe; cases hsafe

/-- **C78, without debug assertions.** Of bytes accepted by a build with them: nothing panics, and elements that are not strings
are taken for empty names. -/
theorem C78_release_partial (m : Mem) (hdbg : m.dbg = true) (U : CharTable) (v : Val) (hok : fromBytes m = .ok v) :
    (∃ t, v.type m = .ok t ∧ t ≠ .array ∧ SharedKeys.fromStateBytes m.rel U = .ok none) ∨
    (v.type m = .ok .array ∧ ∃ xs, ElementsAre m.rel v xs ∧ SharedKeys.fromStateBytes m.rel U = (load U false xs []).res) := by
  have hrel : fromBytes m.rel = .ok v := LePanic.ok (fromBytesGo_prof hdbg _) hok
  unfold SharedKeys.fromStateBytes
  rw [hrel]
  rcases state_value (U := U) ((fromBytesGo_deep hdbg _ _ hok).rel hdbg) with ⟨⟨t, h1, h2⟩, h3⟩ | ⟨h1, xs, h2, h3⟩
  · exact .inl ⟨t, h1, h2, h3⟩
  · exact .inr ⟨h1, xs, h2, h3⟩

/-- **C78, states.** An array of strings, in either build: a table exactly if all may be keys and there are not too many;
otherwise `None`. No panic. -/
theorem C78_strings (U : CharTable) (asserts : Bool) (names : List (List UInt8)) :
    load U asserts (names.map some) [] = .refused ∨ ∃ keys, load U asserts (names.map some) [] = .table keys ∧
      (∀ k ∈ names, Allowed U k ∧ k.take 15 ∈ keys) ∧ (∀ k ∈ keys, ∃ n ∈ names, k = n.take 15) ∧ keys.Nodup ∧
      keys.length ≤ 2048 := by
  have go : ∀ (names acc : List (List UInt8)), acc.Nodup → acc.length ≤ 2048 →
      load U asserts (names.map some) acc = .refused ∨ ∃ keys, load U asserts (names.map some) acc = .table keys ∧ acc <+: keys ∧
        (∀ k ∈ names, Allowed U k ∧ k.take 15 ∈ keys) ∧ (∀ k ∈ keys, k ∈ acc ∨ ∃ n ∈ names, k = n.take 15) ∧ keys.Nodup ∧
        keys.length ≤ 2048 := by
    intro names
    induction names with
    | nil =>
      intro acc h1 h2
      exact .inr ⟨acc, rfl, List.prefix_refl _, by simp, fun k hk => .inl hk, h1, h2⟩
    | cons n names ih =>
      intro acc h1 h2
      simp only [List.map_cons, load, reduceCtorEq, and_false, if_false, Option.getD_some]
      by_cases ha : Allowed U n ∧ acc.length < 2048
      · rw [if_pos ha]
        by_cases hm : n.take 15 ∈ acc
        · rw [if_pos hm]
          rcases ih acc h1 h2 with h | ⟨keys, g1, g2, g3, g4, g5, g6⟩
          · exact .inl h
          · refine .inr ⟨keys, g1, g2, ?_, ?_, g5, g6⟩
            · intro k hk
              rcases List.mem_cons.mp hk with rfl | hk
              · exact ⟨ha.1, g2.subset hm⟩
              · exact g3 k hk
            · intro k hk
              rcases g4 k hk with h | ⟨x, h, h'⟩
              · exact .inl h
              · exact .inr ⟨x, List.mem_cons_of_mem _ h, h'⟩
        · rw [if_neg hm]
          rcases ih (acc ++ [n.take 15]) (by
            rw [List.nodup_append]
            refine ⟨h1, by simp, ?_⟩
            intro a ha b hb
            simp only [List.mem_singleton] at hb
            subst hb
            rintro rfl
            exact hm ha) (by simp; omega) with h | ⟨keys, g1, g2, g3, g4, g5, g6⟩
          · exact .inl h
          · refine .inr ⟨keys, g1, (List.prefix_append _ _).trans g2, ?_, ?_, g5, g6⟩
            · intro k hk
              rcases List.mem_cons.mp hk with rfl | hk
              · exact ⟨ha.1, g2.subset (by simp)⟩
              · exact g3 k hk
            · intro k hk
              rcases g4 k hk with h | ⟨x, h, h'⟩
              · rcases List.mem_append.mp h with h | h
                · exact .inl h
                · exact .inr ⟨n, by simp, by simpa using h⟩
              · exact .inr ⟨x, List.mem_cons_of_mem _ h, h'⟩
      · rw [if_neg ha]; exact .inl rfl
  rcases go names [] (by simp) (by simp) with h | ⟨keys, g1, _, g3, g4, g5, g6⟩
  · exact .inl h
  · exact .inr ⟨keys, g1, g3, fun k hk => (g4 k hk).resolve_left (by simp), g5, g6⟩

/-- The refusal of an array of strings has a reason: a name that may not be a key, or a key too many. -/
theorem C78_refused (U : CharTable) (asserts : Bool) (names : List (List UInt8)) (hall : ∀ k ∈ names, Allowed U k)
    (hfew : names.length ≤ 2048) : ∃ keys, load U asserts (names.map some) [] = .table keys := by
  have go : ∀ (names acc : List (List UInt8)), (∀ k ∈ names, Allowed U k) → acc.length + names.length ≤ 2048 →
      ∃ keys, load U asserts (names.map some) acc = .table keys := by
    intro names
    induction names with
    | nil => intro acc _ _; exact ⟨acc, rfl⟩
    | cons n names ih =>
      intro acc h1 h2
      simp only [List.length_cons] at h2
      simp only [List.map_cons, load, reduceCtorEq, and_false, if_false, Option.getD_some]
      rw [if_pos ⟨h1 n (by simp), by omega⟩]
      refine ih _ (fun k hk => h1 k (List.mem_cons_of_mem _ hk)) ?_
      split
      · omega
      · simp; omega
  exact go names [] hall (by simpa using hfew)

/-- **C78, tables come from states only.** With debug assertions: if a table is returned, the bytes are an array of strings, all
of which may be keys, and the table has just these, each once. -/
theorem C78_only_states (m : Mem) (hdbg : m.dbg = true) (U : CharTable) (sk : SharedKeys)
    (h : SharedKeys.fromStateBytes m U = .ok (some sk)) :
    ∃ (v : Val) (names : List (List UInt8)), fromBytes m = .ok v ∧ v.type m = .ok .array ∧ ElementsAre m v (names.map some) ∧
      ∃ keys : List (List UInt8), sk.entries = keys.zipIdx ∧ (∀ k ∈ names, Allowed U k ∧ k.take 15 ∈ keys) ∧
        (∀ k ∈ keys, ∃ n ∈ names, k = n.take 15) ∧ keys.Nodup := by
  rcases C78_any_bytes m hdbg U with ⟨_, h1⟩ | ⟨_, _, h1⟩ | ⟨_, _, _, _, _, h1⟩ | ⟨v, xs, h1, h2, h3, h4⟩
  · rw [h1] at h; cases h
  · rw [h1] at h; cases h
  · rw [h1] at h; cases h
  · rw [h4] at h
    have go : ∀ (xs : List (Option (List UInt8))) (acc keys : List (List UInt8)), load U true xs acc = .table keys →
        ∃ names : List (List UInt8), xs = names.map some := by
      intro xs
      induction xs with
      | nil => intro _ _ _; exact ⟨[], rfl⟩
      | cons x xs ih =>
        intro acc keys hl
        cases x with
        | none => simp [load] at hl
        | some k =>
          simp only [load, reduceCtorEq, and_false, if_false] at hl
          split at hl
          · obtain ⟨names, rfl⟩ := ih _ _ hl
            exact ⟨k :: names, rfl⟩
          · cases hl
    cases hl : load U true xs [] with
    | panics => rw [hl] at h; cases h
    | refused => rw [hl] at h; cases h
    | table keys =>
      rw [hl] at h
      cases h
      obtain ⟨names, rfl⟩ := go xs [] keys hl
      rcases C78_strings U true names with hr | ⟨keys', g1, g2, g3, g4, _⟩
      · rw [hl] at hr; cases hr
      · rw [hl] at g1; cases g1
        exact ⟨v, names, h1, h2, h3, keys, rfl, g2, g3, g4⟩

/-! ## The full claim is false -/

/-- `[null]`. -/
def nullState : List UInt8 := [0x60, 0x01, 0x30, 0x00, 0x80, 0x02]

set_option maxRecDepth 20000 in
/-- **C78 is false of the code.** The array `[null]` is no state. With debug assertions loading it panics; without, it gives a table
with an empty key, not `None`. -/
theorem C78_refuted (U : CharTable) : SharedKeys.fromStateBytes ⟨nullState, 0, true⟩ U = .panic ∧
    ∃ sk, SharedKeys.fromStateBytes ⟨nullState, 0, false⟩ U = .ok (some sk) ∧ sk.decode 0 = some [] := by
  refine ⟨?_, ⟨[([], 0)]⟩, ?_, rfl⟩
  · unfold SharedKeys.fromStateBytes
    rw [show fromBytes ⟨nullState, 0, true⟩ = .ok ⟨0, 4⟩ by decide +kernel]
    rfl
  · unfold SharedKeys.fromStateBytes
    rw [show fromBytes ⟨nullState, 0, false⟩ = .ok ⟨0, 4⟩ by decide +kernel]
    rfl

/-- **C78 is false of the code: bytes on which `from_bytes` panics.** Not `None`, in any build. -/
theorem C78_refuted_bytes (U : CharTable) (dbg : Bool) :
    SharedKeys.fromStateBytes ⟨[0x00, 0x00, 0xC0, 0x01], 0, dbg⟩ U = .panic := by
  unfold SharedKeys.fromStateBytes
  rw [show fromBytes ⟨[0x00, 0x00, 0xC0, 0x01], 0, dbg⟩ = .panic by cases dbg <;> decide +kernel]

/-! ## Concrete cases -/

/-- Names: a repeated one, one of 16 bytes, which is cut, and one that may not be a key. -/
example : load ⟨fun _ => false⟩ true [some [0x61], some [0x62], some [0x61], some (List.replicate 16 0x63)] [] =
    .table [[0x61], [0x62], List.replicate 15 0x63] ∧
    load ⟨fun _ => false⟩ true [some [0x61], some [0x21], none] [] = .refused ∧
    load ⟨fun _ => false⟩ true [some [0x61], none, some [0x21]] [] = .panics ∧
    load ⟨fun _ => false⟩ false [some [0x61], none] [] = .table [[0x61], []] := by
  decide +kernel

/-- The bytes of `["ab", 5]`: accepted, an array, and its elements. -/
example : let m : Mem := ⟨[0x42, 0x61, 0x62, 0x00, 0x60, 0x02, 0x80, 0x03, 0x00, 0x05, 0x80, 0x03], 0, true⟩
    fromBytes m = .ok ⟨4, 6⟩ ∧ Val.type m ⟨4, 6⟩ = .ok .array ∧ ElementsAre m ⟨4, 6⟩ [some [0x61, 0x62], none] := by
  refine ⟨by decide +kernel, by decide +kernel, by decide +kernel, ?_⟩
  intro i x hx
  match i, hx with
  | 0, hx => cases hx; exact ⟨⟨0, 6⟩, by decide +kernel, by decide +kernel, by decide +kernel⟩
  | 1, hx => cases hx; exact ⟨⟨8, 2⟩, by decide +kernel, _, rfl, by decide⟩

end Fleece.Props
