import Verif.Proofs.Load

/-! # What is lost with shared keys -/

namespace Fleece
open Res

/-! ## Without shared keys -/

theorem KeyView.plain_read (U : CharTable) (k : List UInt8) :
    (KeyView.of U false none).read k = if 2 ≤ k.length then some k else none := by
  match k with
  | [] => rfl
  | [_] => rfl
  | _ :: _ :: _ => simp [KeyView.read, KeyView.of]

mutual
/-- A document written and read without shared keys. -/
theorem Tree.lossyIn_plain (U : CharTable) : (t : Tree) → t.lossyIn (KeyView.of U false none) = t.lossy
  | .null | .undefined | .bool _ | .int _ | .float _ => rfl
  | .str s => by
    match s with
    | [] => rfl
    | [_] => rfl
    | _ :: _ :: _ => rfl
  | .data d => by
    match d with
    | [] => rfl
    | _ :: _ => rfl
  | .arr xs => by simp only [Tree.lossyIn, Tree.lossy, Tree.lossyInAll_plain U xs]
  | .dict kvs => by
    simp only [Tree.lossyIn, Tree.lossy, Tree.lossyInOf_plain U kvs]
    have hf : (fun kv : List UInt8 × Tree => kvs.all fun l => ((KeyView.of U false none).read l.1).isSome ||
        (KeyView.of U false none).first kv.1 l.1) =
        fun kv => kvs.all fun l => decide (2 ≤ l.1.length) || decide (kv.1 < l.1) := by
      funext kv
      congr 1
      funext l
      rw [KeyView.plain_read]
      simp only [KeyView.first, KeyView.of, Bool.false_and, Bool.false_or]
      congr 1
      split <;> simp [*]
    rw [hf]
    congr 1
    refine (List.map_congr_left fun kv hkv => ?_).trans (List.map_id _)
    rw [List.mem_filter, Tree.lossyOf_eq, List.mem_map] at hkv
    obtain ⟨⟨l, hl, rfl⟩, hall⟩ := hkv
    have := List.all_eq_true.mp hall l hl
    simp only [Bool.or_eq_true, decide_eq_true_eq, u8_list_irrefl, or_false] at this
    rw [KeyView.plain_read, if_pos this]
    rfl
theorem Tree.lossyInAll_plain (U : CharTable) : (xs : List Tree) →
    Tree.lossyInAll (KeyView.of U false none) xs = Tree.lossyAll xs
  | [] => rfl
  | x :: xs => by simp only [Tree.lossyInAll, Tree.lossyAll, Tree.lossyIn_plain U x, Tree.lossyInAll_plain U xs]
theorem Tree.lossyInOf_plain (U : CharTable) : (kvs : List (List UInt8 × Tree)) →
    Tree.lossyInOf (KeyView.of U false none) kvs = Tree.lossyOf kvs
  | [] => rfl
  | (k, v) :: kvs => by simp only [Tree.lossyInOf, Tree.lossyOf, Tree.lossyIn_plain U v, Tree.lossyInOf_plain U kvs]
end

/-! ## What is not lost -/

theorem KeyView.read_kept {U : CharTable} {shared : Bool} {scope : Option SharedKeys} {k : List UInt8}
    (h : ¬ (k.length < 2 ∨ shared = true ∧ k.length = 16 ∧ SharedKeys.canEncode U k = true)) :
    (KeyView.of U shared scope).read k = some k := by
  have h2 : 2 ≤ k.length := by omega
  rw [KeyView.read_long h2]
  split
  · next hc =>
    simp only [KeyView.of, Bool.and_eq_true, decide_eq_true_eq] at hc
    obtain ⟨⟨⟨h3, _⟩, h4⟩, h5⟩ := hc
    rw [List.take_of_length_le]
    have : k.length ≠ 16 := fun h16 => h (.inr ⟨h3, h16, h5⟩)
    omega
  · rfl

mutual
/-- Without lost values and keys nothing changes. -/
theorem Tree.lossyIn_self (U : CharTable) (shared : Bool) (scope : Option SharedKeys) : (t : Tree) →
    ¬ t.Has (Tree.LostNode U shared) → t.lossyIn (KeyView.of U shared scope) = t
  | .null, _ | .undefined, _ | .bool _, _ | .int _, _ | .float _, _ => by simp [Tree.lossyIn]
  | .str s, h => by
    match s, h with
    | [], h => exact absurd (.here (by simp [Tree.LostNode])) h
    | [_], h => exact absurd (.here (by simp [Tree.LostNode])) h
    | _ :: _ :: _, _ => simp [Tree.lossyIn]
  | .data d, h => by
    match d, h with
    | [], h => exact absurd (.here (by simp [Tree.LostNode])) h
    | _ :: _, _ => simp [Tree.lossyIn]
  | .arr xs, h => by
    simp only [Tree.lossyIn]
    rw [Tree.lossyInAll_self U shared scope xs fun x hx hh => h (.elem hx hh)]
  | .dict kvs, h => by
    have hk : ∀ l ∈ kvs, (KeyView.of U shared scope).read l.1 = some l.1 := fun l hl =>
      KeyView.read_kept fun hc => h (.here ⟨l, hl, hc⟩)
    simp only [Tree.lossyIn]
    rw [Tree.lossyInOf_self U shared scope kvs fun x hx hh => h (.entry hx hh), List.filter_eq_self.mpr]
    · congr 1
      refine (List.map_congr_left fun kv hkv => ?_).trans (List.map_id _)
      rw [hk kv hkv]; rfl
    · intro kv hkv
      rw [List.all_eq_true]
      intro l hl
      rw [hk l hl]; rfl
theorem Tree.lossyInAll_self (U : CharTable) (shared : Bool) (scope : Option SharedKeys) : (xs : List Tree) →
    (∀ x ∈ xs, ¬ x.Has (Tree.LostNode U shared)) → Tree.lossyInAll (KeyView.of U shared scope) xs = xs
  | [], _ => rfl
  | x :: xs, h => by
    simp only [Tree.lossyInAll]
    rw [Tree.lossyIn_self U shared scope x (h x (by simp)),
      Tree.lossyInAll_self U shared scope xs fun y hy => h y (List.mem_cons_of_mem _ hy)]
theorem Tree.lossyInOf_self (U : CharTable) (shared : Bool) (scope : Option SharedKeys) :
    (kvs : List (List UInt8 × Tree)) → (∀ kv ∈ kvs, ¬ kv.2.Has (Tree.LostNode U shared)) →
    Tree.lossyInOf (KeyView.of U shared scope) kvs = kvs
  | [], _ => rfl
  | (k, v) :: kvs, h => by
    simp only [Tree.lossyInOf]
    rw [Tree.lossyIn_self U shared scope v (h (k, v) (by simp)),
      Tree.lossyInOf_self U shared scope kvs fun y hy => h y (List.mem_cons_of_mem _ hy)]
end

/-! ## What is lost is not there any more -/

/-- A property of single values that does not depend on the order of dict entries. -/
def Unordered (p : Tree → Prop) : Prop :=
  (∀ xs ys, p (.arr xs) → xs.length = ys.length → p (.arr ys)) ∧
  ∀ kvs mid lvs : List (List UInt8 × Tree), kvs.Perm mid → mid.map (·.1) = lvs.map (·.1) → p (.dict kvs) → p (.dict lvs)

theorem Tree.Same.has {p : Tree → Prop} (hp : Unordered p) {t u : Tree} (h : Tree.Same t u) : t.Has p → u.Has p := by
  induction h with
  | refl t => exact id
  | @arr xs ys len each ih =>
    intro h
    cases h with
    | here h => exact .here (hp.1 xs ys h len)
    | elem hx h =>
      obtain ⟨i, hi⟩ := List.getElem?_of_mem hx
      have hlt := (List.getElem?_eq_some_iff.mp hi).1
      have hy := List.getElem?_eq_getElem (l := ys) (i := i) (by omega)
      exact .elem (List.mem_of_getElem? hy) (ih i _ _ hi hy h)
  | @dict kvs mid lvs perm keys each ih =>
    intro h
    cases h with
    | here h => exact .here (hp.2 kvs mid lvs perm keys h)
    | entry hx h =>
      obtain ⟨i, hi⟩ := List.getElem?_of_mem (perm.mem_iff.mp hx)
      have hlen : mid.length = lvs.length := by simpa using congrArg List.length keys
      have hlt := (List.getElem?_eq_some_iff.mp hi).1
      have hy := List.getElem?_eq_getElem (l := lvs) (i := i) (by omega)
      exact .entry (List.mem_of_getElem? hy) (ih i _ _ hi hy h)

theorem lostNode_unordered (U : CharTable) (shared : Bool) : Unordered (Tree.LostNode U shared) := by
  refine ⟨fun _ _ h _ => h, ?_⟩
  rintro kvs mid lvs hp hk ⟨kv, hkv, h⟩
  have hm : kv.1 ∈ lvs.map (·.1) := by
    rw [← hk]; exact List.mem_map.mpr ⟨kv, hp.mem_iff.mp hkv, rfl⟩
  obtain ⟨l, hl, heq⟩ := List.mem_map.mp hm
  exact ⟨l, hl, by rw [heq]; exact h⟩

/-- Keys are read as keys that can be stored. -/
theorem KeyView.read_sound {U : CharTable} {shared : Bool} {scope : Option SharedKeys}
    (hm : ∀ sk, scope = some sk → sk.Middling) {k x : List UInt8} (h : (KeyView.of U shared scope).read k = some x) :
    ¬ (x.length < 2 ∨ shared = true ∧ x.length = 16 ∧ SharedKeys.canEncode U x = true) := by
  have hlook : ∀ c, (KeyView.of U shared scope).look c = some x → 2 ≤ x.length ∧ x.length ≤ 15 := by
    intro c hc
    cases scope with
    | none => cases hc
    | some sk =>
      have hc : (sk.entries[c]?).map (·.1) = some x := hc
      rw [Option.map_eq_some_iff] at hc
      obtain ⟨e, he, rfl⟩ := hc
      exact hm sk rfl e (List.mem_of_getElem? he)
  match k, h with
  | [], h => have := hlook _ h; omega
  | [_], h => have := hlook _ h; omega
  | a :: b :: k, h =>
    rw [KeyView.read_long (by simp)] at h
    simp only [Option.some.injEq] at h
    split at h
    · subst h
      simp only [List.length_take, List.length_cons]; omega
    · next hc =>
      subst h
      rintro (h | ⟨h1, h2, h3⟩)
      · simp only [List.length_cons] at h; omega
      · apply hc
        simp [KeyView.of, h1, h2, h3]

mutual
theorem Tree.lossyIn_none {U : CharTable} {shared : Bool} {scope : Option SharedKeys}
    (hm : ∀ sk, scope = some sk → sk.Middling) : (t : Tree) → ¬ t.Has Tree.ByteNode →
    ¬ (t.lossyIn (KeyView.of U shared scope)).Has (Tree.LostNode U shared)
  | .null, _ | .undefined, _ | .bool _, _ | .int _, _ | .float _, _ => by
    simp only [Tree.lossyIn]
    intro h
    cases h with
    | here h => exact h
  | .str s, _ => by
    match s with
    | [] => simp only [Tree.lossyIn]; intro h; cases h with | here h => exact h
    | [_] => simp only [Tree.lossyIn]; intro h; cases h with | here h => exact h
    | _ :: _ :: _ =>
      simp only [Tree.lossyIn]; intro h
      cases h with
      | here h => simp only [Tree.LostNode, List.length_cons] at h; omega
  | .data d, hb => by
    match d, hb with
    | [], _ => simp only [Tree.lossyIn]; intro h; cases h with | here h => exact h
    | [_], hb => exact absurd (.here rfl) hb
    | _ :: _ :: _, _ =>
      simp only [Tree.lossyIn]; intro h
      cases h with
      | here h => simp only [Tree.LostNode, List.length_cons] at h; omega
  | .arr xs, hb => by
    simp only [Tree.lossyIn]
    intro h
    cases h with
    | here h => exact h
    | elem hx h => exact Tree.lossyInAll_none hm xs (fun x hx hh => hb (.elem hx hh)) _ hx h
  | .dict kvs, hb => by
    have hsub : ∀ kv ∈ (((Tree.lossyInOf (KeyView.of U shared scope) kvs).filter fun kv => kvs.all fun l =>
        ((KeyView.of U shared scope).read l.1).isSome || (KeyView.of U shared scope).first kv.1 l.1).map
      fun kv => (((KeyView.of U shared scope).read kv.1).getD kv.1, kv.2)),
        (∃ y ∈ Tree.lossyInOf (KeyView.of U shared scope) kvs, y.2 = kv.2) ∧
          ¬ (kv.1.length < 2 ∨ shared = true ∧ kv.1.length = 16 ∧ SharedKeys.canEncode U kv.1 = true) := by
      intro kv hkv
      obtain ⟨y, hy, rfl⟩ := List.mem_map.mp hkv
      obtain ⟨hy1, hy2⟩ := List.mem_filter.mp hy
      refine ⟨⟨y, hy1, rfl⟩, ?_⟩
      rw [Tree.lossyInOf_eq, List.mem_map] at hy1
      obtain ⟨l, hl, rfl⟩ := hy1
      have hl' := List.all_eq_true.mp hy2 l hl
      have : ∃ x, (KeyView.of U shared scope).read l.1 = some x := by
        cases hr : (KeyView.of U shared scope).read l.1 with
        | some x => exact ⟨x, rfl⟩
        | none =>
          rw [hr] at hl'
          simp only [KeyView.first, u8_list_irrefl, Bool.or_eq_true, decide_eq_true_eq, or_false, Option.isSome_none,
            Bool.false_eq_true, false_or] at hl'
          rw [(KeyView.of_fair U shared scope).read_coded hl'] at hr
          cases hr
      obtain ⟨x, hx⟩ := this
      simp only [hx, Option.getD_some]
      exact KeyView.read_sound hm hx
    simp only [Tree.lossyIn]
    intro h
    cases h with
    | here h =>
      obtain ⟨kv, hkv, h⟩ := h
      exact (hsub kv hkv).2 h
    | @entry _ kv hx h =>
      obtain ⟨y, hy, heq⟩ := (hsub kv hx).1
      rw [← heq] at h
      exact Tree.lossyInOf_none hm kvs (fun x hx hh => hb (.entry hx hh)) y hy h
theorem Tree.lossyInAll_none {U : CharTable} {shared : Bool} {scope : Option SharedKeys}
    (hm : ∀ sk, scope = some sk → sk.Middling) : (xs : List Tree) → (∀ x ∈ xs, ¬ x.Has Tree.ByteNode) →
    ∀ y ∈ Tree.lossyInAll (KeyView.of U shared scope) xs, ¬ y.Has (Tree.LostNode U shared)
  | [], _ => fun y hy => by cases hy
  | x :: xs, h => fun y hy => by
    rcases List.mem_cons.mp hy with rfl | hy
    · exact Tree.lossyIn_none hm x (h x (by simp))
    · exact Tree.lossyInAll_none hm xs (fun y hy => h y (List.mem_cons_of_mem _ hy)) y hy
theorem Tree.lossyInOf_none {U : CharTable} {shared : Bool} {scope : Option SharedKeys}
    (hm : ∀ sk, scope = some sk → sk.Middling) : (kvs : List (List UInt8 × Tree)) → (∀ x ∈ kvs, ¬ x.2.Has Tree.ByteNode) →
    ∀ y ∈ Tree.lossyInOf (KeyView.of U shared scope) kvs, ¬ y.2.Has (Tree.LostNode U shared)
  | [], _ => fun y hy => by cases hy
  | (k, v) :: kvs, h => fun y hy => by
    rcases List.mem_cons.mp hy with rfl | hy
    · exact Tree.lossyIn_none hm v (h (k, v) (by simp))
    · exact Tree.lossyInOf_none hm kvs (fun y hy => h y (List.mem_cons_of_mem _ hy)) y hy
end

/-! ## The tables of an encoder -/

theorem Enc.key_short {c : Cfg} {e e' : Enc} {k : RStr} {r : Except EncodeError Unit} (hk : k.bytes.length < 2)
    (h : e.step c (.key k) = .ok (e', r)) : e'.sk = e.sk := by
  have h : e.writeKey c k = .ok (e', r) := h
  unfold Enc.writeKey at h
  cases hd : dataSized 0x40 k.bytes with
  | none => rw [dataSized_none] at hd; omega
  | some s =>
    rw [hd] at h
    dsimp only at h
    unfold Enc.pushKey at h
    split at h
    · split at h <;> cases h <;> rfl
    · cases h; rfl

/-- One call adds at most one key, of two to 15 bytes. -/
theorem Enc.step_table {c : Cfg} {e e' : Enc} {op : Op} {r : Except EncodeError Unit} (ht : Trans c e op e' r)
    (h : e.step c op = .ok (e', r)) {sk : SharedKeys} (hsk : e.sk = some sk) :
    ∃ sk', e'.sk = some sk' ∧ sk'.entries.length ≤ sk.entries.length + 1 ∧ (sk.Middling → sk'.Middling) := by
  rcases ht.skStep with heq | ⟨k, sk0, rfl, h1, h2⟩
  · exact ⟨sk, by rw [heq, hsk], by omega, id⟩
  · rw [hsk] at h1; cases h1
    by_cases hk : k.bytes.length < 2
    · rw [Enc.key_short hk h, hsk] at h2
      exact ⟨sk, by rw [Enc.key_short hk h, hsk], by omega, id⟩
    · refine ⟨_, h2, ?_⟩
      unfold SharedKeys.encodeAndInsert
      split
      · exact ⟨Nat.le_succ _, id⟩
      · next hca =>
        dsimp only
        split
        · exact ⟨Nat.le_succ _, id⟩
        · refine ⟨by simp, fun hm e he => ?_⟩
          rcases List.mem_append.mp he with he | he
          · exact hm e he
          · simp only [List.mem_singleton] at he
            subst he
            have hce : SharedKeys.canEncode c.chars k.bytes = true := by
              simp only [SharedKeys.canAdd, Bool.not_eq_true, Bool.not_eq_false', Bool.and_eq_true] at hca
              exact hca.2
            have hz : zstr k.bytes = k.bytes.take 15 := by
              unfold zstr
              exact SharedKeys.takeWhile_of_not_mem fun hm => SharedKeys.canEncode_no_nul hce (List.mem_of_mem_take hm)
            simp only [hz, List.length_take]
            omega

theorem Enc.run_table {c : Cfg} (ops : List Op) : ∀ {e e' : Enc} {rs : List (Except EncodeError Unit)} {sk : SharedKeys}, e.WF →
    e.phi + Op.total ops ≤ SizedValue.maxWide → e.run c ops = .ok (e', rs) → e.sk = some sk →
    ∃ sk', e'.sk = some sk' ∧ sk'.entries.length ≤ sk.entries.length + ops.length ∧ (sk.Middling → sk'.Middling) := by
  have hmw : SizedValue.maxWide < 2 ^ 32 := by decide
  induction ops with
  | nil => intro e e' rs sk _ _ h hsk; cases h; exact ⟨sk, hsk, by simp, id⟩
  | cons op ops ih =>
    intro e e' rs sk hw hp h hsk
    rw [Op.total_cons] at hp
    obtain ⟨e1, r, rs', h1, h2, rfl⟩ := Enc.run_cons h
    have ht := Enc.step_trans hw (by omega) (by omega) h1
    obtain ⟨hw1, hp1⟩ := ht.inv hw (by omega) (by omega)
    obtain ⟨sk1, g1, g2, g3⟩ := Enc.step_table ht h1 hsk
    obtain ⟨sk2, g4, g5, g6⟩ := ih hw1 (by omega) h2 g1
    exact ⟨sk2, g4, by simp only [List.length_cons]; omega, fun hm => g6 (g3 hm)⟩

theorem Op.total_length (ops : List Op) : 24 * ops.length ≤ Op.total ops := by
  induction ops with
  | nil => exact Nat.le_refl _
  | cons op ops ih =>
    rw [Op.total_cons]
    have : 24 ≤ op.weight := by
      cases op with
      | value x => cases x <;> simp [Op.weight]
      | _ => simp [Op.weight]
    simp only [List.length_cons]; omega

end Fleece
