import Verif.Proofs.Lifetimes
import Verif.Props.C49

/-!
# C66 What is handed out lives as long as its type says

Full claim: in a program that compiles, no call of this crate, and no use of what it has returned, reads memory that was given back.
It is false of the code: the keys returned by the iterator over a dict have the lifetime of the dict, but a shared key is a
reference into the table, which the iterator and the scope keep, not the dict (`C66_refuted`). It is proved for everything else:
`C66_calls` for the calls, `C66_key_partial` for keys that are stored in the document, `C66_mutable` for keys of mutable dicts;
and `C66_shared_exact` says when a shared key can be used.
-/

namespace Fleece.Props
open Fleece Res Life

/-- **C66, counts.** At every point of every program the strong count of each table, buffer and scope is the number of `Arc`s of it
in variables, in iterators, in owned values, in mutable dicts and in the fields of live scopes. -/
theorem C66_counts (w : World) (h : Arises w) (l : Loc) : w.strong l = w.owners l := arises_counted h l

/-- **C66, calls.** No call reads memory that was given back, at any point of any program. -/
theorem C66_calls (w : World) (h : Arises w) (op : Life.Op) (hop : ∀ k, op ≠ .use k) (r : R World) (he : w.effect op = some r) :
    w.step op = some r := by
  have hc := arises_counted h
  have all : (w.touches op).all w.holds = true := by
    rw [List.all_eq_true]
    intro l hl
    have held : ∀ {i : Nat} {x : Thing}, w.get i = some x → x.arc = some l → w.holds l = true := fun hx hk => by
      simp only [World.holds, decide_eq_true_eq]; exact hc.held hx hk
    cases op with
    | scopeNew d t =>
      simp only [World.touches] at hl
      split at hl
      · rename_i hx; simp only [List.mem_singleton] at hl; subst hl; exact held hx rfl
      · simp at hl
    | scopeRemove i =>
      simp only [World.touches] at hl
      split at hl
      · rename_i hx; simp only [List.mem_singleton] at hl; subst hl; exact held hx rfl
      · simp at hl
    | scopeData i =>
      simp only [World.touches] at hl
      split at hl
      · rename_i hx; simp only [List.mem_singleton] at hl; subst hl; exact held hx rfl
      · simp at hl
    | scopeRoot i =>
      simp only [World.touches] at hl
      split at hl
      · rename_i hx; simp only [List.mem_singleton] at hl; subst hl; exact held hx rfl
      · simp at hl
    | iter i v =>
      simp only [World.touches] at hl
      split at hl
      · rename_i hx; simp only [List.mem_singleton] at hl; subst hl; exact held hx rfl
      · simp at hl
    | copyDict i v map =>
      simp only [World.touches] at hl
      split at hl
      · rename_i hx; simp only [List.mem_singleton] at hl; subst hl; exact held hx rfl
      · simp at hl
    | next i =>
      simp only [World.touches] at hl
      split at hl
      · rename_i hx
        rcases List.mem_append.mp hl with hl | hl
        · split at hl
          · rename_i hs; simp only [List.mem_singleton] at hl; subst hl; exact held hs rfl
          · simp at hl
        · exact held hx (by simpa [Thing.arc] using hl)
      · simp at hl
    | mutNext i =>
      simp only [World.touches] at hl
      split at hl
      · rename_i hx; exact held hx (by simpa [Thing.arc] using hl)
      · simp at hl
    | use k => exact absurd rfl (hop k)
    | _ => simp [World.touches] at hl
  unfold World.step
  rw [he]
  dsimp only
  rw [if_pos all]

/-- The variable holds a key, and its lifetime has not ended: the compiler lets the program use it. -/
def Usable (w : World) (h : Nat) (s : Str) : Prop :=
  ∃ src e, w.get h = some (.key src e s) ∧ w.borrowed src e = true

theorem use_step {w : World} {h : Nat} {s : Str} (hu : Usable w h s) :
    w.step (.use h) = some (if (w.touches (.use h)).all w.holds then .ok w else .ub) := by
  obtain ⟨src, e, hg, hb⟩ := hu
  unfold World.step
  simp only [World.effect, hg, hb, if_true]
  split <;> rfl

/-- **C66 for keys that are in the document, partial.** They can be used for as long as the owned value is there, whatever becomes of
the scope and of the iterator. Missing: shared keys (`C66_shared_exact`). -/
theorem C66_key_partial (w : World) (h : Arises w) (k b : Nat) (s : List UInt8) (hu : Usable w k (.buf b s)) :
    w.step (.use k) = some (.ok w) := by
  rw [use_step hu]
  obtain ⟨src, e, hg, hb⟩ := hu
  have hl := arises_loans h k _ hg
  have : ∃ v, w.get src = some (.owned b v) := by
    unfold World.borrowed at hb
    split at hb
    · rename_i b' v hs
      have := hl.2 _ hs
      simp only [Thing.kind, Str.from] at this
      subst this
      exact ⟨v, hs⟩
    · rename_i hs
      exact (hl.2 _ hs).elim
    · cases hb
  obtain ⟨v, hv⟩ := this
  have hpos := (arises_counted h).held hv (l := .buf b) rfl
  simp [World.touches, hg, World.holds, hpos]

/-- **C66 for mutable dicts.** The keys that an iterator over a mutable dict returns, shared ones and others, can be used for as long
as the dict is there and not changed. -/
theorem C66_mutable (w : World) (h : Arises w) (k src e : Nat) (s : Str) (sk : Option Nat) (map : List (Key × Slot))
    (hg : w.get k = some (.key src e s)) (hd : w.get src = some (.dict sk map e)) : w.step (.use k) = some (.ok w) := by
  have hu : Usable w k s := ⟨src, e, hg, by simp [World.borrowed, hd]⟩
  rw [use_step hu]
  have hl := (arises_loans h k _ hg).2 _ hd
  cases s with
  | buf b s => exact hl.elim
  | own s => simp [World.touches, hg]
  | table t c =>
    have hsk : sk = some t := hl
    subst hsk
    have hpos := (arises_counted h).held hd (l := .table t) rfl
    simp [World.touches, hg, World.holds, hpos]

/-- **C66 for shared keys, exactly.** Reading a shared key that the compiler lets a program read is a read of memory that was given
back if and only if there is no `Arc` of the table any more: none in a variable, an iterator or a mutable dict, and none in a live
scope. -/
theorem C66_shared_exact (w : World) (h : Arises w) (k t c : Nat) (hu : Usable w k (.table t c)) :
    (w.step (.use k) = some .ub ↔ w.owners (.table t) = 0) ∧ (w.step (.use k) = some (.ok w) ↔ w.owners (.table t) ≠ 0) := by
  rw [use_step hu, ← arises_counted h]
  obtain ⟨src, e, hg, hb⟩ := hu
  simp only [World.touches, hg, List.all_cons, List.all_nil, Bool.and_true, World.holds, decide_eq_true_eq]
  by_cases hp : 0 < w.strong (.table t)
  · simp only [hp, if_true]
    refine ⟨⟨fun h => ?_, fun h => by omega⟩, ⟨fun _ => by omega, fun _ => trivial⟩⟩
    cases h
  · simp only [hp, if_false]
    refine ⟨⟨fun _ => by omega, fun _ => trivial⟩, ⟨fun h => ?_, fun h => by omega⟩⟩
    cases h

/-- The cases in which a shared key can be used: while the iterator it is from is there, or any other holder of the table. -/
theorem C66_shared_partial (w : World) (h : Arises w) (k t c i : Nat) (x : Thing) (hu : Usable w k (.table t c))
    (hx : w.get i = some x) (hh : x.arc = some (.table t) ∨
      ∃ s c, x = .scope s ∧ w.scopes[s]? = some c ∧ c.val.sk = some t) : w.step (.use k) = some (.ok w) := by
  rw [(C66_shared_exact w h k t c hu).2, ← arises_counted h]
  have hc := arises_counted h
  suffices 0 < w.strong (.table t) by omega
  rcases hh with hh | ⟨s, c, rfl, hs, hk⟩
  · exact hc.held hx hh
  · obtain ⟨c', hc', h0⟩ := hc.scope hx
    rw [hs] at hc'
    cases hc'
    exact hc.inScope hs h0 _ (.inl (by rw [hk]; rfl))

/-! ## The keys are those that the iterators return -/

/-- The text of a key. -/
def Str.text (sk : Option SharedKeys) : Str → List UInt8
  | .buf _ s => s
  | .own s => s
  | .table _ c => (sk.bind (·.decode c)).getD []

/-- **C66, the iterator.** The keys of the model of lifetimes are, where they are forgotten, those of the iterators of C25. -/
theorem C66_agrees (m : Mem) (b t : Nat) (sk : Option SharedKeys) (it : Iter) :
    (do let (s, it) ← nextKey m b (sk.map fun k => (t, k)) it; pure (s.map (Str.text sk), it)) =
    (do let (kv, it) ← it.dictStep m sk; pure (kv.map (·.1), it) : R (Option (List UInt8) × Iter)) := by
  unfold nextKey Iter.dictStep
  cases hs : it.step m <;> try rfl
  rename_i r
  obtain ⟨k, it1⟩ := r
  cases k with
  | none => rfl
  | some k =>
    dsimp only
    unfold keyStr
    cases ht : k.type m <;> try (simp only [ok_bind, ht]; rfl)
    rename_i ty
    simp only [ok_bind, ht]
    have tail : ∀ (x : Str) (y : List UInt8), Str.text sk x = y →
        (do let (s, it) ← (do
              let (x', it2) ← it1.step m
              match x' with
              | none => pure (none, it2)
              | some _ => pure (some x, it2) : R (Option Str × Iter)); pure (s.map (Str.text sk), it)) =
        (do let (kv, it) ← (do
              let (x', it2) ← it1.step m
              match x' with
              | none => pure (none, it2)
              | some v => pure (some (y, v), it2) : R (Option (List UInt8 × Val) × Iter)); pure (kv.map (·.1), it) :
          R (Option (List UInt8) × Iter)) := by
      intro x y hxy
      cases it1.step m <;> try rfl
      rename_i r
      obtain ⟨v, it2⟩ := r
      cases v with
      | none => rfl
      | some v => simp only [ok_bind, pure_eq, Option.map_some, hxy]
    by_cases hsh : ty = .short
    · simp only [hsh, if_true]
      cases sk with
      | none => rfl
      | some sk =>
        simp only [Option.map_some]
        cases hn : k.getShort m <;> try rfl
        rename_i n
        simp only [ok_bind, pure_eq]
        cases hd : sk.decode n with
        | none => rfl
        | some name =>
          simp only [Option.map_some]
          exact tail _ _ (by simp [Str.text, hd])
    · simp only [hsh, if_false]
      cases hn : k.toStr m <;> try rfl
      rename_i x
      simp only [ok_bind, pure_eq]
      exact tail _ _ rfl

/-! ## Refutation -/

/-- A program:
```
let keys = Arc::new(shared_keys);
let data: Arc<[u8]> = ...;
let scope = Scope::new(data, Some(keys));
let root = scope.root().unwrap();
let mut iter = root.as_dict().unwrap().iter();
let (key, _) = iter.next().unwrap();
drop(iter);
drop(scope);
println!("{key}");
```
-/
def danglingKey (sk : SharedKeys) (m : Mem) (v : Val) : List Life.Op :=
  [.newTable sk, .newData m, .scopeNew 1 (some 0), .scopeRoot 2, .iter 3 v, .next 4, .drop 4, .drop 2, .use 5]

/-- **C66 is false of the code**, for every document whose root is a dict that begins with a shared key: the key is read from the
table after that was given back, in a program without `unsafe`, while the document is still there. -/
theorem C66_refuted (m : Mem) (sk : SharedKeys) (v k x : Val) (it it1 it2 : Iter) (n : Nat) (name : List UInt8)
    (hv : fromBytes m = .ok v) (hd : v.type m = .ok .dict) (hit : v.dictIter m = .ok it)
    (hk : it.step m = .ok (some k, it1)) (hsh : k.type m = .ok .short) (hn : k.getShort m = .ok n)
    (hname : sk.decode n = some name) (hx : it1.step m = .ok (some x, it2)) :
    World.run {} (danglingKey sk m v) = some .ub := by
  have hpos := type_within hd
  have hne : m.data ≠ [] := by intro h; rw [h] at hpos; simp at hpos
  have hroot : (Registry.rootOrNone m).lift = (.ok (some v) : R _) := by simp only [Registry.rootOrNone, hv]; rfl
  have hin : m.holds (m.base + v.pos) = true := by simp [Mem.holds]; omega
  have hnext : nextKey m 0 (some (0, sk)) it = .ok (some (.table 0 n), it2) := by
    unfold nextKey keyStr
    simp only [hk, ok_bind, hsh, if_true, hn, pure_eq, hname, Option.map_some, hx]
  simp [danglingKey, World.run, World.step, World.effect, World.touches, World.push, World.get, World.moveTable, World.put,
    World.buffer, hroot, hne, World.holds, World.strong, strongOf, World.acquire, World.count, bump, World.findSharedKeys,
    World.containing, hin, hit, hnext, World.keysOf, World.table, World.release, World.give, Thing.arc, World.borrowed]

/-- The document of C49: `{"cd": true, "ab": false}` with shared keys. -/
example : World.run {} (danglingKey scopedKeys scopedDoc ⟨0, 10⟩) = some .ub :=
  C66_refuted scopedDoc scopedKeys ⟨0, 10⟩ ⟨2, 2⟩ ⟨4, 2⟩ ⟨some ⟨2, 2⟩, 2, 0, 4⟩ _ _ 0 scd.bytes (by decide +kernel) (by decide +kernel)
    (by decide +kernel) rfl (by decide +kernel) (by decide +kernel) (by decide +kernel) rfl

/-- The same program without the two drops, or with only one of them, reads the key in memory that is there. -/
example : (∃ w, World.run {} ((danglingKey scopedKeys scopedDoc ⟨0, 10⟩).take 6 ++ [.use 5]) = some (.ok w)) ∧
    (∃ w, World.run {} ((danglingKey scopedKeys scopedDoc ⟨0, 10⟩).take 6 ++ [.drop 4, .use 5]) = some (.ok w)) ∧
    (∃ w, World.run {} ((danglingKey scopedKeys scopedDoc ⟨0, 10⟩).take 6 ++ [.drop 2, .use 5]) = some (.ok w)) := by
  refine ⟨⟨_, rfl⟩, ⟨_, rfl⟩, ⟨_, rfl⟩⟩

/-- A mutable dict with a shared key: the key can be used after the iterator and the user's own `Arc` are gone; not after the dict
was changed, which the compiler rejects. -/
example (x : Slot) :
    (∃ w, World.run {} [.newTable scopedKeys, .clone 0, .newDict (some 0), .change 2 [(.shared 0, x)], .mutIter 2, .mutNext 3, .drop 3,
      .drop 1, .use 4] = some (.ok w) ∧ Usable w 4 (.table 0 0)) ∧
    World.run {} [.newTable scopedKeys, .clone 0, .newDict (some 0), .change 2 [(.shared 0, x)], .mutIter 2, .mutNext 3, .drop 3,
      .drop 1, .change 2 [], .use 4] = none := by
  refine ⟨⟨_, rfl, 2, 1, rfl, rfl⟩, rfl⟩

end Fleece.Props
