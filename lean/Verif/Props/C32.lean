import Verif.Props.C31

/-!
# C32 Mutable dicts behave like maps

Full claim: as C31, with and without shared keys attached to the dicts. Without shared keys it is `C32_plain`. With shared
keys it is false (`C32_refuted`), because the table abridges names to 15 bytes; `C32_shared_partial` is what holds, and
`C32_confused` shows that its condition on the keys cannot be weakened.
-/

namespace Fleece.Props
open Fleece Res

/-- **C32 without shared keys.** `C31` for programs; here what the calls mean for the value of each key. -/
theorem C32_plain (dbg : Bool) (F : FloatOps) (t : Prog Empty) (arg : Prog Empty) (kvs : List (List UInt8 × Node)) (y : Node)
    (ht : t.spec F Empty.elim = some (.dict kvs)) (ha : arg.spec F Empty.elim = some y) (pt : PlainProg t) (pa : PlainProg arg)
    (k : List UInt8) :
    (∃ (s : Slot) (n : Node), (Prog.put t [] (.insert k) arg).eval dbg Empty.elim = .ok s ∧
      (∀ base path q, ∃ a, s.answer dbg base F path q = .ok a ∧ a.Same (n.answer path q)) ∧
      n.child (.key k) = some y ∧ ∀ k', k' ≠ k → n.child (.key k') = Node.lookup k' kvs) ∧
    (∃ (s : Slot) (n : Node), (Prog.remove t [] (.key k)).eval dbg Empty.elim = .ok s ∧
      (∀ base path q, ∃ a, s.answer dbg base F path q = .ok a ∧ a.Same (n.answer path q)) ∧
      n.child (.key k) = none ∧ ∀ k', k' ≠ k → n.child (.key k') = Node.lookup k' kvs) := by
  have hw : ∀ k', k' ≠ k → Node.lookup k' (Node.without k kvs) = Node.lookup k' kvs := by
    intro k' hk
    unfold Node.lookup Node.without
    rw [List.find?_filter]
    congr 2
    funext e
    by_cases he : e.1 = k'
    · simp [he, hk]
    · simp [he]
  refine ⟨?_, ?_⟩
  · obtain ⟨s, h1, h2⟩ := (C31 dbg F (Prog.put t [] (.insert k) arg) ⟨pt, pa⟩).2 (.dict (Node.assign k y kvs))
      (by simp [Prog.spec, ht, ha, Node.update, Node.put])
    refine ⟨s, _, h1, h2, by simp [Node.child, Node.assign, Node.lookup], fun k' hk => ?_⟩
    rw [← hw k' hk]
    simp [Node.child, Node.assign, Node.lookup, Ne.symm hk]
  · obtain ⟨s, h1, h2⟩ := (C31 dbg F (Prog.remove t [] (.key k)) pt).2 (.dict (Node.without k kvs))
      (by simp [Prog.spec, ht, Node.update, Node.remove])
    refine ⟨s, _, h1, h2, ?_, fun k' hk => hw k' hk⟩
    simp only [Node.child, Node.lookup, Node.without, Option.map_eq_none_iff, List.find?_eq_none, List.mem_filter]
    rintro e ⟨-, he⟩
    simpa using he

/-- **C32 with shared keys**, as far as it holds: if in none of the tables attached to dicts a key is abridged, that is,
every key that occurs in the program is either unknown to the table or has at most 15 bytes and no NUL, then the program
behaves as one on maps; and the questions may use any keys of that kind. -/
theorem C32_shared_partial (dbg : Bool) (F : FloatOps) (K : List UInt8 → Prop) (p : Prog Empty) (hp : p.Good K (fun _ => False)) :
    (p.spec F Empty.elim = none → p.eval dbg Empty.elim = .panic) ∧
      ∀ n, p.spec F Empty.elim = some n → ∃ s, p.eval dbg Empty.elim = .ok s ∧
        ∀ base path q, Hop.Keys K path → q.Keys K → ∃ a, s.answer dbg base F path q = .ok a ∧ a.Same (n.answer path q) := by
  have h := Prog.run_rel (dbg := dbg) (F := F) (K := K) (load := Empty.elim) (means := Empty.elim) (base := fun _ => False)
    (fun b => nomatch b) p hp
  refine ⟨fun hn => ?_, fun n hn => ?_⟩
  · rw [hn] at h; exact h
  · rw [hn] at h
    obtain ⟨s, h1, h2⟩ := h
    exact ⟨s, h1, fun base path q hpath hq => h2.answer base hpath hq⟩

/-- Keys of at most 15 bytes without NUL are safe with every table. -/
theorem C32_short_keys (sk : SharedKeys) (k : List UInt8) (hl : k.length ≤ 15) (h0 : (0 : UInt8) ∉ k) : KeyKept sk k :=
  .inl (SharedKeys.zstr_eq hl h0)

theorem zstr_zstr (k : List UInt8) : zstr (zstr k) = zstr k := by
  refine SharedKeys.zstr_eq ?_ ?_
  · unfold zstr
    refine Nat.le_trans (List.IsPrefix.length_le (List.takeWhile_prefix _)) ?_
    simp only [List.length_take]; omega
  · intro h
    have : ∀ l : List UInt8, ∀ x ∈ l.takeWhile (· != 0), x ≠ 0 := by
      intro l
      induction l with
      | nil => intro x hx; cases hx
      | cons a l ih =>
        intro x hx
        rw [List.takeWhile_cons] at hx
        split at hx
        · next ha =>
          rcases List.mem_cons.mp hx with rfl | hx
          · simpa using ha
          · exact ih x hx
        · cases hx
    exact this _ 0 h rfl

/-- **The condition cannot be weakened.** For *every* table and *every* key it abridges there is another key which the dict
cannot tell from it: after `insert(k, null)` into an empty dict the other key is contained. -/
theorem C32_confused (dbg : Bool) (sk : SharedKeys) (k : List UInt8) (hk : ¬ KeyKept sk k) : ∃ k', k' ≠ k ∧
    ∃ s, (Prog.put (.dict (some sk)) [] (.insert k) (.scalar .null) : Prog Empty).eval dbg Empty.elim = .ok s ∧
      s.containsKey k' = true := by
  unfold KeyKept at hk
  rw [not_or] at hk
  refine ⟨zstr k, hk.1, ?_⟩
  obtain ⟨s, h1, -⟩ := Scalar.slot_ok (dbg := dbg) (F := ⟨fun _ => 0, fun _ => 0, fun _ => 0, fun _ => 0, fun _ => 0, fun _ => 0⟩)
    (K := fun _ => True) (x := .null) trivial
  refine ⟨.dict (some sk) [(mutEncodeKey (some sk) k, s)], ?_, ?_⟩
  · simp only [Prog.eval, h1, ok_bind]
    rfl
  · have he : mutEncodeKey (some sk) (zstr k) = mutEncodeKey (some sk) k := by
      simp only [mutEncodeKey, Option.bind_some, SharedKeys.encode, zstr_zstr]
      unfold SharedKeys.encode at hk
      cases hl : sk.lookup (zstr k) with
      | none => exact absurd hl hk.2
      | some c => rfl
    simp only [Slot.containsKey, Slot.child, he]
    have hc : ∀ key : Key, key.cmp key = .eq := fun key => Key.cmp_self key
    simp [mapGet, hc]

def longA : List UInt8 := List.replicate 15 0x61 ++ [0x61]
def longB : List UInt8 := List.replicate 15 0x61 ++ [0x62]
def longTable : SharedKeys := (SharedKeys.new.encodeAndInsert exampleCharsM longA).1
where exampleCharsM : CharTable := ⟨fun _ => false⟩

set_option maxRecDepth 20000 in
/-- **C32 is false of the code with shared keys.** In the table there is the 16-byte key aaaaaaaaaaaaaaaa (stored with 15
bytes). A dict with this table is given that key with `true`, then aaaaaaaaaaaaaaab with `false`: there is only one entry,
and the first key reads `false`. -/
theorem C32_refuted (dbg : Bool) (F : FloatOps) : ∃ (s : Slot),
    (Prog.put (.put (.dict (some longTable)) [] (.insert longA) (.scalar (.bool true))) [] (.insert longB)
      (.scalar (.bool false)) : Prog Empty).eval dbg Empty.elim = .ok s ∧ longA ≠ longB ∧ s.len = 1 ∧
      s.answer dbg 0 F [] (.at (.key longA)) = .ok (.at (some (.value (.bool false)))) := by
  cases dbg <;> exact ⟨_, rfl, by decide, rfl, rfl⟩

def kName : List UInt8 := [0x6e, 0x61, 0x6d, 0x65]
def kAge : List UInt8 := [0x61, 0x67, 0x65]

/-- `{"name": {"age": 7}, "age": 1}` with "name" in the table of the outer dict; then remove "age" inside. -/
def dictProg (sk : SharedKeys) : Prog Empty :=
  .remove (.put (.put (.dict (some sk)) [] (.insert kName) (.put (.dict none) [] (.insert kAge) (num 7))) [] (.insert kAge)
    (num 1)) [⟨.key kName, true⟩] (.key kAge)

example (F : FloatOps) : let sk := (SharedKeys.new.encodeAndInsert ⟨fun _ => false⟩ kName).1
    (dictProg sk).Good (fun k => k.length ≤ 15 ∧ (0 : UInt8) ∉ k) (fun _ => False) ∧ mutEncodeKey (some sk) kName = .shared 0 ∧
    ∃ n, (dictProg sk).spec F Empty.elim = some n ∧ n.answer [] .len = .len 2 ∧ n.answer [⟨.key kName, true⟩] .len = .len 0 ∧
      n.answer [] (.at (.key kAge)) = .at (some (.value (.int 1))) := by
  refine ⟨?_, rfl, _, rfl, rfl, rfl, rfl⟩
  have hwf : SharedKeys.WF (SharedKeys.new.encodeAndInsert ⟨fun _ => false⟩ kName).1 :=
    (SharedKeys.new_wf.insert _ _).1
  have hs : Scalar.Kept (.u16 7) ∧ Scalar.Kept (.u16 1) := ⟨trivial, trivial⟩
  have h1 : kName.length ≤ 15 ∧ (0 : UInt8) ∉ kName := by decide
  have h2 : kAge.length ≤ 15 ∧ (0 : UInt8) ∉ kAge := by decide
  simp only [dictProg, num, Prog.Good, Hop.Keys]
  refine ⟨⟨⟨?_, ?_, ?_, ⟨?_, ?_, ?_, hs.1⟩⟩, ?_, ?_, hs.2⟩, ?_, ?_⟩
  · rintro s hs; cases hs; exact ⟨hwf, fun k hk => C32_short_keys _ k hk.1 hk.2⟩
  all_goals first
    | (intro s hs; cases hs; done)
    | (intro k hk; cases hk; first | exact h1 | exact h2)
    | skip
  intro h hm k hk
  simp only [List.mem_singleton] at hm; subst hm; cases hk; exact h1

end Fleece.Props
