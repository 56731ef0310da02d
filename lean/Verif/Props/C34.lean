import Verif.Proofs.MutFrom
import Verif.Props.C33
import Verif.Props.C32
import Verif.Props.C10

/-!
# C34 Converting to a mutable collection preserves contents

Full claim: for every document. It is false of values of type `Int` outside -2048..2047, of some unsigned numbers, and of
keys that the shared keys confuse; `Copies` (`Spec/Copy.lean`) excludes these. `Tree.node` is what the document should
become: the same tree, where of two entries with equal keys the later one counts.
-/

namespace Fleece.Props
open Fleece Res

/-- **C34, for documents with values and keys this version can copy.** Whatever can be read (`readTree`, the complete
traversal) becomes a mutable collection which answers every question, asked anywhere in it, as the document would. -/
theorem C34_partial (m : Mem) (F : FloatOps) (scope : Option SharedKeys) (hm : m.data.length < 2 ^ 63)
    (hsc : ∀ sk, scope = some sk → sk.WF) (depth : Nat) (v : Val) (t : Tree) (hread : readTree m F scope depth v = .ok t)
    (hc : Copies m F scope (ScopeKeeps scope) depth v) (wide : Bool) :
    ∃ s, Slot.newFromFleece m F scope depth v wide = .ok s ∧
      ∀ base path q, Hop.Keys (ScopeKeeps scope) path → q.Keys (ScopeKeeps scope) →
        ∃ a, s.answer m.dbg base F path q = .ok a ∧ a.Same (t.node.answer path q) := by
  obtain ⟨s, h1, h2⟩ := newFromFleece_rel hm hsc wide hc hread
  exact ⟨s, h1, fun base path q hp hq => h2.answer base hp hq⟩

/-- `MutableArray::from`, `MutableDict::from`. -/
def Source.load (F : FloatOps) (b : Source) : Exec Slot :=
  match Slot.newFromFleece b.m F b.scope b.depth b.v false with
  | .ok s => .ok s
  | _ => .panic

/-- **C34 in programs.** Converted documents can be changed like other mutable collections (C31, C32), and stored in them. -/
theorem C34_programs_partial (dbg : Bool) (F : FloatOps) (K : List UInt8 → Prop) (tree : Source → Tree) (p : Prog Source)
    (hp : p.Good K fun b => b.m.dbg = dbg ∧ ScopeKeeps b.scope = K ∧ b.Good F K (tree b)) :
    (p.spec F (fun b => (tree b).node) = none → p.eval dbg (Source.load F) = .panic) ∧
      ∀ n, p.spec F (fun b => (tree b).node) = some n → ∃ s, p.eval dbg (Source.load F) = .ok s ∧
        ∀ base path q, Hop.Keys K path → q.Keys K → ∃ a, s.answer dbg base F path q = .ok a ∧ a.Same (n.answer path q) := by
  have h := Prog.run_rel (dbg := dbg) (F := F) (K := K) (load := Source.load F) (means := fun b => (tree b).node)
    (base := fun b => b.m.dbg = dbg ∧ ScopeKeeps b.scope = K ∧ b.Good F K (tree b)) (fun b hb => ?_) p hp
  · refine ⟨fun hn => ?_, fun n hn => ?_⟩
    · rw [hn] at h; exact h
    · rw [hn] at h
      obtain ⟨s, h1, h2⟩ := h
      exact ⟨s, h1, fun base path q hp hq => h2.answer base hp hq⟩
  · obtain ⟨hd, hk, hb⟩ := hb
    obtain ⟨s, h1, h2⟩ := newFromFleece_rel hb.size hb.table false (hk ▸ hb.copies) hb.reads
    rw [hk, hd] at h2
    exact ⟨s, by unfold Source.load; rw [h1], h2⟩

/-- Without shared keys no keys are confused. -/
theorem C34_no_table (k : List UInt8) : ScopeKeeps none k := fun _ h => nomatch h

/-! ## The numbers that are lost -/

/-- **C34 is false of every `Int` outside -2048..2047**: the copy, if there is one, does not read the same. -/
theorem C34_int_lost (m : Mem) (F : FloatOps) (scope : Option SharedKeys) (depth : Nat) (v : Val) (i : Int) (w : Bool)
    (ht : v.type m = .ok .int) (hi : v.toInt m F = .ok i) (hr : ¬ ShortRange i) :
    ¬ ∃ s, Slot.newFromFleece m F scope (depth + 1) v w = .ok s ∧ ∀ base, s.shape m.dbg base F = .ok (.value (.int i)) := by
  rintro ⟨s, h1, h2⟩
  have hx := toInt_range ht (.inr (.inl rfl)) hi
  have he : (Int64.ofInt i).toInt = i := by
    have hz : Int64.size = 2 ^ 64 := rfl
    rw [Int64.toInt_ofInt, hz, Int.bmod_eq_of_le (by omega) (by omega)]
  have hk := (C33_exact_partial m.dbg F (.i64 (Int64.ofInt i)) trivial).mp ⟨s, ?_, fun base => ?_⟩
  · have hk : ShortRange (Int64.ofInt i).toInt := hk
    rw [he] at hk; exact hr hk
  · unfold Slot.newFromFleece at h1
    rw [ht] at h1
    simp only [ok_bind, hi] at h1
    cases hs : Slot.new m.dbg (.i64 (Int64.ofInt i)) with
    | ok s' => rw [hs] at h1; cases h1; rfl
    | panic => rw [hs] at h1; cases h1
    | ub => rw [hs] at h1; cases h1
    | diverge => rw [hs] at h1; cases h1
    | err e => cases e
  · rw [h2 base]; simp only [Scalar.tree, he]

/-- `[5000]`, with the number as an `Int` of two bytes. -/
def intDoc : Mem := { data := [0x11, 0x88, 0x13, 0x00, 0x60, 0x01, 0x80, 0x03, 0x80, 0x02] }

set_option maxRecDepth 20000 in
/-- **C34 is false of the code.** The document `[5000]` is accepted and reads as it should; converting it to a
`MutableArray` overflows the stack. -/
theorem C34_refuted (F : FloatOps) : fromBytes intDoc = .ok ⟨4, 4⟩ ∧
    readTree intDoc F none 2 ⟨4, 4⟩ = .ok (.arr [.int 5000]) ∧ Slot.newFromFleece intDoc F none 2 ⟨4, 4⟩ false = .diverge :=
  by
  have ht : (⟨0, 6⟩ : Val).type intDoc = .ok .int := rfl
  have hi : (⟨0, 6⟩ : Val).toInt intDoc F = .ok 5000 := by
    unfold Val.toInt
    rw [ht]
    simp only [ok_bind]
    decide +kernel
  have hta : (⟨4, 4⟩ : Val).type intDoc = .ok .array := rfl
  obtain ⟨it, hit, hl, it', hs1, it'', hs2⟩ : ∃ it, (⟨4, 4⟩ : Val).iter intDoc = .ok it ∧ it.len = 1 ∧
      ∃ it', it.step intDoc = .ok (some ⟨0, 6⟩, it') ∧ ∃ it'', it'.step intDoc = .ok (none, it'') :=
    ⟨_, rfl, rfl, _, rfl, _, rfl⟩
  refine ⟨by decide +kernel, ?_, ?_⟩
  · unfold readTree
    rw [hta]
    simp only [ok_bind, hit, hl, collect, hs1, hs2]
    unfold readTree
    rw [ht]
    simp only [ok_bind, hi, pure_eq]
  · obtain ⟨w, hw⟩ := isWide_ok hta
    unfold Slot.newFromFleece
    rw [hta]
    simp only [ok_bind, hit, hl, hw, collect, hs1]
    unfold Slot.newFromFleece
    rw [ht]
    simp only [ok_bind, hi]
    have : Slot.new intDoc.dbg (.i64 (Int64.ofInt 5000)) = .diverge := by
      have hsz : (Item.scalar (.i64 (Int64.ofInt 5000))).size ≤ Slot.inlineCapacity := by simp [Item.size, Scalar.size, Slot.inlineCapacity]
      have h5 : (Int64.ofInt 5000).toInt = 5000 := by decide
      unfold Slot.new Slot.ofItem
      rw [if_pos hsz]
      simp only [Item.writeTo, Scalar.writeTo, h5, Scalar.depth]
      rw [C03_signed_diverges _ false 5000 _ false (by decide) (by simp)]
      rfl
    rw [this]; rfl

/-! ## A document that is copied -/

/-- `{"list": [7, "tree"], "n": true}`, without shared keys. -/
def goodDoc : Mem :=
  { data := [0x44, 0x6c, 0x69, 0x73, 0x74, 0x00, 0x44, 0x74, 0x72, 0x65, 0x65, 0x00, 0x60, 0x02, 0x00, 0x07, 0x80, 0x05,
      0x70, 0x02, 0x80, 0x0a, 0x80, 0x05, 0x41, 0x6e, 0x38, 0x00, 0x80, 0x05] }

set_option maxRecDepth 20000 in
example (F : FloatOps) : fromBytes goodDoc = .ok ⟨18, 10⟩ ∧
    readTree goodDoc F none 3 ⟨18, 10⟩ = .ok (.dict [([0x6c, 0x69, 0x73, 0x74], .arr [.int 7, .str [0x74, 0x72, 0x65, 0x65]]),
      ([0x6e], .bool true)]) ∧ Copies goodDoc F none (ScopeKeeps none) 3 ⟨18, 10⟩ ∧
    (∃ s, Slot.newFromFleece goodDoc F none 3 ⟨18, 10⟩ false = .ok s ∧
      s.answer goodDoc.dbg 0 F [⟨.key [0x6c, 0x69, 0x73, 0x74], false⟩] (.at (.idx 1)) =
        .ok (.at (some (.value (.str [0x74, 0x72, 0x65, 0x65]))))) := by
  refine ⟨by decide +kernel, rfl, ?_, _, rfl, rfl⟩
  refine .dict [([0x6c, 0x69, 0x73, 0x74], ⟨12, 10⟩), ([0x6e], ⟨26, 2⟩)] rfl rfl rfl ?_
  intro e he
  simp only [List.mem_cons, List.not_mem_nil, or_false] at he
  rcases he with rfl | rfl
  · refine ⟨C34_no_table _, .array [⟨14, 2⟩, ⟨6, 10⟩] rfl rfl rfl ?_⟩
    intro x hx
    simp only [List.mem_cons, List.not_mem_nil, or_false] at hx
    rcases hx with rfl | rfl
    · exact .leaf (ty := .short) rfl (by decide)
    · exact .leaf (ty := .string) rfl (by decide)
  · exact ⟨C34_no_table _, .leaf (ty := .true) rfl (by decide)⟩

end Fleece.Props
