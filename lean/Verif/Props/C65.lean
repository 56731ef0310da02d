import Verif.Proofs.Borrow
import Verif.Proofs.Format
import Verif.Props.C64

/-!
# C65 References are used for the bytes they cover

The rule is that of Stacked Borrows: what is reached through a reference to a slice is in that slice (Model/Borrow.lean). The
claim is false of the code. Following a pointer always leaves the two or four bytes of the pointer, so that only documents of two
bytes are decoded in keeping with the rule, and iterators go from slot to slot (`C65_from_bytes`, `C65_iter`). What does keep to
it: access to elements by index, and numbers, where no pointer is met, in documents of the format (`C65_get_partial`,
`C65_number_partial`); in other accepted documents not even that (`C65_refuted_get`, `C65_refuted_number`).
-/

namespace Fleece.Props
open Fleece Res Format

/-- The rule changes nothing but that some calls are undefined behaviour. -/
theorem C65_agrees (m : Mem) (v : Val) (i : Nat) (it : Iter) (F : FloatOps) :
    (fromBytesBorrow m = fromBytes m ∨ fromBytesBorrow m = .ub) ∧
    (fromBytesUncheckedBorrow m = fromBytesUnchecked m ∨ fromBytesUncheckedBorrow m = .ub) ∧
    (v.getUncheckedBorrow m i = v.getUnchecked m i ∨ v.getUncheckedBorrow m i = .ub) ∧
    (v.iterBorrow m = v.iter m ∨ v.iterBorrow m = .ub) ∧ (it.stepBorrow m = it.step m ∨ it.stepBorrow m = .ub) ∧
    (v.toIntBorrow m F = v.toInt m F ∨ v.toIntBorrow m F = .ub) :=
  ⟨fromBytesBorrow_under m, fromBytesUncheckedBorrow_under m, getUncheckedBorrow_under m v i, iterBorrow_under m v,
    stepBorrow_under m it, toIntBorrow_under m F v⟩

/-- **C65 is false of the code: pointers.** Wherever one is followed, the rule is broken, by both functions that do it. -/
theorem C65_pointer (m : Mem) (wide : Bool) (v x : Val) :
    (derefUnchecked m wide v = .ok x → derefUncheckedBorrow m wide v = .ub) ∧
      (derefChecked m wide v = .ok x → derefCheckedBorrow m wide v = .ub) :=
  ⟨derefUncheckedBorrow_ub, derefCheckedBorrow_ub⟩

/-- What is accepted in two bytes has no slots. -/
theorem two_bytes {m : Mem} {v : Val} (h : fromBytes m = .ok v) (h2 : m.data.length = 2) : fromBytesBorrow m = .ok v := by
  unfold fromBytes fromBytesGo at h
  obtain ⟨root, h1, h⟩ := bind_eq_ok.mp h
  obtain ⟨_, h3, h⟩ := bind_eq_ok.mp h
  cases h
  unfold findRoot at h1
  rw [h2] at h1
  simp only [show ((2 : Nat) = 0 ∨ 2 % 2 ≠ 0) = False by simp, if_false] at h1
  obtain ⟨t, ht, h1⟩ := bind_eq_ok.mp h1
  split at h1
  · -- a pointer would lead out
    exfalso
    unfold derefChecked derefCheckedGo at h1
    split at h1
    · cases h1
    · obtain ⟨o, ho, h1⟩ := bind_eq_ok.mp h1
      split at h1
      · cases h1
      · obtain ⟨b, _, h1⟩ := bind_eq_ok.mp h1
        split at h1
        · cases h1
        · split at h1
          · cases h1
          · simp only at *; omega
  · rename_i hnp
    simp only [if_true] at h1
    cases h1
    have hfind : findRootBorrow m = .ok ⟨0, 2⟩ := by
      unfold findRootBorrow
      rw [h2]
      simp only [show ((2 : Nat) = 0 ∨ 2 % 2 ≠ 0) = False by simp, if_false]
      rw [ht]
      simp only [ok_bind]
      rw [if_neg hnp]
      rfl
    unfold fromBytesBorrow
    rw [hfind]
    simp only [ok_bind]
    have hval : validateBorrowGo m (fuelFor m.data.length) false false ⟨0, 2⟩ m.data.length = .ok () := by
      rw [h2] at h3 ⊢
      obtain ⟨f, hf⟩ : ∃ f, fuelFor 2 = f + 1 := ⟨9, rfl⟩
      rw [hf] at h3 ⊢
      unfold validateGo at h3
      unfold validateBorrowGo
      rw [show (2 - 2 : Nat) = 0 from rfl] at ht h3
      rw [ht] at h3 ⊢
      simp only [ok_bind] at h3 ⊢
      have harr : arrayValidate m (fun w => validateGo m f true w) ⟨0, 2⟩ 2 = .ok () →
          arrayValidateBorrow m (fun w => validateBorrowGo m f true w) ⟨0, 2⟩ 2 = .ok () := by
        intro h
        unfold arrayValidate at h
        unfold arrayValidateBorrow
        obtain ⟨w, g1, h⟩ := bind_eq_ok.mp h
        dsimp only at h
        obtain ⟨n, g2, h⟩ := bind_eq_ok.mp h
        obtain ⟨fp, g3, h⟩ := bind_eq_ok.mp h
        obtain ⟨b, g4, h⟩ := bind_eq_ok.mp h
        obtain ⟨e, g5, h⟩ := bind_eq_ok.mp h
        rw [g1]
        simp only [ok_bind, g2, g3, g4, g5]
        split at h
        · obtain ⟨_, _, h⟩ := bind_eq_ok.mp h
          cases h
        · rename_i hne
          rw [if_neg hne]
          cases n with
          | zero => rfl
          | succ n =>
            exfalso
            have hfp : 2 ≤ fp := by
              unfold Val.firstPos at g3
              rw [if_neg (by simp)] at g3
              obtain ⟨s, _, g3⟩ := bind_eq_ok.mp g3
              dsimp only at g3
              split at g3
              · obtain ⟨_, _, g3⟩ := bind_eq_ok.mp g3
                obtain ⟨⟨r, _⟩, _, g3⟩ := bind_eq_ok.mp g3
                dsimp only at g3
                split at g3
                · cases g3; omega
                · cases g3; omega
              · cases g3; omega
            unfold validateElems at h
            obtain ⟨el, h, _⟩ := bind_eq_ok.mp h
            unfold fromRaw mkSlice at h
            obtain ⟨_, h, _⟩ := bind_eq_ok.mp h
            rw [if_neg (by rw [h2]; split <;> omega)] at h
            cases h
      cases t <;> first
        | exact harr h3
        | exact h3
        | exact absurd rfl hnp
    rw [hval]
    rfl

/-- **C65 is false of the code: decoding.** Of all accepted documents, exactly those of two bytes (a scalar, or an empty
collection) are decoded without a breach. Every document with a pointer to its root is not. -/
theorem C65_from_bytes (m : Mem) (v : Val) (h : fromBytes m = .ok v) :
    (m.data.length = 2 → fromBytesBorrow m = .ok v) ∧ (m.data.length ≠ 2 → fromBytesBorrow m = .ub) := by
  refine ⟨two_bytes h, fun hne => (fromBytesBorrow_under m).ub_of ⟨v, h⟩ fun x hx => ?_⟩
  unfold fromBytesBorrow at hx
  obtain ⟨root, h1, _⟩ := bind_eq_ok.mp hx
  unfold findRootBorrow at h1
  dsimp only at h1
  split at h1
  · cases h1
  · obtain ⟨t, _, h1⟩ := bind_eq_ok.mp h1
    split at h1
    · exact derefCheckedBorrow_ne _ _ _ _ _ h1
    · first | cases h1 | (rw [if_neg hne] at h1; cases h1)

/-- The same of the decoder that does not check. -/
theorem C65_from_bytes_unchecked (m : Mem) (v : Val) (h : fromBytesUnchecked m = .ok v) (hne : m.data.length ≠ 2) :
    fromBytesUncheckedBorrow m = .ub := by
  refine (fromBytesUncheckedBorrow_under m).ub_of ⟨v, h⟩ fun x hx => ?_
  unfold fromBytesUncheckedBorrow at hx
  dsimp only at hx
  split at hx
  · cases hx
  · obtain ⟨t, _, hx⟩ := bind_eq_ok.mp hx
    split at hx
    · exact derefUncheckedBorrow_ne _ _ _ _ _ hx
    · first | cases hx | (rw [if_neg hne] at hx; cases hx)

/-- **C65 is false of the code: iteration.** The first `next` on any array of at least two elements, and on any dict that is not
empty, of any accepted document (a dict with one pair has two slots). -/
theorem C65_iter (m : Mem) (hdbg : m.dbg = true) (root v : Val) (hroot : fromBytes m = .ok root) (reg : Option SharedKeys)
    (hr : Reach m reg root v) (t : ValueType) (ht : v.type m = .ok t) (hc : t = .array ∨ t = .dict) (n : Nat)
    (hn : v.arrayLen m = .ok n) (h2 : 2 ≤ n) : (v.iterBorrow m >>= fun it => it.stepBorrow m) = .ub := by
  have hdeep := (fromBytesGo_deep hdbg _ _ hroot).reach hr
  obtain ⟨w, n', fp, hcoll, he⟩ := hdeep.coll_of ht hc
  rw [hcoll.len] at hn; cases hn
  obtain ⟨x, hx, _⟩ := he 0 (by omega)
  exact hcoll.stepBorrow h2 hx

/-- **C65, elements by index**, in documents of the format: an element of any collection a user can get hold of is got in keeping
with the rule if its slot is not a pointer, and only then. Missing: pointers, for which it is false; other accepted documents. -/
theorem C65_get_partial (r : Reading) (hneg : ¬ r.neg) (data : List UInt8) (t : Tree) (h : Document r data t) (m : Mem)
    (hm : m.data = data) (hb : m.base + data.length < 2 ^ 64) (root v : Val) (hroot : fromBytes m = .ok root)
    (reg : Option SharedKeys) (hr : Reach m reg root v) (ty : ValueType) (ht : v.type m = .ok ty)
    (hc : ty = .array ∨ ty = .dict) (n i : Nat) (hn : v.arrayLen m = .ok n) (hi : i < n) :
    ∃ w fp s, v.isWide m = .ok w ∧ v.firstPos m = .ok fp ∧
      Val.type m ⟨v.pos + fp + i * (if w then 4 else 2), if w then 4 else 2⟩ = .ok s ∧
      v.getUncheckedBorrow m i = if s = .pointer then .ub else v.getUnchecked m i := by
  subst hm
  have hdeep := document_deep hneg h hb hroot
  obtain ⟨p, e, len, h1, h2, h3, h4, _⟩ := Document.root hneg hb h
  rw [hroot] at h1; cases h1
  have hdir := h2.direct hb
  dsimp only at hdir
  have hv := (hdir _ rfl h4 h3).reach hdeep hr
  have hdv := hdeep.reach hr
  cases hv with
  | leaf ty' na nd _ => rw [ht] at ty'; cases ty'; rcases hc with rfl | rfl <;> contradiction
  | @coll _ _ w n' fp _ _ hcoll own slots elems =>
    obtain ⟨w', n'', fp', hc', he⟩ := hdv.coll_of ht hc
    have e1 := hc'.wide; rw [hcoll.wide] at e1; cases e1
    have e2 := hc'.len; rw [hcoll.len] at e2; cases e2
    have e3 := hc'.first; rw [hcoll.first] at e3; cases e3
    rw [hcoll.len] at hn; cases hn
    obtain ⟨x, hx, _⟩ := he i hi
    have hs : (if w then 4 else 2) = wof w := by cases w <;> rfl
    have hx' := hx
    unfold resolve at hx'
    obtain ⟨s, hs1, hx'⟩ := bind_eq_ok.mp hx'
    refine ⟨w, fp, s, hcoll.wide, hcoll.first, by rw [hs]; exact hs1, ?_⟩
    rw [hcoll.getUncheckedBorrow hi own, hcoll.getUnchecked hi, hs1]
    simp only [ok_bind]
    split
    · rename_i hp
      rw [if_pos hp] at hx'
      unfold derefUncheckedBorrow
      exact derefUncheckedBorrow_ub hx'
    · rename_i hp
      rw [hx]
      rw [if_neg hp] at hx'
      exact hx'

/-- **C65, numbers**, in documents of the format: reading any value as a number keeps to the rule. -/
theorem C65_number_partial (r : Reading) (hneg : ¬ r.neg) (data : List UInt8) (t : Tree) (h : Document r data t) (m : Mem)
    (hm : m.data = data) (hb : m.base + data.length < 2 ^ 64) (root v : Val) (hroot : fromBytes m = .ok root)
    (reg : Option SharedKeys) (hr : Reach m reg root v) (F : FloatOps) : v.toIntBorrow m F = v.toInt m F := by
  subst hm
  have hdeep := document_deep hneg h hb hroot
  obtain ⟨p, e, len, h1, h2, h3, h4, _⟩ := Document.root hneg hb h
  rw [hroot] at h1; cases h1
  have hdir := h2.direct hb
  dsimp only at hdir
  have hv := (hdir _ rfl h4 h3).reach hdeep hr
  have hdv := hdeep.reach hr
  cases hv with
  | leaf ty na nd req => exact toIntBorrow_eq ty req
  | coll ty ad hcoll own slots elems => exact toIntBorrow_eq ty (by rcases ad with rfl | rfl <;> simp)

/-- The root may be larger than the reference to it: an array with one slot of four bytes, the last two of which are the pointer
to the root. -/
def overBytes : List UInt8 := [0x68, 0x01, 0x00, 0x05, 0x80, 0x02]

/-- **C65 is false of the code: elements**, even if they are not pointers. -/
theorem C65_refuted_get : fromBytes { data := overBytes } = .ok ⟨0, 4⟩ ∧ Val.type { data := overBytes } ⟨0, 4⟩ = .ok .array ∧
    Val.arrayLen { data := overBytes } ⟨0, 4⟩ = .ok 1 ∧ Val.getUnchecked { data := overBytes } ⟨0, 4⟩ 0 = .ok ⟨2, 4⟩ ∧
    Val.type { data := overBytes } ⟨2, 4⟩ = .ok .short ∧ Val.getUncheckedBorrow { data := overBytes } ⟨0, 4⟩ 0 = .ub := by
  decide +kernel

/-- A number of three bytes, the last two of which are the pointer to the root. -/
def overNumber : List UInt8 := [0x12, 0x07, 0x80, 0x01]

/-- **C65 is false of the code: numbers.** -/
theorem C65_refuted_number (F : FloatOps) : fromBytes { data := overNumber } = .ok ⟨0, 2⟩ ∧
    Val.toInt { data := overNumber } F ⟨0, 2⟩ = .ok 0x018007 ∧ Val.toIntBorrow { data := overNumber } F ⟨0, 2⟩ = .ub :=
  ⟨by decide +kernel, by
    have h1 : Val.type { data := overNumber } ⟨0, 2⟩ = .ok .int := by decide +kernel
    have h2 : Val.byte { data := overNumber } ⟨0, 2⟩ 0 = .ok 0x12 := by decide +kernel
    have h3 : rawRead { data := overNumber } (0 + 1) (((0x12 : UInt8) &&& 0x07).toNat + 1) = .ok [0x07, 0x80, 0x01] := by
      decide +kernel
    unfold Val.toInt
    simp only [h1, ok_bind, h2, h3, pure_eq]
    decide +kernel, by rfl⟩

/-! ## Cases -/

/-- Documents of two bytes, of more, and an array of which the first element is got in keeping with the rule. -/
example : fromBytesBorrow { data := [0x38, 0x00] } = .ok ⟨0, 2⟩ ∧ fromBytesBorrow { data := [0x70, 0x00] } = .ok ⟨0, 2⟩ ∧
    fromBytes { data := [0x60, 0x01, 0x00, 0x05, 0x80, 0x02] } = .ok ⟨0, 4⟩ ∧
    fromBytesBorrow { data := [0x60, 0x01, 0x00, 0x05, 0x80, 0x02] } = .ub ∧
    Val.getUncheckedBorrow { data := [0x60, 0x01, 0x00, 0x05, 0x80, 0x02] } ⟨0, 4⟩ 0 = .ok ⟨2, 2⟩ := by decide +kernel

/-- An array of two: the first step of the iterator. -/
example : fromBytes { data := [0x60, 0x02, 0x00, 0x05, 0x00, 0x06, 0x80, 0x03] } = .ok ⟨0, 6⟩ ∧
    Val.arrayLen { data := [0x60, 0x02, 0x00, 0x05, 0x00, 0x06, 0x80, 0x03] } ⟨0, 6⟩ = .ok 2 := by decide +kernel

/-- The document of C61 meets the hypotheses of the partial theorems. -/
example (F : FloatOps) (m : Mem) (hm : m.data = otherBytes) (hb : m.base + 42 < 2 ^ 64) (root : Val)
    (hroot : fromBytes m = .ok root) : root.toIntBorrow m F = root.toInt m F :=
  C65_number_partial (otherReading F) (fun h => h) otherBytes _ (other_document F) m hm hb root root hroot (some otherKeys) .root F

end Fleece.Props
