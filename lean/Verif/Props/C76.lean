import Verif.Proofs.LiberalInside
import Verif.Proofs.LiberalFormat
import Verif.Proofs.ReadTotal
import Verif.Props.C69

/-!
# C76 The reader reads what the bytes say

C61 is about bytes that are a document of the format. Here: any bytes at all. `Liberal.Document` (Spec.Liberal) says, in the
terms of the format, what the bytes say; where it goes beyond the format it names the oddity.
-/

namespace Fleece.Props
open Fleece Res Liberal

/-- **C76, nothing is made up.** Whatever a complete traversal finds in bytes that `from_bytes` accepts is what the bytes say. Both
build profiles, any address, any shared keys. -/
theorem C76_sound (m : Mem) (F : FloatOps) (scope : Option SharedKeys) (v : Val) (hv : fromBytes m = .ok v) (fuel : Nat)
    (t : Tree) (h : readTree m F scope fuel v = .ok t) : Document ⟨F, scope, m.dbg, fun _ => True⟩ m.data t := by
  unfold fromBytes fromBytesGo at hv
  obtain ⟨root, hroot, hv⟩ := bind_eq_ok.mp hv
  obtain ⟨_, _, hv⟩ := bind_eq_ok.mp hv
  cases hv
  unfold findRoot at hroot
  dsimp only at hroot
  split at hroot
  · cases hroot
  · rename_i hn
    obtain ⟨ty, hty, hroot⟩ := bind_eq_ok.mp hroot
    split at hroot
    · rename_i hp
      obtain ⟨_, h1, h2, h3⟩ := deref_sound (F := F) (scope := scope) _ ((pointer_of_type hty).mp hp) (derefUnchecked_eq hroot)
      exact .root (by dsimp only; omega) h1 (read_value fuel h2 h3 h)
    · split at hroot
      · rename_i h2
        cases hroot
        have hr := read_value (m := m) (F := F) (scope := scope) fuel (v := ⟨m.data.length - 2, 2⟩)
          (by unfold Val.In; dsimp only; omega) (Nat.le_refl 2) h
        dsimp only at hr
        rw [h2] at hr
        exact .alone h2 hr
      · cases hroot

/-- **C76, without validation.** The same of `from_bytes_unchecked`: whatever is found, if the traversal stays inside the buffer,
is what the bytes say. -/
theorem C76_unchecked (m : Mem) (F : FloatOps) (scope : Option SharedKeys) (v : Val) (hv : fromBytesUnchecked m = .ok v)
    (fuel : Nat) (t : Tree) (h : readTree m F scope fuel v = .ok t) :
    Document ⟨F, scope, m.dbg, fun _ => True⟩ m.data t := by
  unfold fromBytesUnchecked at hv
  dsimp only at hv
  split at hv
  · cases hv
  · rename_i hn
    obtain ⟨ty, hty, hv⟩ := bind_eq_ok.mp hv
    split at hv
    · rename_i hp
      obtain ⟨_, h1, h2, h3⟩ := deref_sound (F := F) (scope := scope) _ ((pointer_of_type hty).mp hp) hv
      exact .root (by dsimp only; omega) h1 (read_value fuel h2 h3 h)
    · split at hv
      · rename_i h2
        cases hv
        have hr := read_value (m := m) (F := F) (scope := scope) fuel (v := ⟨m.data.length - 2, 2⟩)
          (by unfold Val.In; dsimp only; omega) (Nat.le_refl 2) h
        dsimp only at hr
        rw [h2] at hr
        exact .alone h2 hr
      · cases hv

/-- **C76, nothing is missed** by the checked build: what the bytes say, with whatever oddities, is what a traversal finds that
goes deep enough. -/
theorem C76_complete (r : Reader) (m : Mem) (hr : r.dbg = true) (hdbg : m.dbg = true) (hm : m.data.length < 2 ^ 64) (t : Tree)
    (h : Document r m.data t) : ∃ v, fromBytesUnchecked m = .ok v ∧ (∀ v', fromBytes m = .ok v' → v' = v) ∧
      ∀ fuel, t.height ≤ fuel → readTree m r.F r.scope fuel v = .ok t := by
  have same : ∀ v, fromBytesUnchecked m = .ok v → ∀ v', fromBytes m = .ok v' → v' = v := by
    intro v hv v' hv'
    unfold fromBytes fromBytesGo at hv'
    obtain ⟨root, hroot, hv'⟩ := bind_eq_ok.mp hv'
    obtain ⟨_, _, hv'⟩ := bind_eq_ok.mp hv'
    cases hv'
    unfold findRoot at hroot
    unfold fromBytesUnchecked at hv
    dsimp only at hroot hv
    split at hroot
    · cases hroot
    · rw [if_neg (by omega)] at hv
      obtain ⟨ty, hty, hroot⟩ := bind_eq_ok.mp hroot
      simp only [hty, ok_bind] at hv
      split at hroot
      · rename_i hp
        rw [if_pos hp, derefUnchecked_eq hroot] at hv
        exact Res.ok.inj hv
      · rename_i hp
        rw [if_neg hp] at hv
        split at hroot
        · rename_i h2
          rw [if_pos h2] at hv
          rw [hroot] at hv
          exact Res.ok.inj hv
        · cases hroot
  have deep : ∀ v D, readTree m r.F r.scope D v = .ok t → ∀ fuel, t.height ≤ fuel → readTree m r.F r.scope fuel v = .ok t :=
    fun v D hD fuel hf => by rw [readTree_exact hD, if_pos hf]
  cases h with
  | alone two h =>
    obtain ⟨_, _, D, hD⟩ := h.reads hdbg hm hr
    have hp : ∃ ty, (⟨0, 2⟩ : Val).type m = .ok ty ∧ ty ≠ .pointer := by
      obtain ⟨ty, hty⟩ := type_eq (m := m) (v := ⟨0, 2⟩) (by unfold Val.In; dsimp only; omega) (by dsimp only; omega)
      refine ⟨ty, hty, ?_⟩
      rintro rfl
      cases D with
      | zero => cases hD
      | succ D =>
        unfold readTree at hD
        rw [show (⟨0, 2 - 0⟩ : Val) = ⟨0, 2⟩ from rfl, hty] at hD
        cases hD
    obtain ⟨ty, hty, hnp⟩ := hp
    have hu : fromBytesUnchecked m = .ok ⟨0, 2⟩ := by
      unfold fromBytesUnchecked
      dsimp only
      rw [if_neg (by omega), two]
      simp only [Nat.sub_self, hty, ok_bind]
      rw [if_neg hnp, if_pos trivial]
      rfl
    exact ⟨_, hu, same _ hu, deep _ D hD⟩
  | @root p q e len to h =>
    obtain ⟨_, _, D, hD⟩ := h.reads hdbg hm hr
    obtain ⟨g1, g2, g3, g4⟩ := to.reads (q + 1) 2 (by omega)
    obtain ⟨ty, hty⟩ := type_eq (m := m) (v := ⟨q, 2⟩) (by unfold Val.In; dsimp only; omega) (by dsimp only; omega)
    have hu : fromBytesUnchecked m = .ok ⟨p, e - p⟩ := by
      unfold fromBytesUnchecked
      dsimp only
      rw [if_neg (by omega), show m.data.length - 2 = q by omega, hty]
      simp only [ok_bind]
      rw [if_pos ((pointer_of_type hty).mpr g3)]
      exact g4
    exact ⟨_, hu, same _ hu, deep _ D hD⟩

/-- **C76, bytes say one thing.** Two readings of the same bytes agree, whichever oddities each puts up with. -/
theorem C76_unambiguous (r r' : Reader) (hr : r.dbg = true) (hr' : r'.dbg = true) (hF : r'.F = r.F) (hs : r'.scope = r.scope)
    (data : List UInt8) (hm : data.length < 2 ^ 64) (t t' : Tree) (h : Document r data t) (h' : Document r' data t') : t = t' := by
  obtain ⟨v, h1, _, h2⟩ := C76_complete r ⟨data, 0, true⟩ hr rfl hm t h
  obtain ⟨v', g1, _, g2⟩ := C76_complete r' ⟨data, 0, true⟩ hr' rfl hm t' h'
  rw [h1] at g1; cases g1
  have e1 := h2 (max t.height t'.height) (Nat.le_max_left _ _)
  rw [← hF, ← hs, g2 _ (Nat.le_max_right _ _)] at e1
  exact (Res.ok.inj e1).symm

/-- **C76, in one sentence**: of bytes that the checked build accepts, a traversal finds `t` exactly if the bytes say `t`. There
are no pointers out of the document. -/
theorem C76_exact (m : Mem) (hdbg : m.dbg = true) (hm : m.data.length < 2 ^ 64) (F : FloatOps) (scope : Option SharedKeys) (v : Val)
    (hv : fromBytes m = .ok v) (t : Tree) :
    (∃ fuel, readTree m F scope fuel v = .ok t) ↔ Document ⟨F, scope, true, (· ≠ .external)⟩ m.data t := by
  constructor
  · rintro ⟨fuel, h⟩
    have := C76_sound m F scope v hv fuel t h
    rw [hdbg] at this
    have := this.inside hdbg rfl hv
    simpa only [Reader.inside, true_and] using this
  · intro h
    obtain ⟨v', _, h1, h2⟩ := C76_complete _ m rfl hdbg hm t h
    rw [h1 v hv]
    exact ⟨_, h2 _ (Nat.le_refl _)⟩

/-- **C76, accepted bytes say something**, and just one thing, unless there is a float whose slice is cut short (C45: printing or
converting it panics). -/
theorem C76_total (m : Mem) (hdbg : m.dbg = true) (hm : m.data.length < 2 ^ 64) (F : FloatOps) (scope : Option SharedKeys) (v : Val)
    (hv : fromBytes m = .ok v)
    (hf : ∀ y, Reach m scope v y → ((y.type m = .ok .float ∨ y.type m = .ok .double32) → 6 ≤ y.len) ∧
      (y.type m = .ok .double64 → 10 ≤ y.len)) :
    ∃ t, Document ⟨F, scope, true, (· ≠ .external)⟩ m.data t ∧
      ∀ t', Document ⟨F, scope, true, (· ≠ .external)⟩ m.data t' → t' = t := by
  obtain ⟨N, hN⟩ := (fromBytesGo_deep hdbg _ _ hv).readTree_ok F scope hf
  obtain ⟨t, ht⟩ := hN N (Nat.le_refl N)
  have h := (C76_exact m hdbg hm F scope v hv t).mp ⟨N, ht⟩
  exact ⟨t, h, fun t' h' => C76_unambiguous _ _ rfl rfl rfl rfl m.data hm t' t h' h⟩

/-- **C76, the format.** A document of the format (without negative numbers of fewer than eight bytes, see C46) is one without
oddities. -/
theorem C76_extends (R : Format.Reading) (hneg : ¬ R.neg) (data : List UInt8) (t : Tree) (h : Format.Document R data t) (dbg : Bool) :
    Document ⟨R.F, R.scope, dbg, fun _ => False⟩ data t :=
  document_format rfl rfl hneg h

/-! ## No oddity can be left out -/

/-- A document of two bytes has nothing to point to. -/
theorem alone_value {r : Reader} {data : List UInt8} {t : Tree} (two : data.length = 2) (h : Document r data t) :
    Value r data none 0 2 t := by
  cases h with
  | alone _ h => exact h
  | @root p q e len to _ =>
    have hlt : ∀ {w : Bool} {q p : Nat}, Back r data w q p → p < q := by
      intro w q p h
      cases h <;> assumption
    have hq : q = 0 := by omega
    subst hq
    cases to with
    | one h _ => have := hlt h; omega
    | more h _ => have := hlt h; omega

/-- The bytes are accepted, a traversal finds `t`, and without that oddity they would not say so. -/
def Needs (o : Oddity) (data : List UInt8) (t : Tree) : Prop :=
  ∀ (F : FloatOps) (dbg : Bool), (∃ v, fromBytes ⟨data, 0, dbg⟩ = .ok v ∧ readTree ⟨data, 0, dbg⟩ F none 2 v = .ok t) ∧
    ¬ Document ⟨F, none, dbg, (· ≠ o)⟩ data t

set_option maxRecDepth 20000 in
/-- `10 FF` is -1; the reader says 255. -/
theorem C76_needs_negative : Needs .negative [0x10, 0xFF] (.int 255) := by
  refine fun F dbg => ⟨⟨⟨0, 2⟩, by cases dbg <;> decide +kernel, ?_⟩, fun h => ?_⟩
  · have ht : (⟨0, 2⟩ : Val).type ⟨[0x10, 0xFF], 0, dbg⟩ = .ok .int := by cases dbg <;> decide +kernel
    have hb : (⟨0, 2⟩ : Val).byte ⟨[0x10, 0xFF], 0, dbg⟩ 0 = .ok 0x10 := by cases dbg <;> decide +kernel
    have hr : rawRead ⟨[0x10, 0xFF], 0, dbg⟩ 1 1 = .ok [0xFF] := by cases dbg <;> decide +kernel
    have h1 : ((0x10 : UInt8) &&& 0x07).toNat + 1 = 1 := by decide
    have h2 : Int.bmod (leNat [0xFF]) (2 ^ 64) = 255 := by decide
    simp only [readTree, ht, ok_bind, Val.toInt, hb, h1, Nat.zero_add, hr, pure_eq, h2]
  have h := alone_value rfl h
  cases h with
  | scalar _ _ h =>
    generalize ht : Tree.int 255 = t at h
    cases h with
    | negative odd => exact odd rfl
    | @int z hs sign =>
      injection ht with ht
      subst ht
      have hz := sign ⟨0x10, rfl, by decide, by decide⟩
      generalize hzz : (255 : Int) = z at hs
      cases hs with
      | @short b0 b1 h0 tag h1 => cases h0; revert tag; decide
      | @int c bs hc h0 len h1 =>
        have hc0 : ∀ c : Fin 8, (0x10 : UInt8) = UInt8.ofNat (16 + c.val) → c.val = 0 := by decide
        have := hc0 ⟨c, hc⟩ (Option.some.inj h0)
        dsimp only at this
        subst this
        match bs, len with
        | [b], _ =>
          obtain ⟨t, ht⟩ := h1
          cases ht
          revert hzz; decide
      | @unsigned c bs hc h0 len h1 =>
        have hc0 : ∀ c : Fin 8, (0x10 : UInt8) ≠ UInt8.ofNat (24 + c.val) := by decide
        exact hc0 ⟨c, hc⟩ (Option.some.inj h0)
    | _ => cases ht

set_option maxRecDepth 20000 in
/-- `31` is no constant; the reader says null. -/
theorem C76_needs_constant : Needs .constant [0x31, 0x00] .null := by
  refine fun F dbg => ⟨⟨⟨0, 2⟩, by cases dbg <;> decide +kernel, by cases dbg <;> rfl⟩, fun h => ?_⟩
  have h := alone_value rfl h
  cases h with
  | scalar _ _ h =>
    cases h with
    | null h => cases h
    | constant odd => exact odd rfl

set_option maxRecDepth 20000 in
/-- `FF` is no text; the reader says that the string is empty. -/
theorem C76_needs_text : Needs .text [0x41, 0xFF] (.str []) := by
  refine fun F dbg => ⟨⟨⟨0, 2⟩, by cases dbg <;> decide +kernel, by cases dbg <;> rfl⟩, fun h => ?_⟩
  have h := alone_value rfl h
  cases h with
  | scalar _ _ h =>
    generalize ht : Tree.str [] = t at h
    cases h with
    | text odd => exact odd rfl
    | @str s h =>
      injection ht with ht
      subst ht
      cases h with
      | short h len is => cases h; revert is; decide
      | long h is => cases h; revert is; decide
      | none h is => cases h; revert is; decide
    | _ => cases ht

set_option maxRecDepth 20000 in
/-- The count does not end; the reader says that the data is empty. -/
theorem C76_needs_count : Needs .count [0x5F, 0xFF] (.data []) := by
  refine fun F dbg => ⟨⟨⟨0, 2⟩, by cases dbg <;> decide +kernel, by cases dbg <;> rfl⟩, fun h => ?_⟩
  have h := alone_value rfl h
  cases h with
  | scalar _ _ h =>
    generalize ht : Tree.data [] = t at h
    cases h with
    | @data s h =>
      injection ht with ht
      subst ht
      cases h with
      | short h len is => cases h; revert is; decide
      | long h is hs =>
        generalize hz : ([] : List UInt8).length = z at hs
        cases hs with
        | @plain g n hg here =>
          obtain ⟨t, ht⟩ := here
          have hb : between [0x5F, 0xFF] (0 + 1) 2 = [0xFF] := by decide
          rw [hb] at ht
          cases hg with
          | last h => cases ht; revert h; decide
          | more h hg' =>
            injection ht with _ ht
            have := Varint.Groups.pos hg'
            rw [List.append_eq_nil_iff.mp ht |>.1] at this
            simp at this
        | large odd => exact odd rfl
        | eleven odd => exact odd rfl
      | none h is no =>
        cases no with
        | endless odd => exact odd rfl
        | long odd => exact odd rfl
    | _ => cases ht

/-- A dict of one entry, both in the dict itself. -/
theorem entry_of {r : Reader} {b0 b1 : UInt8} {kvs : List (List UInt8 × Tree)}
    (h3 : derefUncheckedGo ⟨[0x70, 0x01, b0, b1, 0x30, 0x00, 0x80, 0x03], 0, true⟩ 7 false ⟨6, 2⟩ = .ok ⟨0, 6⟩)
    (h : Document r [0x70, 0x01, b0, b1, 0x30, 0x00, 0x80, 0x03] (.dict kvs)) :
    (kvs = [] ∧ Nameless r [0x70, 0x01, b0, b1, 0x30, 0x00, 0x80, 0x03] false 2) ∨
    ∃ s t, kvs = [(s, t)] ∧ KeySlot r [0x70, 0x01, b0, b1, 0x30, 0x00, 0x80, 0x03] false 2 s := by
  cases h with
  | alone two => cases two
  | @root p q e len to h =>
    have hq : q = 6 := by simp at len; omega
    subst hq
    obtain ⟨h1, _, _, h2⟩ := to.reads (m := ⟨[0x70, 0x01, b0, b1, 0x30, 0x00, 0x80, 0x03], 0, true⟩) 7 2 (by omega)
    rw [h3] at h2
    injection h2 with h2
    injection h2 with hp he
    subst hp
    have he : e = 6 := by omega
    subst he
    cases h with
    | scalar _ _ h => cases h
    | @dict _ _ size n pairs w _ two le head count len keys vals rest =>
      cases head with
      | @short c0 c1 c g0 g1 is hc small =>
        cases g0; cases g1
        have hw : w = false ∧ c = 0 := by
          cases w
          · refine ⟨rfl, ?_⟩
            simp at is; omega
          · simp at is; omega
        obtain ⟨rfl, rfl⟩ := hw
        cases count with
        | large _ _ h => simp at h
        | plain _ =>
          match kvs, len with
          | [], _ => exact .inl ⟨rfl, rest (by decide)⟩
          | [(s, t)], _ => exact .inr ⟨s, t, rfl, keys 0 s t rfl⟩
          | _ :: _ :: _, len => simp at len
      | long g0 g1 => cases g1
      | none g0 g1 => cases g1

set_option maxRecDepth 20000 in
/-- The key is null; the reader says that it is the empty text. -/
theorem C76_needs_key : Needs .key [0x70, 0x01, 0x30, 0x00, 0x30, 0x00, 0x80, 0x03] (.dict [([], .null)]) := by
  refine fun F dbg => ⟨⟨⟨0, 6⟩, by cases dbg <;> decide +kernel, by cases dbg <;> rfl⟩, fun h => ?_⟩
  rcases entry_of (by decide +kernel) h with ⟨h, _⟩ | ⟨s, t, h, hk⟩
  · cases h
  · cases h
    obtain ⟨slot, hn⟩ := hk
    have hp : ¬ IsPointer [0x70, 0x01, 0x30, 0x00, 0x30, 0x00, 0x80, 0x03] 2 := by
      rintro ⟨b, hb, hge⟩
      cases hb
      revert hge; decide
    cases slot with
    | pointer _ h => exact hp (h.reads (m := ⟨[0x70, 0x01, 0x30, 0x00, 0x30, 0x00, 0x80, 0x03], 0, true⟩) 3 2 (by omega)).2.2.1
    | inline =>
      cases hn with
      | other odd => exact odd rfl
      | code h =>
        obtain ⟨_, _, h0, hlt, _⟩ := h
        cases h0
        revert hlt; decide
      | str h =>
        have key : ∀ {s}, Counted ⟨F, none, dbg, (· ≠ .key)⟩ [0x70, 0x01, 0x30, 0x00, 0x30, 0x00, 0x80, 0x03] 4 2 4 s → False := by
          intro s h
          cases h with
          | short h len is => cases h; revert is; simp; omega
          | long h is => cases h; revert is; decide
          | none h is => cases h; revert is; decide
        generalize ht : Tree.str [] = t at h
        cases h with
        | str h => exact key h
        | text _ h => exact key h
        | _ => cases ht

set_option maxRecDepth 20000 in
/-- The code has no text; the reader says that the dict ends before it. -/
theorem C76_needs_unnamed : Needs .unnamed [0x70, 0x01, 0x00, 0x05, 0x30, 0x00, 0x80, 0x03] (.dict []) := by
  refine fun F dbg => ⟨⟨⟨0, 6⟩, by cases dbg <;> decide +kernel, by cases dbg <;> rfl⟩, fun h => ?_⟩
  rcases entry_of (by decide +kernel) h with ⟨_, h⟩ | ⟨s, t, h, _⟩
  · cases h with
    | mk odd => exact odd rfl
  · cases h

/-- A pointer out of the document: `from_bytes` panics (C05); without validation it is followed inside the document. -/
theorem C76_needs_external : fromBytes ⟨[0x30, 0x00, 0xC0, 0x01], 0, true⟩ = .panic ∧
    fromBytesUnchecked ⟨[0x30, 0x00, 0xC0, 0x01], 0, true⟩ = .ok ⟨0, 2⟩ ∧
    (∀ F, readTree ⟨[0x30, 0x00, 0xC0, 0x01], 0, true⟩ F none 1 ⟨0, 2⟩ = .ok .null) := by
  refine ⟨by decide +kernel, by decide +kernel, fun F => by rfl⟩

/-! ## Concrete cases -/

/-- Pointers to pointers, which `Spec.Format` does not have: null is at 0, and three pointers lead there one after the other. -/
def chainDoc : List UInt8 := [0x30, 0x00, 0x80, 0x00, 0x00, 0x01, 0x80, 0x00, 0x00, 0x02, 0x80, 0x02]

theorem here_lit {data : List UInt8} {p : Nat} {bs : List UInt8} (h : (data.drop p).take bs.length = bs) : Format.Here data p bs := by
  have := List.take_prefix bs.length (data.drop p)
  rwa [h] at this

theorem chainDoc_says (F : FloatOps) : Document ⟨F, none, true, fun _ => False⟩ chainDoc .null :=
  .root (p := 0) (q := 10) (e := 2) rfl
    (.more (p := 6) (.inside ⟨[0x80, 0x02], 2, here_lit (by decide), rfl, by decide, by decide, rfl⟩ (by decide))
      (.more (p := 2) (.inside ⟨[0x80, 0x00, 0x00, 0x02], 2, here_lit (by decide), rfl, by decide, by decide, rfl⟩ (by decide))
        (.one (.inside ⟨[0x80, 0x00, 0x00, 0x01], 1, here_lit (by decide), rfl, by decide, by decide, rfl⟩ (by decide))
          (by rintro ⟨b, hb, hge⟩; cases hb; revert hge; decide))))
    (.scalar (by decide) (by decide) (.null rfl))

example (F : FloatOps) : ∃ v, fromBytesUnchecked ⟨chainDoc, 0, true⟩ = .ok v ∧ readTree ⟨chainDoc, 0, true⟩ F none 1 v = .ok .null := by
  obtain ⟨v, h1, _, h2⟩ := C76_complete _ ⟨chainDoc, 0, true⟩ rfl rfl (by decide) _ (chainDoc_says F)
  exact ⟨v, h1, h2 1 (by decide)⟩

set_option maxRecDepth 20000 in
/-- The string of C69 that announces 2^64 + 5 bytes. -/
example (F : FloatOps) : Document ⟨F, none, true, (· ≠ .external)⟩ hugeString (.str [0x68, 0x65, 0x6C, 0x6C, 0x6F]) :=
  (C76_exact ⟨hugeString, 0, true⟩ rfl (by decide) F none ⟨0, 16⟩ (by decide +kernel) _).mp ⟨1, by
    have ht : (⟨0, 16⟩ : Val).type ⟨hugeString, 0, true⟩ = .ok .string := by decide +kernel
    simp only [readTree, ht, ok_bind, (C69_refuted_document.2 true).2, pure_eq]⟩

/-- Bytes none of which can begin a float have no floats. -/
theorem no_floats {m : Mem} (h : ∀ b ∈ m.data, b.toNat / 16 ≠ 2) (y : Val) :
    ((y.type m = .ok .float ∨ y.type m = .ok .double32) → 6 ≤ y.len) ∧ (y.type m = .ok .double64 → 10 ≤ y.len) := by
  have htab : ∀ b : UInt8, b.toNat / 16 ≠ 2 → ValueType.fromByte b ≠ .float ∧ ValueType.fromByte b ≠ .double32 ∧
      ValueType.fromByte b ≠ .double64 := forall_byte (by decide +kernel)
  have key : ∀ t, y.type m = .ok t → t ≠ .float ∧ t ≠ .double32 ∧ t ≠ .double64 := by
    intro t ht
    obtain ⟨b, hb, rfl⟩ := type_ok_iff.mp ht
    exact htab b (h b (List.mem_of_getElem? (byte_ok hb).2))
  exact ⟨fun h => by rcases h with h | h <;> have := key _ h <;> simp at this, fun h => by have := key _ h; simp at this⟩

/-- `[[5]]` says one thing. -/
example (F : FloatOps) : ∃ t, Document ⟨F, none, true, (· ≠ .external)⟩
    [0x60, 0x01, 0x00, 0x05, 0x60, 0x01, 0x80, 0x03, 0x80, 0x02] t ∧ ∀ t', Document ⟨F, none, true, (· ≠ .external)⟩
      [0x60, 0x01, 0x00, 0x05, 0x60, 0x01, 0x80, 0x03, 0x80, 0x02] t' → t' = t :=
  C76_total ⟨[0x60, 0x01, 0x00, 0x05, 0x60, 0x01, 0x80, 0x03, 0x80, 0x02], 0, true⟩ rfl (by decide) F none ⟨4, 4⟩
    (by decide +kernel) fun y _ => no_floats (by decide) y

end Fleece.Props
