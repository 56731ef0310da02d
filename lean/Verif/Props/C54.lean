import Verif.Proofs.Depth
import Verif.Props.C53
import Verif.Props.C06

/-!
# C54 Decoding needs a bounded stack

`fromBytesGo m f` is `from_bytes` if no more than `f` calls of `Value::_validate` may be active at one time, and `diverge`
if that is not enough.
Full claim: there is a depth that is enough for every input. It is false, of accepted documents (`C54_any_depth`). What
holds is that the depth is linear in the input (`C54_linear_partial`), and, for documents of the encoder, twice that of the
document (`C54_exact_partial` and its corollaries).
-/

namespace Fleece.Props
open Fleece Res

/-- **C54**, any input, overflow-checked build: `3 * n / 2 + 1` nested calls are enough for `n` bytes. (Without the checks
no depth is, `C06_release_recurses_forever`.) -/
theorem C54_linear_partial (m : Mem) (hdbg : m.dbg = true) (f : Nat) (hf : 3 * m.data.length / 2 + 1 ≤ f) :
    fromBytesGo m f ≠ .diverge ∧ fromBytesGo m f = fromBytes m := by
  have h := (safe_iff _).mp (fromBytesGo_safe_linear m hdbg f hf)
  refine ⟨h.2, ?_⟩
  have hb : 3 * m.data.length / 2 + 1 ≤ fuelFor m.data.length := by
    unfold fuelFor
    rw [Nat.mul_add, Nat.add_mul]
    omega
  have h0 := (safe_iff _).mp (fromBytesGo_safe_linear m hdbg _ (Nat.le_refl _))
  rcases fromBytesGo_mono m _ f hf with h1 | h1
  · exact absurd h1 h0.2
  rcases fromBytesGo_mono m _ (fuelFor m.data.length) hb with h2 | h2
  · exact absurd h2 h0.2
  rw [← h1, h2]
  rfl

/-- The same without overflow checks, for every input on which the checked build does not panic (C08 has those on which it
does). -/
theorem C54_linear_release_partial (m : Mem) (hdbg : m.dbg = true) (hp : fromBytes m ≠ .panic) (f : Nat)
    (hf : 3 * m.data.length / 2 + 1 ≤ f) : fromBytesGo { m with dbg := false } f ≠ .diverge := by
  obtain ⟨h1, h2⟩ := C54_linear_partial m hdbg f hf
  rcases fromBytesGo_prof hdbg f with h | h
  · rw [h2] at h; exact absurd h hp
  · show fromBytesGo m.rel f ≠ .diverge
    rw [← h]; exact h1

/-! ## Nested arrays -/

/-- `[0]` in `k` arrays. -/
def nesting : Nat → List UInt8
  | 0 => [0x60, 0x01, 0x00, 0x00]
  | k + 1 => nesting k ++ [0x60, 0x01, 0x80, 0x03]

def nested : Nat → Tree
  | 0 => .arr [.int 0]
  | k + 1 => .arr [nested k]

theorem nesting_length (k : Nat) : (nesting k).length = 4 * k + 4 := by
  induction k with
  | zero => rfl
  | succ k ih => simp only [nesting, List.length_append, ih, List.length_cons, List.length_nil]; omega

theorem nesting_prefix {j k : Nat} (h : j ≤ k) : nesting j <+: nesting k := by
  induction k with
  | zero => obtain rfl : j = 0 := by omega
            exact List.prefix_refl _
  | succ k ih =>
    by_cases hj : j = k + 1
    · subst hj; exact List.prefix_refl _
    · exact (ih (by omega)).trans ⟨_, rfl⟩

/-- An array of one slot of two bytes. -/
theorem rep_one {data : List UInt8} {F : FloatOps} {P : List UInt8 → Prop} {scope : Option SharedKeys} {p : Nat} {a : Tree}
    (hat : At data p [0x60, 0x01]) (fits : p + 4 ≤ data.length) (h0 : Rep data F P scope (some false) (p + 2) (p + 4) a) :
    Rep data F P scope none p (p + 4) (.arr [a]) := by
  have hh : headerBytes 0x60 1 false = [0x60, 0x01] := by decide
  have hl : hdrLen 1 = 2 := by decide
  have h : Rep data F P scope none p (p + hdrLen [a].length + [a].length * wof false) (.arr [a]) := by
    refine Rep.arr (xs := [a]) (w := false) ?_ ?_ ?_ ?_
    · show At data p (headerBytes 0x60 1 false)
      rw [hh]; exact hat
    · show 1 < 2 ^ 32
      decide
    · show p + hdrLen 1 + 1 * 2 ≤ data.length
      rw [hl]; exact fits
    · show ∀ (i : Nat) (t : Tree), [a][i]? = some t → Rep data F P scope (some false) (p + hdrLen 1 + i * 2)
        (p + hdrLen 1 + i * 2 + 2) t
      rw [hl]
      intro i t ht
      match i, ht with
      | 0, ht => cases ht; exact h0
  have he : p + hdrLen [a].length + [a].length * wof false = p + 4 := by
    show p + hdrLen 1 + 1 * 2 = p + 4
    rw [hl]
  rw [he] at h
  exact h

theorem nesting_at (k : Nat) : At (nesting k) (4 * k) [0x60, 0x01] := by
  cases k with
  | zero => exact ⟨[], [0, 0], rfl, rfl⟩
  | succ k => exact ⟨nesting k, [0x80, 0x03], by simp [nesting], by have := nesting_length k; omega⟩

theorem nesting_rep (F : FloatOps) (k : Nat) (scope : Option SharedKeys) :
    Rep (nesting k) F (fun _ => True) scope none (4 * k) (4 * k + 4) (nested k) := by
  induction k with
  | zero =>
    have hb : ScalarBytes F [0, 0] .short (.int 0) := by
      have h := short_bytes (F := F) (b0 := 0) (b1 := 0) (tl := []) (by decide)
      rw [show short12 ((0 : UInt8).toNat * 256 + (0 : UInt8).toNat) = 0 by decide] at h
      exact h
    exact rep_one (p := 0) (nesting_at 0) (by decide)
      (Rep.inline (w := false) (bs := [0, 0]) ⟨[0x60, 0x01], [], rfl, rfl⟩ rfl hb)
  | succ k ih =>
    have hl := nesting_length k
    have hl2 := nesting_length (k + 1)
    have ih := ih.mono (nesting_prefix (Nat.le_succ k)) (.refl _)
    have h6 : ptrBytes false 6 = [0x80, 0x03] := by decide
    refine rep_one (nesting_at (k + 1)) (by omega)
      (rep_back (off := 6) ?_ (by omega) (by omega) (by omega) (by decide) (by decide) ih)
    rw [h6]
    exact ⟨nesting k ++ [0x60, 0x01], [], by simp [nesting], by simp [hl]; omega⟩

theorem nested_height (k : Nat) : (nested k).height = k + 2 := by
  induction k with
  | zero => rfl
  | succ k ih => simp only [nested, Tree.height, Tree.heightList, ih]; omega

/-- The full statement of C54 is false: whatever depth `f` there is stack for, there is a document of `4 * f + 6` bytes,
nothing but arrays in arrays, that `from_bytes` accepts if it has more, wherever it lies in memory, in both builds. -/
theorem C54_any_depth (f : Nat) : ∃ data : List UInt8, data.length = 4 * f + 6 ∧
    ∀ base dbg, base + data.length < 2 ^ 64 →
      fromBytesGo ⟨data, base, dbg⟩ f = .diverge ∧ ∃ v, fromBytes ⟨data, base, dbg⟩ = .ok v := by
  have hl := nesting_length f
  have hr : rootBytes 4 = [0x80, 0x02] := by decide
  have hd : (nesting f).length - 4 * f = 4 := by omega
  refine ⟨nesting f ++ rootBytes 4, by rw [List.length_append, hr, hl]; simp, fun base dbg hb => ?_⟩
  have h := nesting_rep ⟨fun _ => 0, fun _ => 0, fun _ => 0, fun _ => 0, fun _ => 0, fun _ => 0⟩ f none
  obtain ⟨h1, _⟩ := h.document (m := ⟨nesting f ++ rootBytes 4, base, dbg⟩) hb (by rw [hd]) (by omega) (by omega)
    (by rw [hd]; decide)
  have h2 := h.document_deep (m := ⟨nesting f ++ rootBytes 4, base, dbg⟩) hb (by rw [hd]) (by omega) (by omega)
    (by rw [hd]; decide) (f := f) (by rw [nested_height]; omega)
  exact ⟨h2, _, h1⟩

/-! ## Documents of the encoder -/

/-- **C54, exact.** Under the conditions of `C20_exact_partial`, decoding the bytes of `finish` is at least as deep as the
document, and less than twice as deep. -/
theorem C54_exact_partial (c : Cfg) (F : FloatOps) (sk : Option SharedKeys) (hsk : ∀ s, sk = some s → s.WF)
    (ops : List Op) (hsize : Op.total ops ≤ SizedValue.maxWide) (e : Enc) (rs : List (Except EncodeError Unit))
    (h : ({ Enc.new with sk } : Enc).run c ops = .ok (e, rs)) (hok : RunOK c { Enc.new with sk } ops)
    (hfin : FinishOK c e.stack.length e) (t : Tree) (ht : (Build.run F {} ops).1.finish = some t) :
    ∃ out, e.finish c = .ok out ∧ ∀ base dbg, base + out.length < 2 ^ 64 → ∃ v, fromBytes ⟨out, base, dbg⟩ = .ok v ∧
      (∀ f, f < t.height → fromBytesGo ⟨out, base, dbg⟩ f = .diverge) ∧
      ∀ f, 2 * t.height ≤ f + 1 → fromBytesGo ⟨out, base, dbg⟩ f = .ok v := by
  have hphi := newWith_phi sk
  obtain ⟨hw, hp, _⟩ := Enc.run_inv ops (newWith_wf hsk) (by omega) h
  obtain ⟨hs, hn⟩ := Sim.run (F := F) (P := fun _ => True) ops (newWith_wf hsk) (newWith_nested sk) (by omega)
    (Sim.new F sk) hok (RunKeys.trivial _ _ _) h
  obtain ⟨out, pre, p, en, t', h1, h2, h3, h4, h5, h6, h7⟩ := hs.finish hw hn (by omega) hfin ht
  refine ⟨out, h1, fun base dbg hb => ?_⟩
  obtain ⟨g1, _⟩ := h4.document (m := ⟨out, base, dbg⟩) hb h3 h5 h6 h7
  have hh := h2.height
  refine ⟨_, g1, fun f hf => ?_, fun f hf => ?_⟩
  · exact h4.document_deep (m := ⟨out, base, dbg⟩) hb h3 h5 h6 h7 (by omega)
  · exact h4.document_depth (m := ⟨out, base, dbg⟩) hb h3 h5 h6 h7 (by omega)

/-- **C54, small documents**, as in `C20_small_partial`. -/
theorem C54_small_partial (c : Cfg) (F : FloatOps) (sk : Option SharedKeys) (hsk : ∀ s, sk = some s → s.WF)
    (ops : List Op) (hsize : Op.total ops ≤ SizedValue.maxNarrow) (hplain : ∀ op ∈ ops, op.Plain sk.isSome)
    (hor : Orderly F {} ops) (e : Enc) (rs : List (Except EncodeError Unit))
    (h : ({ Enc.new with sk } : Enc).run c ops = .ok (e, rs)) (t : Tree) (ht : (Build.run F {} ops).1.finish = some t) :
    ∃ out, e.finish c = .ok out ∧ ∀ base dbg, base + out.length < 2 ^ 64 → ∃ v, fromBytes ⟨out, base, dbg⟩ = .ok v ∧
      (∀ f, f < t.height → fromBytesGo ⟨out, base, dbg⟩ f = .diverge) ∧
      ∀ f, 2 * t.height ≤ f + 1 → fromBytesGo ⟨out, base, dbg⟩ f = .ok v := by
  have hmn : SizedValue.maxNarrow ≤ SizedValue.maxWide := by decide
  have hphi := newWith_phi sk
  obtain ⟨hw, hp, _⟩ := Enc.run_inv ops (newWith_wf hsk) (by omega) h
  obtain ⟨hok, hc⟩ := plain_run ops (newWith_wf hsk) (by omega) ⟨rfl, rfl⟩ (newWith_clean sk) hplain hor h
  exact C54_exact_partial c F sk hsk ops (by omega) e rs h hok (clean_finish _ hw hc (by omega)) t ht

/-- **C54, documents up to 1 GiB**, as in `C20_large_partial`. -/
theorem C54_large_partial (c : Cfg) (F : FloatOps) (sk : Option SharedKeys) (hsk : ∀ s, sk = some s → s.WF)
    (ops : List Op) (hsize : Op.total ops ≤ SizedValue.maxWide) (hsound : ∀ op ∈ ops, op.Sound sk.isSome)
    (hall : AllOk F {} ops) (hdang : ∀ kvs k rest, (Build.run F {} ops).1.stack ≠ .dict kvs (some k) :: rest) (t : Tree)
    (ht : (Build.run F {} ops).1.finish = some t) (hroom : t.Roomy sk.isSome) :
    ∃ e rs out, ({ Enc.new with sk } : Enc).run c ops = .ok (e, rs) ∧ e.finish c = .ok out ∧
      ∀ base dbg, base + out.length < 2 ^ 64 → ∃ v, fromBytes ⟨out, base, dbg⟩ = .ok v ∧
        (∀ f, f < t.height → fromBytesGo ⟨out, base, dbg⟩ f = .diverge) ∧
        ∀ f, 2 * t.height ≤ f + 1 → fromBytesGo ⟨out, base, dbg⟩ f = .ok v := by
  have hphi := newWith_phi sk
  obtain ⟨e, rs, h⟩ := Enc.run_ok (c := c) ops (newWith_wf hsk) (by omega) (fun op hop => sound_accepted (hsound op hop))
  obtain ⟨h1, h2⟩ := roomy_ok c F sk hsk ops hsize hsound hall hdang t ht hroom e rs h
  obtain ⟨out, h3, h4⟩ := C54_exact_partial c F sk hsk ops hsize e rs h h1 h2 t ht
  exact ⟨e, rs, out, h, h3, h4⟩

set_option maxRecDepth 20000 in
/-- The document of `exampleOps`: three deep, five calls. -/
example : ∃ e rs out, Enc.new.run exampleCfg exampleOps = .ok (e, rs) ∧ e.finish exampleCfg = .ok out ∧
    fromBytesGo { data := out } 4 = .diverge ∧ ∃ v, fromBytesGo { data := out } 5 = .ok v := by
  refine ⟨_, _, _, rfl, rfl, by decide +kernel, ⟨22, 10⟩, by decide +kernel⟩

end Fleece.Props
