import Verif.Proofs.CostDoc
import Verif.Props.C20Large

/-!
# C53 Decoding takes time in proportion to its input

Time is counted in calls of `Value::_validate` (Model/Cost.lean), each of which does a bounded amount of work besides
the calls it makes and following pointers to pointers.
Full claim: `from_bytes` makes at most a constant times the number of bytes of calls. It is false: a value that several
pointers lead to is validated once for each of them (`C53_doubling`). What holds is that the calls are in
proportion to the document (`C53_exact_partial` and its corollaries), for documents of the encoder, which never shares.
-/

namespace Fleece.Props
open Fleece Res

/-- Counting changes nothing: there is a count exactly if `from_bytes` accepts, and an error, panic or endless loop of one
is one of the other. -/
theorem C53_counts (m : Mem) : (fromBytes m >>= fun _ => .ok ()) = (fromBytesCount m >>= fun _ => .ok ()) :=
  fromBytesCount_erase m

/-! ## Doubling -/

/-- `[0, 0]`, and `k` arrays that each hold the previous one twice, by two pointers. -/
def doubling : Nat → List UInt8
  | 0 => [0x60, 0x02, 0x00, 0x00, 0x00, 0x00]
  | k + 1 => doubling k ++ [0x60, 0x02, 0x80, 0x04, 0x80, 0x05]

/-- What they mean. -/
def doubled : Nat → Tree
  | 0 => .arr [.int 0, .int 0]
  | k + 1 => .arr [doubled k, doubled k]

theorem doubling_length (k : Nat) : (doubling k).length = 6 * k + 6 := by
  induction k with
  | zero => rfl
  | succ k ih => simp only [doubling, List.length_append, ih, List.length_cons, List.length_nil]; omega

theorem doubled_items (k : Nat) : (doubled k).items + 1 = 2 ^ (k + 2) := by
  induction k with
  | zero => rfl
  | succ k ih =>
    simp only [doubled, Tree.items, Tree.itemsList]
    rw [Nat.pow_succ]
    omega

/-- An array of two slots of two bytes. -/
theorem rep_two {data : List UInt8} {F : FloatOps} {P : List UInt8 → Prop} {p : Nat} {a b : Tree}
    (hat : At data p [0x60, 0x02]) (fits : p + 6 ≤ data.length) (h0 : Rep data F P none (some false) (p + 2) (p + 4) a)
    (h1 : Rep data F P none (some false) (p + 4) (p + 6) b) : Rep data F P none none p (p + 6) (.arr [a, b]) := by
  have hh : headerBytes 0x60 2 false = [0x60, 0x02] := by decide
  have hl : hdrLen 2 = 2 := by decide
  have h : Rep data F P none none p (p + hdrLen [a, b].length + [a, b].length * wof false) (.arr [a, b]) := by
    refine Rep.arr (xs := [a, b]) (w := false) ?_ ?_ ?_ ?_
    · show At data p (headerBytes 0x60 2 false)
      rw [hh]; exact hat
    · show 2 < 2 ^ 32
      decide
    · show p + hdrLen 2 + 2 * 2 ≤ data.length
      rw [hl]; exact fits
    · show ∀ (i : Nat) (t : Tree), [a, b][i]? = some t → Rep data F P none (some false) (p + hdrLen 2 + i * 2)
        (p + hdrLen 2 + i * 2 + 2) t
      rw [hl]
      intro i t ht
      match i, ht with
      | 0, ht => cases ht; exact h0
      | 1, ht => cases ht; exact h1
  have he : p + hdrLen [a, b].length + [a, b].length * wof false = p + 6 := by
    show p + hdrLen 2 + 2 * 2 = p + 6
    rw [hl]
  rw [he] at h
  exact h

/-- A slot of two bytes that points back. -/
theorem rep_back {data : List UInt8} {F : FloatOps} {P : List UInt8 → Prop} {scope : Option SharedKeys}
    {q p e off : Nat} {t : Tree} (hat : At data q (ptrBytes false off)) (hp : p + off = q) (he : p < e) (hq : e ≤ q) (even : off % 2 = 0)
    (max : off ≤ 0x3fff) (h : Rep data F P scope none p e t) : Rep data F P scope (some false) q (q + 2) t := by
  have ho : q - p = off := by omega
  exact Rep.ptr (w := false) (by rw [ho]; exact hat) he hq (by rw [ho]; exact even) (by rw [ho]; exact (Nat.le_trans max (by decide))) h

theorem doubling_rep (F : FloatOps) (k : Nat) :
    Rep (doubling k) F (fun _ => True) none none (6 * k) (6 * k + 6) (doubled k) := by
  induction k with
  | zero =>
    have hb : ScalarBytes F [0, 0] .short (.int 0) := by
      have h := short_bytes (F := F) (b0 := 0) (b1 := 0) (tl := []) (by decide)
      rw [show short12 ((0 : UInt8).toNat * 256 + (0 : UInt8).toNat) = 0 by decide] at h
      exact h
    exact rep_two (p := 0) ⟨[], [0, 0, 0, 0], rfl, rfl⟩ (by decide)
      (Rep.inline (w := false) (bs := [0, 0]) ⟨[0x60, 0x02], [0, 0], rfl, rfl⟩ rfl hb)
      (Rep.inline (w := false) (bs := [0, 0]) ⟨[0x60, 0x02, 0, 0], [], rfl, rfl⟩ rfl hb)
  | succ k ih =>
    have hl := doubling_length k
    have hl2 := doubling_length (k + 1)
    have ih := ih.mono (⟨_, rfl⟩ : doubling k <+: doubling (k + 1)) (.refl _)
    have h8 : ptrBytes false 8 = [0x80, 0x04] := by decide
    have h10 : ptrBytes false 10 = [0x80, 0x05] := by decide
    refine rep_two ⟨doubling k, [0x80, 0x04, 0x80, 0x05], by simp [doubling], by omega⟩ (by omega)
      (rep_back (off := 8) ?_ (by omega) (by omega) (by omega) (by decide) (by decide) ih)
      (rep_back (off := 10) ?_ (by omega) (by omega) (by omega) (by decide) (by decide) ih)
    · rw [h8]
      exact ⟨doubling k ++ [0x60, 0x02], [0x80, 0x05], by simp [doubling], by simp [hl]; omega⟩
    · rw [h10]
      exact ⟨doubling k ++ [0x60, 0x02, 0x80, 0x04], [], by simp [doubling], by simp [hl]; omega⟩

/-- The full statement of C53 is false: six bytes more double the number of calls. For every `k` there is a document of
`6 * k + 8` bytes, wherever it lies in memory and in both builds, that is accepted after at least `2 ^ (k + 2) - 1` calls. -/
theorem C53_doubling (k : Nat) : ∃ data : List UInt8, data.length = 6 * k + 8 ∧
    ∀ base dbg, base + data.length < 2 ^ 64 → ∃ v n, fromBytes ⟨data, base, dbg⟩ = .ok v ∧
      fromBytesCount ⟨data, base, dbg⟩ = .ok n ∧ 2 ^ (k + 2) ≤ n + 1 := by
  have hl := doubling_length k
  have hr : rootBytes 6 = [0x80, 0x03] := by decide
  have hd : (doubling k).length - 6 * k = 6 := by omega
  refine ⟨doubling k ++ rootBytes 6, by rw [List.length_append, hr, hl]; simp, fun base dbg hb => ?_⟩
  have h := doubling_rep ⟨fun _ => 0, fun _ => 0, fun _ => 0, fun _ => 0, fun _ => 0, fun _ => 0⟩ k
  obtain ⟨h1, _⟩ := h.document (m := ⟨doubling k ++ rootBytes 6, base, dbg⟩) hb (by rw [hd]) (by omega) (by omega)
    (by rw [hd]; decide)
  obtain ⟨n, h2, h3, _⟩ := h.document_cost (m := ⟨doubling k ++ rootBytes 6, base, dbg⟩) hb (by rw [hd]) (by omega)
    (by omega) (by rw [hd]; decide)
  have := doubled_items k
  exact ⟨_, n, h1, h2, by omega⟩

/-- A document of 248 bytes takes more than four billion calls for each of its bytes. -/
theorem C53_not_linear : ∃ (m : Mem) (v : Val) (n : Nat), m.data.length = 248 ∧ fromBytes m = .ok v ∧
    fromBytesCount m = .ok n ∧ 2 ^ 32 * m.data.length < n := by
  obtain ⟨data, hlen, h⟩ := C53_doubling 40
  obtain ⟨v, n, h1, h2, h3⟩ := h 0 true (by rw [hlen]; decide)
  refine ⟨_, v, n, hlen, h1, h2, ?_⟩
  simp only [hlen]
  omega

/-! ## Documents of the encoder -/

/-- **C53, exact.** Under the conditions of `C20_exact_partial`, decoding the bytes of `finish` takes at least one and at
most two calls for each value and key of the document, so fewer than two for each call made to the encoder. -/
theorem C53_exact_partial (c : Cfg) (F : FloatOps) (sk : Option SharedKeys) (hsk : ∀ s, sk = some s → s.WF)
    (ops : List Op) (hsize : Op.total ops ≤ SizedValue.maxWide) (e : Enc) (rs : List (Except EncodeError Unit))
    (h : ({ Enc.new with sk } : Enc).run c ops = .ok (e, rs)) (hok : RunOK c { Enc.new with sk } ops)
    (hfin : FinishOK c e.stack.length e) (t : Tree) (ht : (Build.run F {} ops).1.finish = some t) :
    ∃ out, e.finish c = .ok out ∧ ∀ base dbg, base + out.length < 2 ^ 64 →
      ∃ n, fromBytesCount ⟨out, base, dbg⟩ = .ok n ∧ t.items ≤ n ∧ n < 2 * t.items ∧ n < 2 * ops.length := by
  have hphi := newWith_phi sk
  obtain ⟨hw, hp, _⟩ := Enc.run_inv ops (newWith_wf hsk) (by omega) h
  obtain ⟨hs, hn⟩ := Sim.run (F := F) (P := fun _ => True) ops (newWith_wf hsk) (newWith_nested sk) (by omega)
    (Sim.new F sk) hok (RunKeys.trivial _ _ _) h
  obtain ⟨out, pre, p, en, t', h1, h2, h3, h4, h5, h6, h7⟩ := hs.finish hw hn (by omega) hfin ht
  refine ⟨out, h1, fun base dbg hb => ?_⟩
  obtain ⟨n, g1, g2, g3⟩ := h4.document_cost (m := ⟨out, base, dbg⟩) hb h3 h5 h6 h7
  have hnodes := Build.finish_items ht
  rw [← h2.items] at g2 g3
  exact ⟨n, g1, g2, by omega, by omega⟩

/-- **C53, small documents**, as in `C20_small_partial`. -/
theorem C53_small_partial (c : Cfg) (F : FloatOps) (sk : Option SharedKeys) (hsk : ∀ s, sk = some s → s.WF)
    (ops : List Op) (hsize : Op.total ops ≤ SizedValue.maxNarrow) (hplain : ∀ op ∈ ops, op.Plain sk.isSome)
    (hor : Orderly F {} ops) (e : Enc) (rs : List (Except EncodeError Unit))
    (h : ({ Enc.new with sk } : Enc).run c ops = .ok (e, rs)) (t : Tree) (ht : (Build.run F {} ops).1.finish = some t) :
    ∃ out, e.finish c = .ok out ∧ ∀ base dbg, base + out.length < 2 ^ 64 →
      ∃ n, fromBytesCount ⟨out, base, dbg⟩ = .ok n ∧ t.items ≤ n ∧ n < 2 * t.items ∧ n < 2 * ops.length := by
  have hmn : SizedValue.maxNarrow ≤ SizedValue.maxWide := by decide
  have hphi := newWith_phi sk
  obtain ⟨hw, hp, _⟩ := Enc.run_inv ops (newWith_wf hsk) (by omega) h
  obtain ⟨hok, hc⟩ := plain_run ops (newWith_wf hsk) (by omega) ⟨rfl, rfl⟩ (newWith_clean sk) hplain hor h
  exact C53_exact_partial c F sk hsk ops (by omega) e rs h hok (clean_finish _ hw hc (by omega)) t ht

/-- **C53, documents up to 1 GiB**, as in `C20_large_partial`. -/
theorem C53_large_partial (c : Cfg) (F : FloatOps) (sk : Option SharedKeys) (hsk : ∀ s, sk = some s → s.WF)
    (ops : List Op) (hsize : Op.total ops ≤ SizedValue.maxWide) (hsound : ∀ op ∈ ops, op.Sound sk.isSome)
    (hall : AllOk F {} ops) (hdang : ∀ kvs k rest, (Build.run F {} ops).1.stack ≠ .dict kvs (some k) :: rest) (t : Tree)
    (ht : (Build.run F {} ops).1.finish = some t) (hroom : t.Roomy sk.isSome) :
    ∃ e rs out, ({ Enc.new with sk } : Enc).run c ops = .ok (e, rs) ∧ e.finish c = .ok out ∧
      ∀ base dbg, base + out.length < 2 ^ 64 →
        ∃ n, fromBytesCount ⟨out, base, dbg⟩ = .ok n ∧ t.items ≤ n ∧ n < 2 * t.items ∧ n < 2 * ops.length := by
  have hphi := newWith_phi sk
  obtain ⟨e, rs, h⟩ := Enc.run_ok (c := c) ops (newWith_wf hsk) (by omega) (fun op hop => sound_accepted (hsound op hop))
  obtain ⟨h1, h2⟩ := roomy_ok c F sk hsk ops hsize hsound hall hdang t ht hroom e rs h
  obtain ⟨out, h3, h4⟩ := C53_exact_partial c F sk hsk ops hsize e rs h h1 h2 t ht
  exact ⟨e, rs, out, h, h3, h4⟩

set_option maxRecDepth 20000 in
/-- The document of `exampleOps`: eight values and keys, five of them behind a pointer. -/
example : ∃ e rs out, Enc.new.run exampleCfg exampleOps = .ok (e, rs) ∧ e.finish exampleCfg = .ok out ∧
    fromBytesCount { data := out } = .ok 13 := by
  refine ⟨_, _, _, rfl, rfl, ?_⟩
  decide +kernel

end Fleece.Props
