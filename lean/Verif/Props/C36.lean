import Verif.Props.C35
import Verif.Props.C08
import Verif.Props.C21

/-! # C36 The scope registry cannot be broken by one bad call

False of the code. `C36_exact_partial` says exactly which calls break it. -/

namespace Fleece.Props
open Fleece Res

/-- Every scope operation on this registry panics, and so does every operation on the registries it leads to. -/
def Broken (r : Registry) : Prop :=
  (∀ m sk, (r.new m sk).2 = .panic) ∧ (∀ s, (r.remove s).2 = .panic) ∧ (∀ a, r.containing a = .panic) ∧
    (∀ a, r.findSharedKeys a = .panic)

theorem broken_of_poisoned {r : Registry} (h : r.poisoned = true) : Broken r := by
  refine ⟨fun m sk => ?_, fun s => ?_, fun a => ?_, fun a => ?_⟩
  · simp [Registry.new, h]
  · simp [Registry.remove, h]
  · simp [Registry.containing, h]
  · simp [Registry.findSharedKeys, Registry.containing, h]

/-- `from_bytes` of nothing is an error, so the panic of `Scope::new` on empty data comes from `insert`. -/
theorem rootOrNone_nil {m : Mem} (h : m.data = []) : Registry.rootOrNone m = .ok none := by
  obtain ⟨d, b, g⟩ := m
  cases h
  rfl

/-- **C36 is false of the code.** In every registry that works, `Scope::new` on empty data panics and leaves the
registry broken. -/
theorem C36_refuted (r : Registry) (h : r.poisoned = false) (m : Mem) (hm : m.data = []) (sk : Option SharedKeys) :
    (r.new m sk).2 = .panic ∧ Broken (r.new m sk).1 := by
  have : r.new m sk = ({ r with poisoned := true }, .panic) := by
    simp only [Registry.new, h, Bool.false_eq_true, if_false, rootOrNone_nil hm]
    rw [if_pos (by rw [hm]; rfl)]
  rw [this]
  exact ⟨rfl, broken_of_poisoned rfl⟩

/-- The same by `finish_scoped` of an encoder nothing was written to. -/
theorem C36_refuted_finish (r : Registry) (h : r.poisoned = false) (c : Cfg) (base : Nat) :
    (r.finishScoped c Enc.new base).2 = .panic ∧ Broken (r.finishScoped c Enc.new base).1 :=
  C36_refuted r h ⟨[], base, c.dbg⟩ rfl none

/-- The same by four bytes of untrusted data (one of the inputs on which `from_bytes` panics). -/
theorem C36_refuted_bytes (r : Registry) (h : r.poisoned = false) (sk : Option SharedKeys) :
    (r.new { data := [0x45, 0, 0x80, 0x01] } sk).2 = .panic ∧ Broken (r.new { data := [0x45, 0, 0x80, 0x01] } sk).1 := by
  have : r.new { data := [0x45, 0, 0x80, 0x01] } sk = ({ r with poisoned := true }, .panic) := by
    simp only [Registry.new, h, Bool.false_eq_true, if_false, Registry.rootOrNone, C08_panics.1]
  rw [this]
  exact ⟨rfl, broken_of_poisoned rfl⟩

/-- The calls that break the registry. -/
def Breaks : ScopeOp → Prop
  | .new m _ => m.data = [] ∨ fromBytes m = .panic
  | .remove _ => False
  | .drop _ => False

theorem step_poisoned_iff {r : Registry} (h : r.poisoned = false) (op : ScopeOp) :
    (r.step op).1.poisoned = true ↔ Breaks op := by
  cases op with
  | new m sk =>
    by_cases hm : m.data = []
    · refine ⟨fun _ => Or.inl hm, fun _ => ?_⟩
      have : r.new m sk = ({ r with poisoned := true }, .panic) := by
        simp only [Registry.new, h, Bool.false_eq_true, if_false, rootOrNone_nil hm]
        rw [if_pos (by rw [hm]; rfl)]
      simp only [Registry.step, this]
    · have hl : ¬ m.data.length = 0 := by simpa using hm
      simp only [Breaks, hm, false_or]
      cases hx : fromBytes m with
      | ok v => simp [Registry.step, Registry.new, h, Registry.rootOrNone, hx, hl]
      | err v => simp [Registry.step, Registry.new, h, Registry.rootOrNone, hx, hl]
      | panic => simp [Registry.step, Registry.new, h, Registry.rootOrNone, hx]
      | ub => simp [Registry.step, Registry.new, h, Registry.rootOrNone, hx]
      | diverge => simp [Registry.step, Registry.new, h, Registry.rootOrNone, hx]
  | remove id =>
    simp only [Breaks, iff_false, Registry.step]
    cases r.scopes[id]? with
    | none => simp [h]
    | some s => simp [Registry.remove, h]
  | drop id => simp [Breaks, Registry.step, Registry.drop, h]

theorem step_stays_poisoned {r : Registry} (h : r.poisoned = true) (op : ScopeOp) : (r.step op).1.poisoned = true := by
  cases op with
  | new m sk => simp [Registry.step, Registry.new, h]
  | remove id =>
    simp only [Registry.step]
    cases r.scopes[id]? with
    | none => exact h
    | some s => simp [Registry.remove, h]
  | drop id => exact h

theorem run_stays_poisoned {r : Registry} (h : r.poisoned = true) (ops : List ScopeOp) : (r.run ops).1.poisoned = true := by
  induction ops generalizing r with
  | nil => exact h
  | cons op ops ih => exact ih (step_stays_poisoned h op)

/-- The call takes the lock: every call does, except that dropping the last handle does not, and a scope that was never made cannot be
removed. -/
def TakesLock (r : Registry) : ScopeOp → Prop
  | .new _ _ => True
  | .remove id => id < r.scopes.length
  | .drop _ => False

/-- **C36, each call.** In a build with overflow checks, on any bytes: a call panics exactly if it takes a lock that is poisoned, or breaks the
registry itself; otherwise it returns. In particular it never reads outside the buffer. -/
theorem C36_results (r : Registry) (op : ScopeOp) (hdbg : ∀ m sk, op = .new m sk → m.dbg = true) :
    (TakesLock r op ∧ (r.poisoned = true ∨ Breaks op) → (r.step op).2 = .panic) ∧
    (¬ (TakesLock r op ∧ (r.poisoned = true ∨ Breaks op)) → (r.step op).2 = .ok ()) := by
  cases op with
  | new m sk =>
    have hsafe : (fromBytes m).Safe := fromBytesGo_safe m (hdbg m sk rfl) _ (Nat.le_refl _)
    cases hp : r.poisoned with
    | true => simp [Registry.step, Registry.new, hp, TakesLock]
    | false =>
      by_cases hm : m.data = []
      · have : r.new m sk = ({ r with poisoned := true }, .panic) := by
          simp only [Registry.new, hp, Bool.false_eq_true, if_false, rootOrNone_nil hm]
          rw [if_pos (by rw [hm]; rfl)]
        simp [Registry.step, this, TakesLock, Breaks, hm]
      · have hl : ¬ m.data.length = 0 := by simpa using hm
        cases hx : fromBytes m with
        | ok v => simp [Registry.step, Registry.new, hp, Registry.rootOrNone, hx, hl, TakesLock, Breaks, hm]
        | err v => simp [Registry.step, Registry.new, hp, Registry.rootOrNone, hx, hl, TakesLock, Breaks, hm]
        | panic => simp [Registry.step, Registry.new, hp, Registry.rootOrNone, hx, TakesLock, Breaks, hm]
        | ub => rw [hx] at hsafe; cases hsafe
        | diverge => rw [hx] at hsafe; cases hsafe
  | remove id =>
    by_cases hi : id < r.scopes.length
    · cases hp : r.poisoned <;> simp [Registry.step, Registry.remove, hp, TakesLock, Breaks, hi]
    · simp [Registry.step, TakesLock, Breaks, hi]
  | drop id => simp [Registry.step, TakesLock]

/-- **C36, exact conditions.** After any history at all (overlapping buffers too): the registry is broken if some
`Scope::new` was given no data or data on which `from_bytes` panics, and otherwise every lookup returns. -/
theorem C36_exact_partial (ops : List ScopeOp) :
    ((∃ op ∈ ops, Breaks op) → Broken (Registry.run {} ops).1) ∧
      ((∀ op ∈ ops, ¬ Breaks op) → ∀ a, ∃ x, (Registry.run {} ops).1.containing a = .ok x) := by
  have key : ∀ (ops : List ScopeOp) (r : Registry), r.poisoned = false →
      ((r.run ops).1.poisoned = true ↔ ∃ op ∈ ops, Breaks op) := by
    intro ops
    induction ops with
    | nil => intro r h; simp [Registry.run, h]
    | cons op ops ih =>
      intro r h
      simp only [Registry.run, List.mem_cons, exists_eq_or_imp]
      by_cases hb : Breaks op
      · have := run_stays_poisoned ((step_poisoned_iff h op).mpr hb) ops
        exact ⟨fun _ => Or.inl hb, fun _ => this⟩
      · have h' : (r.step op).1.poisoned = false := by
          rw [Bool.eq_false_iff]; exact fun hc => hb ((step_poisoned_iff h op).mp hc)
        rw [ih _ h']
        simp [hb]
  refine ⟨fun h => broken_of_poisoned ((key ops {} rfl).mpr h), fun h a => ?_⟩
  have hn : (Registry.run {} ops).1.poisoned = false := by
    rw [Bool.eq_false_iff]
    intro hc
    obtain ⟨op, h1, h2⟩ := (key ops {} rfl).mp hc
    exact h op h1 h2
  unfold Registry.containing
  rw [hn]
  simp only [Bool.false_eq_true, if_false]
  split
  · exact ⟨_, rfl⟩
  · split <;> exact ⟨_, rfl⟩

/-- A sufficient condition on the data alone: `Scope::new` on non-empty tame bytes (see C08) succeeds, with overflow
checks on, in every registry that works. -/
theorem C36_tame_partial (r : Registry) (h : r.poisoned = false) (m : Mem) (sk : Option SharedKeys) (hm : m.data ≠ [])
    (hdbg : m.dbg = true) (hT : Spec.Tame m.data) (ha : m.base + m.data.length + 2 ^ 16 ≤ 2 ^ 64) :
    ∃ id, (r.new m sk).2 = .ok id ∧ (r.new m sk).1.poisoned = false ∧
      ∀ a, m.holds a = true → (r.new m sk).1.containing a = .ok (some id) := by
  have hl : ¬ m.data.length = 0 := by simpa using hm
  have hx : ∃ x, Registry.rootOrNone m = .ok x := by
    unfold Registry.rootOrNone
    rcases C08_ok_or_err_partial m hdbg hT ha with ⟨v, hv⟩ | ⟨e, he⟩
    · exact ⟨some v, by rw [hv]⟩
    · exact ⟨none, by rw [he]⟩
  obtain ⟨x, hx⟩ := hx
  refine ⟨r.scopes.length, ?_⟩
  simp only [Registry.new, h, Bool.false_eq_true, if_false, hx]
  rw [if_neg hl]
  refine ⟨rfl, rfl, fun a ha => ?_⟩
  simp [Registry.containing, ha]

/-- `finish_scoped` of a document as in C21 (`C21_exact_partial`): the scope exists, has a root, and is found at every address
of the document. -/
theorem C36_finish_partial (r : Registry) (hr : r.poisoned = false) (base : Nat) (c : Cfg) (F : FloatOps) (sk : Option SharedKeys)
    (hsk : ∀ s, sk = some s → s.WF)
    (ops : List Op) (hsize : Op.total ops ≤ SizedValue.maxWide) (e : Enc) (rs : List (Except EncodeError Unit))
    (h : ({ Enc.new with sk } : Enc).run c ops = .ok (e, rs)) (hok : RunOK c { Enc.new with sk } ops)
    (hfin : FinishOK c e.stack.length e) (hopen : (Build.run F {} ops).1.finish ≠ none)
    (hb : ∀ out, e.finish c = .ok out → base + out.length < 2 ^ 64) :
    ∃ out id s, e.finish c = .ok out ∧ (r.finishScoped c e base).2 = .ok id ∧
      (r.finishScoped c e base).1.scopes[id]? = some s ∧ s.root.isSome = true ∧ s.buf.data = out ∧
      ∀ a, base ≤ a → a < base + out.length → (r.finishScoped c e base).1.containing a = .ok (some id) := by
  obtain ⟨out, h1, h2⟩ := C21_exact_partial c F sk hsk ops hsize e rs h hok hfin hopen
  have hb := hb out h1
  simp only [Enc.finish] at h1
  obtain ⟨e', he', hout⟩ := bind_eq_ok.mp h1
  cases hout
  obtain ⟨v, hv⟩ := h2 ⟨e'.out, base, c.dbg⟩ rfl hb
  have hl : ¬ e'.out.length = 0 := by
    intro h0
    have : e'.out = [] := by simpa using h0
    have h4 := rootOrNone_nil (m := ⟨e'.out, base, c.dbg⟩) this
    simp only [Registry.rootOrNone, hv] at h4
    cases h4
  have hnew : r.finishScoped c e base = ({ r with
      scopes := r.scopes ++ [⟨e'.sk, ⟨e'.out, base, c.dbg⟩, some v, true⟩]
      map := fun a => if Mem.holds ⟨e'.out, base, c.dbg⟩ a then some r.scopes.length else r.map a }, .ok r.scopes.length) := by
    simp only [Registry.finishScoped, he', Registry.new, hr, Bool.false_eq_true, if_false, Registry.rootOrNone, hv]
    rw [if_neg hl]
  rw [hnew]
  refine ⟨e'.out, r.scopes.length, ⟨e'.sk, ⟨e'.out, base, c.dbg⟩, some v, true⟩, ?_, rfl, by simp, rfl, rfl, ?_⟩
  · simp only [Enc.finish, he', ok_bind, pure_eq]
  · intro a h1 h2
    have : Mem.holds ⟨e'.out, base, c.dbg⟩ a = true := holds_iff.mpr ⟨h1, h2⟩
    simp [Registry.containing, hr, this]

/-- Both kinds of history. -/
example : (∀ op ∈ reuse, ¬ Breaks op) ∧ ∃ op ∈ reuse ++ [.new ⟨[], 4, true⟩ none], Breaks op := by
  refine ⟨?_, _, List.mem_append_right _ (List.mem_singleton_self _), Or.inl rfl⟩
  have h : ∀ b ∈ [1000, 1002, 998], fromBytes ⟨[0x60, 0x00, 0x80, 0x01], b, true⟩ = .ok ⟨0, 2⟩ := by decide +kernel
  intro op ho
  simp only [reuse, List.mem_cons, List.not_mem_nil, or_false] at ho
  rcases ho with rfl | rfl | rfl | rfl | rfl
  · simp [Breaks, h 1000 (by simp)]
  · simp [Breaks]
  · simp [Breaks, h 1002 (by simp)]
  · simp [Breaks, h 998 (by simp)]
  · simp [Breaks]

end Fleece.Props
