import Verif.Props.C19
import Verif.Props.C18
import Verif.Proofs.WriteOps

/-!
# C19, opening and closing

A rejected `write_key` or `write_value` may leave bytes behind (`C19_state_partial`). A rejected call that opens or closes a
collection leaves nothing: the bytes finally produced are the same. No condition on the document, but that it is at most 1 GiB
up to that call.
-/

namespace Fleece.Props
open Fleece Res

/-- The calls that open and close collections. -/
def Op.Structural : Op → Prop
  | .beginArray _ | .beginDict | .endArray | .endDict => True
  | .key _ | .value _ => False

/-- The call fails as documented, and the encoder is the same. -/
theorem rejected_same {c : Cfg} {F : FloatOps} {e : Enc} {b : Build} {op : Op} {x : EncodeError} (hb : Shape e b)
    (hop : Op.Structural op) (hd : op = .endArray → ∀ kvs rest, b.stack ≠ .dict kvs none :: rest) (h : (b.next F op).2 = .error x) :
    e.step c op = .ok (e, .error x) := by
  have hstep : b.step F op = .error x := by
    unfold Build.next at h
    cases hs : b.step F op with
    | ok b' => rw [hs] at h; cases h
    | error y => rw [hs] at h; cases h; rfl
  have hopen : ∀ f, ∀ y, b.open f y = .error x → (e.closed = true ∧ x = y) ∨
      (e.closed = false ∧ e.waitingForKey = true ∧ x = .dictWaitingForKey) := by
    intro f y h
    unfold Build.open at h
    rw [hb.closed]
    split at h
    · next h1 => cases h; exact .inl ⟨h1, rfl⟩
    · next h1 =>
      have h1 : b.root.isSome = false := by simpa using h1
      split at h
      · next kvs rest hs =>
        cases h
        refine .inr ⟨h1, ?_, rfl⟩
        unfold Enc.waitingForKey
        cases he : e.stack with
        | nil => have := hb.nil he; rw [hs] at this; cases this
        | cons coll cs =>
          have hk : coll.kind = Frame.kind (.dict kvs none) := by have := hb.stack; rw [he, hs] at this; simp at this; exact this.1
          cases coll with
          | arr _ => cases hk
          | dict els nk => cases nk with
            | none => rfl
            | some _ => cases hk
      · cases h
  have htop : ∀ coll cs, e.stack = coll :: cs → ∃ f fs, b.stack = f :: fs ∧ coll.kind = f.kind := by
    intro coll cs he
    cases hs : b.stack with
    | nil => have := hb.stack; rw [he, hs] at this; cases this
    | cons f fs => have := hb.stack; rw [he, hs] at this; simp at this; exact ⟨f, fs, rfl, this.1⟩
  cases op with
  | key _ => exact hop.elim
  | value _ => exact hop.elim
  | beginArray n =>
    rcases hopen _ _ hstep with ⟨h1, rfl⟩ | ⟨h1, h2, rfl⟩
    · simp [Enc.step, Enc.beginArray, h1, Enc.fail]
    · simp [Enc.step, Enc.beginArray, h1, h2, Enc.fail]
  | beginDict =>
    rcases hopen _ _ hstep with ⟨h1, rfl⟩ | ⟨h1, h2, rfl⟩
    · simp [Enc.step, Enc.beginDict, h1, Enc.fail]
    · simp [Enc.step, Enc.beginDict, h1, h2, Enc.fail]
  | endArray =>
    simp only [Enc.step, Enc.endArray]
    cases he : e.stack with
    | nil =>
      have := hb.nil he
      simp only [Build.step, this] at hstep
      cases hstep; rfl
    | cons coll cs =>
      obtain ⟨f, fs, hs, hk⟩ := htop _ _ he
      simp only [Build.step, hs] at hstep
      cases f with
      | arr xs => cases hstep
      | dict kvs q =>
        cases hstep
        cases q with
        | none => exact absurd hs (hd rfl _ _)
        | some k =>
          cases coll with
          | arr _ => cases hk
          | dict els nk => cases nk with
            | none => cases hk
            | some _ => rfl
  | endDict =>
    simp only [Enc.step, Enc.endDict]
    cases he : e.stack with
    | nil =>
      have := hb.nil he
      simp only [Build.step, this] at hstep
      cases hstep; rfl
    | cons coll cs =>
      obtain ⟨f, fs, hs, hk⟩ := htop _ _ he
      simp only [Build.step, hs] at hstep
      cases f with
      | arr xs =>
        cases hstep
        cases coll with
        | arr _ => rfl
        | dict els nk => cases hk
      | dict kvs q =>
        cases q with
        | none => cases hstep
        | some k =>
          cases hstep
          cases coll with
          | arr _ => cases hk
          | dict els nk => cases nk with
            | none => cases hk
            | some _ => rfl

theorem run_joined {c : Cfg} (ops1 : List Op) : ∀ {e e1 : Enc} {rs1 : List (Except EncodeError Unit)} {ops2 : List Op} {e2 : Enc}
    {rs2 : List (Except EncodeError Unit)}, e.run c ops1 = .ok (e1, rs1) → e1.run c ops2 = .ok (e2, rs2) →
    e.run c (ops1 ++ ops2) = .ok (e2, rs1 ++ rs2) := by
  induction ops1 with
  | nil => intro e e1 rs1 ops2 e2 rs2 h1 h2; cases h1; exact h2
  | cons op ops1 ih =>
    intro e e1 rs1 ops2 e2 rs2 h1 h2
    obtain ⟨e', r, rs', g1, g2, rfl⟩ := Enc.run_cons h1
    simp only [List.cons_append, Enc.run, g1, ok_bind, ih g2 h2]
    rfl

/-- **C19, the bytes.** Take any sequence of calls, of any documents and with rejected calls or not, and put into it a call that
opens or closes a collection and is documented to be rejected there: it is rejected with the documented error, all other
results are the same, and so is the encoder in the end, so that `finish` does the same. Missing: the calls `C19_document_partial`
is about; `end_array` on a dict, for which it is false. -/
theorem C19_bytes_partial (c : Cfg) (F : FloatOps) (sk : Option SharedKeys) (hsk : ∀ s, sk = some s → s.WF)
    (ops1 ops2 : List Op) (op : Op) (x : EncodeError) (hop : Op.Structural op)
    (hrej : ((Build.run F {} ops1).1.next F op).2 = .error x) (hsize : Op.total ops1 ≤ SizedValue.maxWide)
    (hnd : NoDiscard F {} (ops1 ++ [op])) (e : Enc) (rs : List (Except EncodeError Unit))
    (h : ({ Enc.new with sk } : Enc).run c (ops1 ++ ops2) = .ok (e, rs)) :
    ({ Enc.new with sk } : Enc).run c (ops1 ++ op :: ops2) = .ok (e, rs.take ops1.length ++ .error x :: rs.drop ops1.length) := by
  obtain ⟨e1, rs1, rs2, h1, h2, rfl⟩ := Enc.run_append_ok ops1 h
  obtain ⟨hn1, hn2⟩ := noDiscard_append F ops1 [op] hnd
  obtain ⟨hr, hs⟩ := results_go c F ops1 (newWith_wf hsk) (by have := newWith_phi sk; omega) ⟨rfl, rfl⟩ hn1 h1
  have hlen : rs1.length = ops1.length := by
    rw [hr]
    have : ∀ (ops : List Op) (b : Build), (b.run F ops).2.length = ops.length := by
      intro ops
      induction ops with
      | nil => intro b; rfl
      | cons op ops ih => intro b; simp only [Build.run, List.length_cons, ih]
    exact this _ _
  have hsame := rejected_same (c := c) (F := F) hs hop hn2.1 hrej
  rw [← hlen, List.take_left, List.drop_left]
  refine run_joined ops1 h1 ?_
  simp only [Enc.run, hsame, ok_bind, h2]
  rfl

/-- `end_dict` in an array, then `"ab"` and the end of the array: the hypotheses hold. -/
example (F : FloatOps) : Op.Structural .endDict ∧ ((Build.run F {} [.beginArray 0]).1.next F .endDict).2 = .error .dictNotOpen ∧
    Op.total [.beginArray 0] ≤ SizedValue.maxWide ∧ NoDiscard F {} ([.beginArray 0] ++ [.endDict]) ∧
    ∃ e rs, Enc.new.run exampleCfg ([.beginArray 0] ++ [.value (.str sab), .endArray]) = .ok (e, rs) ∧
      Enc.new.run exampleCfg ([.beginArray 0] ++ .endDict :: [.value (.str sab), .endArray]) =
        .ok (e, [.ok (), .error .dictNotOpen, .ok (), .ok ()]) :=
  ⟨trivial, rfl, by decide, ⟨fun h => (by cases h), fun h => (by cases h), trivial⟩, _, _, rfl, rfl⟩

end Fleece.Props
