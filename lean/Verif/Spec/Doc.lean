import Verif.Spec.Build
import Verif.Spec.Tree

/-!
# Specification: documents that survive

What it means that some bytes decode to a document, and the class of calls for which this version of the code is
claimed to keep the document. Nothing here mentions slots, offsets or widths.
-/

namespace Fleece

/-- The bytes are accepted by `from_bytes`, wherever they lie in memory, and a complete traversal of the root gives `t`
(up to the order of dict entries). -/
def Decodes (F : FloatOps) (scope : Option SharedKeys) (out : List UInt8) (t : Tree) : Prop :=
  ∀ m : Mem, m.data = out → m.base + out.length < 2 ^ 64 →
    ∃ v t', fromBytes m = .ok v ∧ Tree.Same t t' ∧ ∀ fuel, out.length ≤ fuel → readTree m F scope fuel v = .ok t'

/-- Calls this version of the code gets right in small documents: scalars it can write, no string, data or key of fewer
than two bytes and, with shared keys, no key of 16 bytes. -/
def Op.Plain (shared : Bool) : Op → Prop
  | .value x => x.Survives ∧ ¬ x.Tiny
  | .key k => 2 ≤ k.bytes.length ∧ k.bytes.length < 2 ^ 63 ∧ (shared = true → k.bytes.length ≠ 16)
  | _ => True

/-- The calls may be rejected, but two kinds of misuse are excluded: `end_array` where a key is expected, and `write_key`
after the document is complete. -/
def Orderly (F : FloatOps) : Build → List Op → Prop
  | _, [] => True
  | b, op :: ops => (op = .endArray → ∀ kvs rest, b.stack ≠ .dict kvs none :: rest) ∧
      ((∃ k, op = .key k) → b.root = none) ∧ Orderly F (b.next F op).1 ops

/-- All calls of the sequence are documented to succeed. -/
def AllOk (F : FloatOps) (b : Build) (ops : List Op) : Prop := ∀ r ∈ (b.run F ops).2, r = .ok ()

theorem AllOk.orderly {F : FloatOps} (ops : List Op) : ∀ {b : Build}, (b.root.isSome → b.stack = []) → AllOk F b ops →
    Orderly F b ops := by
  induction ops with
  | nil => intro b _ _; trivial
  | cons op ops ih =>
    intro b hb h
    have h1 : (b.next F op).2 = .ok () := h _ (by simp [Build.run])
    have h2 : AllOk F (b.next F op).1 ops := fun r hr => h r (by simp only [Build.run]; exact List.mem_cons_of_mem _ hr)
    have close_root : ∀ fr t, (Build.close fr t).root.isSome → (Build.close fr t).stack = [] := by
      intro fr t hx
      match fr with
      | [] => rfl
      | .arr xs :: _ => cases hx
      | .dict kvs none :: _ => cases hx
      | .dict kvs (some k) :: _ => cases hx
    have hnone : ∀ {f fr}, b.stack = f :: fr → b.root = none := by
      intro f fr hs
      cases hr : b.root with
      | none => rfl
      | some t => rw [hb (by rw [hr]; rfl)] at hs; cases hs
    refine ⟨?_, ?_, ih ?_ h2⟩
    · rintro rfl kvs rest hs
      simp only [Build.next, Build.step, hs] at h1
      cases h1
    · rintro ⟨k, rfl⟩
      cases hs : b.stack with
      | nil => simp only [Build.next, Build.step, hs] at h1; cases h1
      | cons f fr => exact hnone hs
    · unfold Build.next at h1 ⊢
      cases hst : b.step F op with
      | error x => rw [hst] at h1; cases h1
      | ok b' =>
        simp only
        intro hroot
        cases op with
        | beginArray n =>
          simp only [Build.step, Build.open] at hst
          split at hst
          · cases hst
          · next hn => split at hst <;> cases hst; exact absurd hroot hn
        | beginDict =>
          simp only [Build.step, Build.open] at hst
          split at hst
          · cases hst
          · next hn => split at hst <;> cases hst; exact absurd hroot hn
        | key k =>
          simp only [Build.step] at hst
          split at hst
          · next hs => cases hst; rw [hnone hs] at hroot; cases hroot
          · cases hst
          · cases hst
        | value x =>
          simp only [Build.step, Build.put] at hst
          split at hst
          · cases hst
          · next hs => cases hst; rw [hnone hs] at hroot; cases hroot
          · next hs => cases hst; rw [hnone hs] at hroot; cases hroot
          · cases hst
        | endArray =>
          simp only [Build.step] at hst
          split at hst
          · cases hst; exact close_root _ _ hroot
          · cases hst
        | endDict =>
          simp only [Build.step] at hst
          split at hst
          · cases hst; exact close_root _ _ hroot
          · cases hst
          · cases hst

end Fleece
