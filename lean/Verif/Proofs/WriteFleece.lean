import Verif.Spec.Calls
import Verif.Proofs.Copy
import Verif.Proofs.SmallDoc

/-!
# `write_fleece` as a sequence of calls
-/

namespace Fleece
open Res

/-! ## Stopping at the first error -/

/-- Calls, up to the first that fails. -/
def Enc.runStop (c : Cfg) (e : Enc) : List Op → Enc.Out
  | [] => e.done
  | op :: ops => do
    match ← e.step c op with
    | (e, .ok ()) => Enc.runStop c e ops
    | (e, .error x) => e.fail x

theorem lift_bind {α β : Type} (x : Exec α) (f : α → Exec β) : Exec.lift (x >>= f) = (Exec.lift x >>= fun a => (f a).lift) := by
  cases x with
  | err e => cases e
  | _ => rfl

theorem Enc.runStop_append (c : Cfg) (l r : List Op) : ∀ e : Enc,
    (e.runStop c (l ++ r)).lift = Enc.andThen (e.runStop c l).lift fun e => (e.runStop c r).lift := by
  induction l with
  | nil => intro e; rfl
  | cons op l ih =>
    intro e
    simp only [List.cons_append, Enc.runStop, lift_bind, Enc.andThen]
    cases hs : e.step c op with
    | err x => cases x
    | ok p =>
      obtain ⟨e1, r1⟩ := p
      cases r1 with
      | error x => rfl
      | ok u =>
        have := ih e1
        unfold Enc.andThen at this
        exact this
    | panic => rfl
    | ub => rfl
    | diverge => rfl

theorem Enc.runStop_cons (c : Cfg) (op : Op) (r : List Op) (e : Enc) :
    (e.runStop c (op :: r)).lift = Enc.andThen (e.step c op).lift fun e => (e.runStop c r).lift := by
  simp only [Enc.runStop, lift_bind, Enc.andThen]
  cases hs : e.step c op with
  | err x => cases x
  | ok p => obtain ⟨e1, r1⟩ := p; cases r1 <;> rfl
  | panic => rfl
  | ub => rfl
  | diverge => rfl

theorem Enc.runStop_one (c : Cfg) (op : Op) (e : Enc) : (e.runStop c [op]).lift = (e.step c op).lift := by
  rw [Enc.runStop_cons]
  unfold Enc.andThen
  cases hs : e.step c op with
  | err x => cases x
  | ok p => obtain ⟨e1, r1⟩ := p; cases r1 <;> rfl
  | panic => rfl
  | ub => rfl
  | diverge => rfl

/-- If all go well, it is the sequence. -/
theorem Enc.runStop_run (c : Cfg) (ops : List Op) : ∀ {e e' : Enc} {rs : List (Except EncodeError Unit)},
    e.run c ops = .ok (e', rs) → (∀ r ∈ rs, r = .ok ()) → e.runStop c ops = .ok (e', .ok ()) := by
  induction ops with
  | nil => intro e e' rs h _; cases h; rfl
  | cons op ops ih =>
    intro e e' rs h hr
    obtain ⟨e1, r, rs', h1, h2, rfl⟩ := Enc.run_cons h
    have h0 := hr r (by simp)
    subst h0
    unfold Enc.runStop
    rw [h1]
    exact ih h2 fun r hx => hr r (by simp [hx])

/-! ## The calls for a tree -/

/-- `ops` are calls that write `t`. The capacity announced for an array is covered by the
contents, or not absurd. -/
inductive Spells (F : FloatOps) : Tree → List Op → Prop where
  | scalar {x : Scalar} (keep : x.Survives) : Spells F (x.tree F) [.value x]
  | arr {xs : List Tree} {parts : List (List Op)} {n : Nat} (cap : n ≤ Tree.weights xs ∨ n * 4 < 2 ^ 63)
      (len : parts.length = xs.length) (each : ∀ (i : Nat) x p, xs[i]? = some x → parts[i]? = some p → Spells F x p) :
      Spells F (.arr xs) (.beginArray n :: (parts.flatten ++ [.endArray]))
  | dict {kvs : List (List UInt8 × Tree)} {parts : List (RStr × List Op)} (len : parts.length = kvs.length)
      (keys : ∀ (i : Nat) x p, kvs[i]? = some x → parts[i]? = some p → p.1.bytes = x.1)
      (each : ∀ (i : Nat) x p, kvs[i]? = some x → parts[i]? = some p → Spells F x.2 p.2) :
      Spells F (.dict kvs) (.beginDict :: ((parts.map fun p => .key p.1 :: p.2).flatten ++ [.endDict]))

theorem Spells.not_end {F : FloatOps} {t : Tree} {ops : List Op} : ¬ Spells F t (.endArray :: ops) := by
  intro h
  generalize hl : Op.endArray :: ops = l at h
  cases h <;> cases hl

/-- Every tree that is not a collection comes from a scalar here. -/
theorem Build.accept_scalar {F : FloatOps} {b : Build} {x : Scalar} : b.accept (x.tree F) = b.put (x.tree F) := by
  cases x <;> rfl

theorem Build.run_append {F : FloatOps} (l r : List Op) : ∀ b : Build,
    b.run F (l ++ r) = ((b.run F l).1.run F r |>.1, (b.run F l).2 ++ ((b.run F l).1.run F r).2) := by
  induction l with
  | nil => intro b; rfl
  | cons op l ih => intro b; simp only [List.cons_append, Build.run, ih]

/-- In an open array every value is accepted. -/
theorem Build.accept_arr (ys : List Tree) (rest : List Frame) (t : Tree) :
    Build.accept { stack := .arr ys :: rest } t = .ok { stack := .arr (ys ++ [t]) :: rest } := by
  cases t <;> rfl

/-- In an open dict with a key every value is accepted. -/
theorem Build.accept_dict (ys : List (List UInt8 × Tree)) (k : List UInt8) (rest : List Frame) (t : Tree) :
    Build.accept { stack := .dict ys (some k) :: rest } t = .ok { stack := .dict (ys ++ [(k, t)]) none :: rest } := by
  cases t <;> rfl

theorem build_items {F : FloatOps} {rest : List Frame} (xs : List Tree) : ∀ {parts : List (List Op)} {ys : List Tree},
    parts.length = xs.length →
    (∀ (i : Nat) x p, xs[i]? = some x → parts[i]? = some p → ∀ {b b' : Build}, b.accept x = .ok b' →
      b.run F p = (b', List.replicate p.length (.ok ()))) →
    Build.run F { stack := .arr ys :: rest } parts.flatten =
      ({ stack := .arr (ys ++ xs) :: rest }, List.replicate parts.flatten.length (.ok ())) := by
  induction xs with
  | nil =>
    intro parts ys hl _
    cases parts with
    | nil => simp [Build.run]
    | cons _ _ => cases hl
  | cons x xs ih =>
    intro parts ys hl he
    cases parts with
    | nil => cases hl
    | cons p parts =>
      have h1 := he 0 x p rfl rfl (Build.accept_arr ys rest x)
      have h2 := ih (parts := parts) (ys := ys ++ [x]) (by simpa using hl)
        (fun i x' p' a b => he (i + 1) x' p' (by simpa using a) (by simpa using b))
      rw [List.flatten_cons, Build.run_append, h1]
      simp only [h2, List.append_assoc, List.cons_append, List.nil_append, List.length_append, List.replicate_append_replicate]

theorem build_entries {F : FloatOps} {rest : List Frame} (xs : List (List UInt8 × Tree)) :
    ∀ {parts : List (RStr × List Op)} {ys : List (List UInt8 × Tree)}, parts.length = xs.length →
    (∀ (i : Nat) x p, xs[i]? = some x → parts[i]? = some p → p.1.bytes = x.1) →
    (∀ (i : Nat) x p, xs[i]? = some x → parts[i]? = some p → ∀ {b b' : Build}, b.accept x.2 = .ok b' →
      b.run F p.2 = (b', List.replicate p.2.length (.ok ()))) →
    Build.run F { stack := .dict ys none :: rest } (parts.map fun p => Op.key p.1 :: p.2).flatten =
      ({ stack := .dict (ys ++ xs) none :: rest },
        List.replicate (parts.map fun p => Op.key p.1 :: p.2).flatten.length (.ok ())) := by
  induction xs with
  | nil =>
    intro parts ys hl _ _
    cases parts with
    | nil => simp [Build.run]
    | cons _ _ => cases hl
  | cons x xs ih =>
    intro parts ys hl hk he
    cases parts with
    | nil => cases hl
    | cons p parts =>
      have h0 := hk 0 x p rfl rfl
      have h1 := he 0 x p rfl rfl (Build.accept_dict ys x.1 rest x.2)
      have h2 := ih (parts := parts) (ys := ys ++ [(x.1, x.2)]) (by simpa using hl)
        (fun i x' p' a b => hk (i + 1) x' p' (by simpa using a) (by simpa using b))
        (fun i x' p' a b => he (i + 1) x' p' (by simpa using a) (by simpa using b))
      rw [List.map_cons, List.flatten_cons, Build.run_append]
      simp only [Build.run, Build.next, Build.step, h0, h1, h2, List.append_assoc, List.cons_append, List.nil_append,
        List.length_append, List.length_cons, List.replicate_succ, List.replicate_append_replicate]

/-- The documented effect of the calls. -/
theorem Spells.build {F : FloatOps} {t : Tree} {ops : List Op} (h : Spells F t ops) : ∀ {b b' : Build},
    b.accept t = .ok b' → b.run F ops = (b', List.replicate ops.length (.ok ())) := by
  induction h with
  | scalar keep =>
    intro b b' ha
    rw [Build.accept_scalar] at ha
    simp [Build.run, Build.next, Build.step, ha]
  | @arr xs parts n cap len each ih =>
    intro b b' ha
    simp only [Build.accept] at ha
    cases ho : b.open (.arr []) .multiTopLevelCollection with
    | error x => rw [ho] at ha; cases ha
    | ok b1 =>
      rw [ho] at ha
      have ha : Build.close b.stack (.arr xs) = b' := by injection ha
      have hb1 : b1 = { stack := .arr [] :: b.stack } := by
        unfold Build.open at ho
        split at ho
        · cases ho
        · next hr =>
          have hr : b.root = none := by simpa using hr
          split at ho <;> cases ho <;> rw [hr]
      have h1 := build_items (F := F) (rest := b.stack) xs (ys := []) len (fun i x p a b => ih i x p a b)
      simp only [Build.run, Build.next, Build.step, ho, hb1]
      rw [Build.run_append, h1]
      simp [Build.run, Build.next, Build.step, ha, List.replicate_succ]
      rw [← List.replicate_succ', List.replicate_succ]
  | @dict kvs parts len keys each ih =>
    intro b b' ha
    simp only [Build.accept] at ha
    cases ho : b.open (.dict [] none) .collectionNotOpen with
    | error x => rw [ho] at ha; cases ha
    | ok b1 =>
      rw [ho] at ha
      have ha : Build.close b.stack (.dict kvs) = b' := by injection ha
      have hb1 : b1 = { stack := .dict [] none :: b.stack } := by
        unfold Build.open at ho
        split at ho
        · cases ho
        · next hr =>
          have hr : b.root = none := by simpa using hr
          split at ho <;> cases ho <;> rw [hr]
      have h1 := build_entries (F := F) (rest := b.stack) kvs (ys := []) len keys (fun i x p a b => ih i x p a b)
      simp only [Build.run, Build.next, Build.step, ho, hb1]
      rw [Build.run_append, h1]
      simp [Build.run, Build.next, Build.step, ha, List.replicate_succ]
      rw [← List.replicate_succ', List.replicate_succ]

/-- A value that is not accepted is refused by the first call. -/
theorem Spells.refused {F : FloatOps} {t : Tree} {ops : List Op} (h : Spells F t ops) {b : Build} {x : EncodeError}
    (ha : b.accept t = .error x) : ∃ op rest, ops = op :: rest ∧ b.next F op = (b, .error x) := by
  cases h with
  | scalar keep =>
    rw [Build.accept_scalar] at ha
    exact ⟨_, _, rfl, by simp [Build.next, Build.step, ha]⟩
  | arr cap len each =>
    refine ⟨_, _, rfl, ?_⟩
    simp only [Build.accept] at ha
    cases ho : b.open (.arr []) .multiTopLevelCollection with
    | error y => rw [ho] at ha; cases ha; simp [Build.next, Build.step, ho]
    | ok b1 => rw [ho] at ha; cases ha
  | dict len keys each =>
    refine ⟨_, _, rfl, ?_⟩
    simp only [Build.accept] at ha
    cases ho : b.open (.dict [] none) .collectionNotOpen with
    | error y => rw [ho] at ha; cases ha; simp [Build.next, Build.step, ho]
    | ok b1 => rw [ho] at ha; cases ha

/-! ## Weight and plainness -/

theorem total_append (l r : List Op) : Op.total (l ++ r) = Op.total l + Op.total r := by simp [Op.total]

theorem total_cons (o : Op) (r : List Op) : Op.total (o :: r) = o.weight + Op.total r := by simp [Op.total]

theorem Spells.total {F : FloatOps} {t : Tree} {ops : List Op} (h : Spells F t ops) : Op.total ops = t.weight := by
  induction h with
  | @scalar x keep => cases x <;> simp [Op.total, Op.weight, Scalar.tree, Tree.weight]
  | @arr xs parts n cap len each ih =>
    have : ∀ (xs : List Tree) (parts : List (List Op)), parts.length = xs.length →
        (∀ (i : Nat) x p, xs[i]? = some x → parts[i]? = some p → Op.total p = x.weight) →
        Op.total parts.flatten = Tree.weights xs := by
      intro xs
      induction xs with
      | nil => intro parts hl _; cases parts <;> first | (cases hl; done) | simp [Op.total, Tree.weights]
      | cons x xs ih2 =>
        intro parts hl he
        cases parts with
        | nil => cases hl
        | cons p parts =>
          rw [List.flatten_cons, total_append, he 0 x p rfl rfl,
            ih2 parts (by simpa using hl) (fun i x' p' a b => he (i + 1) x' p' (by simpa using a) (by simpa using b))]
          simp [Tree.weights]
    rw [total_cons, total_append, this xs parts len ih]
    simp [Op.total, Op.weight, Tree.weight]; omega
  | @dict kvs parts len keys each ih =>
    have : ∀ (xs : List (List UInt8 × Tree)) (parts : List (RStr × List Op)), parts.length = xs.length →
        (∀ (i : Nat) x p, xs[i]? = some x → parts[i]? = some p → p.1.bytes = x.1) →
        (∀ (i : Nat) x p, xs[i]? = some x → parts[i]? = some p → Op.total p.2 = x.2.weight) →
        Op.total (parts.map fun p => Op.key p.1 :: p.2).flatten = Tree.entryWeights xs := by
      intro xs
      induction xs with
      | nil => intro parts hl _ _; cases parts <;> first | (cases hl; done) | simp [Op.total, Tree.entryWeights]
      | cons x xs ih2 =>
        intro parts hl hk he
        cases parts with
        | nil => cases hl
        | cons p parts =>
          have h0 := hk 0 x p rfl rfl
          rw [List.map_cons, List.flatten_cons, total_append, total_cons, he 0 x p rfl rfl,
            ih2 parts (by simpa using hl) (fun i x' p' a b => hk (i + 1) x' p' (by simpa using a) (by simpa using b))
            (fun i x' p' a b => he (i + 1) x' p' (by simpa using a) (by simpa using b))]
          simp [Tree.entryWeights, Op.weight, h0]
    rw [total_cons, total_append, this kvs parts len keys ih]
    simp [Op.total, Op.weight, Tree.weight]; omega

theorem weights_ge (xs : List Tree) : 24 * xs.length ≤ Tree.weights xs := by
  induction xs with
  | nil => simp
  | cons x xs ih =>
    have : 24 ≤ x.weight := by cases x <;> simp [Tree.weight] <;> omega
    simp [Tree.weights]; omega

theorem Spells.plain {F : FloatOps} {t : Tree} {ops : List Op} (h : Spells F t ops) {shared : Bool} (hp : t.Plain shared)
    (hw : t.weight < 2 ^ 60) : ∀ op ∈ ops, op.Plain shared ∧ ∀ n, op = .beginArray n → n * 4 < 2 ^ 63 := by
  induction h with
  | @scalar x keep =>
    intro op hop
    simp only [List.mem_singleton] at hop
    subst hop
    refine ⟨⟨keep, ?_⟩, fun n h => nomatch h⟩
    cases x <;> simp_all [Scalar.tree, Tree.Plain, Scalar.Tiny] <;> omega
  | @arr xs parts n cap len each ih =>
    have hitems : ∀ (xs : List Tree) (parts : List (List Op)), parts.length = xs.length → Tree.Plains shared xs →
        Tree.weights xs < 2 ^ 60 →
        (∀ (i : Nat) x p, xs[i]? = some x → parts[i]? = some p → x.Plain shared → x.weight < 2 ^ 60 →
          ∀ op ∈ p, op.Plain shared ∧ ∀ n, op = .beginArray n → n * 4 < 2 ^ 63) →
        ∀ op ∈ parts.flatten, op.Plain shared ∧ ∀ n, op = .beginArray n → n * 4 < 2 ^ 63 := by
      intro xs
      induction xs with
      | nil => intro parts hl _ _ _; cases parts <;> first | (cases hl; done) | simp
      | cons x xs ih2 =>
        intro parts hl hpl hwl he
        cases parts with
        | nil => cases hl
        | cons p parts =>
          simp only [Tree.Plains] at hpl
          simp only [Tree.weights] at hwl
          intro op hop
          rw [List.flatten_cons, List.mem_append] at hop
          rcases hop with hop | hop
          · exact he 0 x p rfl rfl hpl.1 (by omega) op hop
          · exact ih2 parts (by simpa using hl) hpl.2 (by omega)
              (fun i x' p' a b => he (i + 1) x' p' (by simpa using a) (by simpa using b)) op hop
    simp only [Tree.Plain] at hp
    simp only [Tree.weight] at hw
    have hl := weights_ge xs
    intro op hop
    simp only [List.mem_cons, List.mem_append, List.not_mem_nil, or_false] at hop
    rcases hop with rfl | hop | rfl
    · refine ⟨trivial, fun n h => ?_⟩; cases h; rcases cap with h | h <;> omega
    · exact hitems xs parts len hp (by omega) ih op hop
    · exact ⟨trivial, fun n h => nomatch h⟩
  | @dict kvs parts len keys each ih =>
    have hitems : ∀ (xs : List (List UInt8 × Tree)) (parts : List (RStr × List Op)), parts.length = xs.length →
        Tree.EntriesPlain shared xs → Tree.entryWeights xs < 2 ^ 60 →
        (∀ (i : Nat) x p, xs[i]? = some x → parts[i]? = some p → p.1.bytes = x.1) →
        (∀ (i : Nat) x p, xs[i]? = some x → parts[i]? = some p → x.2.Plain shared → x.2.weight < 2 ^ 60 →
          ∀ op ∈ p.2, op.Plain shared ∧ ∀ n, op = .beginArray n → n * 4 < 2 ^ 63) →
        ∀ op ∈ (parts.map fun p => Op.key p.1 :: p.2).flatten, op.Plain shared ∧ ∀ n, op = .beginArray n → n * 4 < 2 ^ 63 := by
      intro xs
      induction xs with
      | nil => intro parts hl _ _ _ _; cases parts <;> first | (cases hl; done) | simp
      | cons x xs ih2 =>
        intro parts hl hpl hwl hk he
        cases parts with
        | nil => cases hl
        | cons p parts =>
          simp only [Tree.EntriesPlain] at hpl
          simp only [Tree.entryWeights] at hwl
          intro op hop
          rw [List.map_cons, List.flatten_cons, List.mem_append, List.mem_cons] at hop
          have h0 := hk 0 x p rfl rfl
          rcases hop with (rfl | hop) | hop
          · refine ⟨?_, fun n h => nomatch h⟩
            show 2 ≤ p.1.bytes.length ∧ p.1.bytes.length < 2 ^ 63 ∧ (shared = true → p.1.bytes.length ≠ 16)
            rw [h0]
            exact ⟨hpl.1, hpl.2.1, hpl.2.2.1⟩
          · exact he 0 x p rfl rfl hpl.2.2.2.1 (by omega) op hop
          · exact ih2 parts (by simpa using hl) hpl.2.2.2.2 (by omega)
              (fun i x' p' a b => hk (i + 1) x' p' (by simpa using a) (by simpa using b))
              (fun i x' p' a b => he (i + 1) x' p' (by simpa using a) (by simpa using b)) op hop
    simp only [Tree.Plain] at hp
    simp only [Tree.weight] at hw
    intro op hop
    simp only [List.mem_cons, List.mem_append, List.not_mem_nil, or_false] at hop
    rcases hop with rfl | hop | rfl
    · exact ⟨trivial, fun n h => nomatch h⟩
    · exact hitems kvs parts len hp (by omega) keys ih op hop
    · exact ⟨trivial, fun n h => nomatch h⟩

end Fleece
