import Verif.Spec.Serde
import Verif.Proofs.WriteOps
import Verif.Props.C18
import Verif.Props.C20

/-!
# Serializing as a sequence of calls
-/

namespace Fleece
open Res

/-! ## Scripts -/

/-- A call, or a key that is not a string. -/
inductive SStep where
  | op (o : Op)
  | bad (k : KeyType)

/-- The steps, up to the first that fails. -/
def Ser.runScript (c : Cfg) : List SStep → Enc → Ser.Out
  | [], e => .ok (e, .ok ())
  | .op o :: ss, e => Ser.andThen (Ser.call (e.step c o)) fun e => runScript c ss e
  | .bad k :: _, e => .ok (e, .error (.keyNotString k))

theorem Ser.andThen_assoc (x : Ser.Out) (f g : Enc → Ser.Out) :
    Ser.andThen (Ser.andThen x f) g = Ser.andThen x fun e => Ser.andThen (f e) g := by
  unfold Ser.andThen
  cases x with
  | err e => cases e
  | ok p => obtain ⟨e, r⟩ := p; cases r <;> rfl
  | panic => rfl
  | ub => rfl
  | diverge => rfl

theorem Ser.andThen_done (x : Ser.Out) : (Ser.andThen x fun e => .ok (e, .ok ())) = x := by
  unfold Ser.andThen
  cases x with
  | err e => cases e
  | ok p => obtain ⟨e, r⟩ := p; cases r <;> rfl
  | panic => rfl
  | ub => rfl
  | diverge => rfl

theorem Ser.runScript_append (c : Cfg) (l r : List SStep) : ∀ e : Enc,
    Ser.runScript c (l ++ r) e = Ser.andThen (Ser.runScript c l e) fun e => Ser.runScript c r e := by
  induction l with
  | nil => intro e; rfl
  | cons s l ih =>
    intro e
    cases s with
    | op o =>
      simp only [List.cons_append, Ser.runScript]
      rw [Ser.andThen_assoc]
      congr 1
      funext e
      exact ih e
    | bad k => rfl

theorem Ser.runScript_op (c : Cfg) (o : Op) (e : Enc) : Ser.runScript c [.op o] e = Ser.call (e.step c o) := by
  simp only [Ser.runScript, Ser.andThen_done]

/-- The step for a key. -/
def SVal.keyStep (k : SVal) : SStep :=
  match k.key with
  | .ok s => .op (.key s)
  | .error t => .bad t

mutual
/-- What serializing a value does. -/
def SVal.script : SVal → List SStep
  | .prim p => [.op (.value p.scalar)]
  | .char s => [.op (.value (.str s))]
  | .none => [.op (.value .null)]
  | .some v => v.script
  | .unit => [.op (.value .undefined)]
  | .unitStruct => [.op (.value .null)]
  | .unitVariant name => .op (.beginArray 1) :: ([[.op (.value (.str name))]].flatten ++ [.op .endArray])
  | .newtypeStruct v => v.script
  | .newtypeVariant name v => .op (.beginArray 2) :: ([[.op (.value (.str name))], v.script].flatten ++ [.op .endArray])
  | .seq hint vs => .op (.beginArray (hint.getD 10)) :: ((SVal.scripts vs).flatten ++ [.op .endArray])
  | .tuple vs => .op (.beginArray vs.length) :: ((SVal.scripts vs).flatten ++ [.op .endArray])
  | .tupleVariant name vs => .op (.beginArray 3) :: ([[.op (.value (.str name))],
      .op (.beginArray vs.length) :: ((SVal.scripts vs).flatten ++ [.op .endArray])].flatten ++ [.op .endArray])
  | .map kvs => .op .beginDict :: ((SVal.entryScripts kvs).flatten ++ [.op .endDict])
  | .struct fs => .op .beginDict :: ((SVal.fieldScripts fs).flatten ++ [.op .endDict])
  | .structVariant name fs => .op (.beginArray (fs.length + 2)) :: ([[.op (.value (.str name))],
      .op .beginDict :: ((SVal.fieldScripts fs).flatten ++ [.op .endDict])].flatten ++ [.op .endArray])

def SVal.scripts : List SVal → List (List SStep)
  | [] => []
  | v :: vs => v.script :: SVal.scripts vs

def SVal.entryScripts : List (SVal × SVal) → List (List SStep)
  | [] => []
  | kv :: kvs => (kv.1.keyStep :: kv.2.script) :: SVal.entryScripts kvs

def SVal.fieldScripts : List (RStr × SVal) → List (List SStep)
  | [] => []
  | f :: fs => (.op (.key f.1) :: f.2.script) :: SVal.fieldScripts fs
end

mutual
theorem Ser.value_script (c : Cfg) : ∀ (x : SVal) (e : Enc), Ser.value c x e = Ser.runScript c x.script e
  | .prim p, e => by simp only [Ser.value, SVal.script, Ser.runScript_op]; rfl
  | .char s, e => by simp only [Ser.value, SVal.script, Ser.runScript_op]; rfl
  | .none, e => by simp only [Ser.value, SVal.script, Ser.runScript_op]; rfl
  | .some v, e => by simp only [Ser.value, SVal.script]; exact Ser.value_script c v e
  | .unit, e => by simp only [Ser.value, SVal.script, Ser.runScript_op]; rfl
  | .unitStruct, e => by simp only [Ser.value, SVal.script, Ser.runScript_op]; rfl
  | .unitVariant name, e => by
    simp only [Ser.value, SVal.script, List.flatten_cons, List.flatten_nil, List.append_nil, List.cons_append,
      List.nil_append, Ser.runScript, Ser.andThen_done]; rfl
  | .newtypeStruct v, e => by simp only [Ser.value, SVal.script]; exact Ser.value_script c v e
  | .newtypeVariant name v, e => by
    simp only [Ser.value, SVal.script, List.flatten_cons, List.flatten_nil, List.append_nil, List.cons_append,
      List.nil_append, Ser.runScript, Ser.runScript_append, Ser.andThen_done, Ser.value_script c v]; rfl
  | .seq hint vs, e => by
    simp only [Ser.value, SVal.script, Ser.runScript, Ser.runScript_append, Ser.andThen_done, Ser.values_script c vs]; rfl
  | .tuple vs, e => by
    simp only [Ser.value, SVal.script, Ser.runScript, Ser.runScript_append, Ser.andThen_done, Ser.values_script c vs]; rfl
  | .tupleVariant name vs, e => by
    simp only [Ser.value, SVal.script, List.flatten_cons, List.flatten_nil, List.append_nil, List.cons_append,
      List.nil_append, Ser.runScript, Ser.runScript_append, Ser.andThen_done, Ser.andThen_assoc, Ser.values_script c vs]
    rfl
  | .map kvs, e => by
    simp only [Ser.value, SVal.script, Ser.runScript, Ser.runScript_append, Ser.andThen_done, Ser.entries_script c kvs]; rfl
  | .struct fs, e => by
    simp only [Ser.value, SVal.script, Ser.runScript, Ser.runScript_append, Ser.andThen_done, Ser.fields_script c fs]; rfl
  | .structVariant name fs, e => by
    simp only [Ser.value, SVal.script, List.flatten_cons, List.flatten_nil, List.append_nil, List.cons_append,
      List.nil_append, Ser.runScript, Ser.runScript_append, Ser.andThen_done, Ser.andThen_assoc, Ser.fields_script c fs]
    rfl

theorem Ser.values_script (c : Cfg) : ∀ (vs : List SVal) (e : Enc),
    Ser.values c vs e = Ser.runScript c (SVal.scripts vs).flatten e
  | [], e => by simp only [Ser.values, SVal.scripts, List.flatten_nil, Ser.runScript]
  | v :: vs, e => by
    simp only [Ser.values, SVal.scripts, List.flatten_cons, Ser.runScript_append, Ser.value_script c v,
      Ser.values_script c vs]

theorem Ser.entries_script (c : Cfg) : ∀ (kvs : List (SVal × SVal)) (e : Enc),
    Ser.entries c kvs e = Ser.runScript c (SVal.entryScripts kvs).flatten e
  | [], e => by simp only [Ser.entries, SVal.entryScripts, List.flatten_nil, Ser.runScript]
  | kv :: kvs, e => by
    simp only [Ser.entries, SVal.entryScripts, List.flatten_cons, List.cons_append, Ser.key, SVal.keyStep]
    cases hk : kv.1.key with
    | ok s =>
      simp only [Ser.runScript, Ser.runScript_append, Ser.value_script c kv.2, Ser.entries_script c kvs]; rfl
    | error t => simp only [Ser.runScript]; rfl

theorem Ser.fields_script (c : Cfg) : ∀ (fs : List (RStr × SVal)) (e : Enc),
    Ser.fields c fs e = Ser.runScript c (SVal.fieldScripts fs).flatten e
  | [], e => by simp only [Ser.fields, SVal.fieldScripts, List.flatten_nil, Ser.runScript]
  | f :: fs, e => by
    simp only [Ser.fields, SVal.fieldScripts, List.flatten_cons, List.cons_append, Ser.runScript, Ser.runScript_append,
      Ser.value_script c f.2, Ser.fields_script c fs]; rfl
end

/-! ## Bad keys -/

/-- The first bad key of a script. -/
def SStep.firstBad : List SStep → Option KeyType
  | [] => none
  | .op _ :: ss => firstBad ss
  | .bad k :: _ => some k

theorem SStep.firstBad_append (l r : List SStep) : firstBad (l ++ r) = (firstBad l).or (firstBad r) := by
  induction l with
  | nil => rfl
  | cons s l ih => cases s <;> simp [firstBad, ih]

/-- `MapKeySerializer` takes strings and `char`s, and names the type of everything else. -/
theorem SVal.key_text : ∀ k : SVal, k.key =
    match k.text with
    | Option.some s => .ok s
    | Option.none => .error k.kind
  | .prim (.bool _) => rfl
  | .prim (.int _ _) => rfl
  | .prim (.f32 _) => rfl
  | .prim (.f64 _) => rfl
  | .prim (.str _) => rfl
  | .prim (.bytes _) => rfl
  | .char _ => rfl
  | .none => rfl
  | .some v => SVal.key_text v
  | .unit => rfl
  | .unitStruct => rfl
  | .unitVariant _ => rfl
  | .newtypeStruct v => SVal.key_text v
  | .newtypeVariant _ _ => rfl
  | .seq _ _ => rfl
  | .tuple _ => rfl
  | .tupleVariant _ _ => rfl
  | .map _ => rfl
  | .struct _ => rfl
  | .structVariant _ _ => rfl

mutual
theorem badKey_script : ∀ x : SVal, SStep.firstBad x.script = x.badKey
  | .prim p => by simp [SVal.script, SVal.badKey, SStep.firstBad]
  | .char s => by simp [SVal.script, SVal.badKey, SStep.firstBad]
  | .none => by simp [SVal.script, SVal.badKey, SStep.firstBad]
  | .some v => by simp [SVal.script, SVal.badKey, badKey_script v]
  | .unit => by simp [SVal.script, SVal.badKey, SStep.firstBad]
  | .unitStruct => by simp [SVal.script, SVal.badKey, SStep.firstBad]
  | .unitVariant name => by simp [SVal.script, SVal.badKey, SStep.firstBad]
  | .newtypeStruct v => by simp [SVal.script, SVal.badKey, badKey_script v]
  | .newtypeVariant name v => by
    simp [SVal.script, SVal.badKey, SStep.firstBad, SStep.firstBad_append, badKey_script v]
  | .seq hint vs => by simp [SVal.script, SVal.badKey, SStep.firstBad, SStep.firstBad_append, badKeys_script vs]
  | .tuple vs => by simp [SVal.script, SVal.badKey, SStep.firstBad, SStep.firstBad_append, badKeys_script vs]
  | .tupleVariant name vs => by
    simp [SVal.script, SVal.badKey, SStep.firstBad, SStep.firstBad_append, badKeys_script vs]
  | .map kvs => by simp [SVal.script, SVal.badKey, SStep.firstBad, SStep.firstBad_append, badEntries_script kvs]
  | .struct fs => by simp [SVal.script, SVal.badKey, SStep.firstBad, SStep.firstBad_append, badFields_script fs]
  | .structVariant name fs => by
    simp [SVal.script, SVal.badKey, SStep.firstBad, SStep.firstBad_append, badFields_script fs]

theorem badKeys_script : ∀ vs : List SVal, SStep.firstBad (SVal.scripts vs).flatten = SVal.badKeys vs
  | [] => by simp [SVal.scripts, SVal.badKeys, SStep.firstBad]
  | v :: vs => by simp [SVal.scripts, SVal.badKeys, SStep.firstBad_append, badKey_script v, badKeys_script vs]

theorem badEntries_script : ∀ kvs : List (SVal × SVal),
    SStep.firstBad (SVal.entryScripts kvs).flatten = SVal.badEntries kvs
  | [] => by simp [SVal.entryScripts, SVal.badEntries, SStep.firstBad]
  | kv :: kvs => by
    simp only [SVal.entryScripts, SVal.badEntries, List.flatten_cons, List.cons_append, SVal.keyStep]
    rw [SVal.key_text]
    cases kv.1.text with
    | some s => simp [SStep.firstBad, SStep.firstBad_append, badKey_script kv.2, badEntries_script kvs]
    | none => simp [SStep.firstBad]

theorem badFields_script : ∀ fs : List (RStr × SVal),
    SStep.firstBad (SVal.fieldScripts fs).flatten = SVal.badFields fs
  | [] => by simp [SVal.fieldScripts, SVal.badFields, SStep.firstBad]
  | f :: fs => by
    simp [SVal.fieldScripts, SVal.badFields, SStep.firstBad, SStep.firstBad_append, badKey_script f.2,
      badFields_script fs]
end

/-- The call in the place of a step. -/
def SStep.toOp : SStep → Op
  | .op o => o
  | .bad _ => .key badKeyText

theorem keyStep_toOp (k : SVal) : k.keyStep.toOp = .key k.keyText := by
  unfold SVal.keyStep SVal.keyText
  rw [SVal.key_text]
  cases k.text <;> rfl

/-- Running a script, if the calls in it go well. -/
theorem Ser.runScript_run (c : Cfg) (ss : List SStep) : ∀ {e e' : Enc} {rs : List (Except EncodeError Unit)},
    e.run c (ss.map SStep.toOp) = .ok (e', rs) → (∀ r ∈ rs, r = .ok ()) →
    match SStep.firstBad ss with
    | none => Ser.runScript c ss e = .ok (e', .ok ())
    | some k => ∃ e1, Ser.runScript c ss e = .ok (e1, .error (.keyNotString k)) := by
  induction ss with
  | nil => intro e e' rs h _; cases h; rfl
  | cons s ss ih =>
    intro e e' rs h hr
    rw [List.map_cons] at h
    obtain ⟨e1, r, rs', h1, h2, rfl⟩ := Enc.run_cons h
    have h0 := hr r (by simp)
    subst h0
    cases s with
    | bad k => exact ⟨e, rfl⟩
    | op o =>
      have := ih h2 fun r hx => hr r (by simp [hx])
      have h1 : e.step c o = .ok (e1, .ok ()) := h1
      simp only [SStep.firstBad, Ser.runScript, h1]
      exact this

/-! ## The calls spell the document -/

theorem trees_length (F : FloatOps) : ∀ vs : List SVal, (SVal.trees F vs).length = vs.length
  | [] => by simp [SVal.trees]
  | v :: vs => by simp [SVal.trees, trees_length F vs]

theorem fieldTrees_length (F : FloatOps) : ∀ fs : List (RStr × SVal), (SVal.fieldTrees F fs).length = fs.length
  | [] => by simp [SVal.fieldTrees]
  | v :: vs => by simp [SVal.fieldTrees, fieldTrees_length F vs]

theorem entryWeights_ge (xs : List (List UInt8 × Tree)) : 24 * xs.length ≤ Tree.entryWeights xs := by
  induction xs with
  | nil => simp
  | cons x xs ih =>
    have : 24 ≤ x.2.weight := by cases x.2 <;> simp [Tree.weight] <;> omega
    simp [Tree.entryWeights]; omega

/-- A variant with data. -/
theorem Spells.pair {F : FloatOps} {t : Tree} {ops : List Op} {name : RStr} {n : Nat} (h : Spells F t ops)
    (hname : (Scalar.str name).Survives) (cap : n ≤ Tree.weights [.str name.bytes, t] ∨ n * 4 < 2 ^ 63) :
    Spells F (.arr [.str name.bytes, t]) (.beginArray n :: .value (.str name) :: (ops ++ [.endArray])) := by
  have := Spells.arr (F := F) (xs := [.str name.bytes, t]) (parts := [[.value (.str name)], ops]) cap rfl (by
    intro i x p hx hp
    match i with
    | 0 => simp at hx hp; subst hx; subst hp; exact .scalar (x := .str name) hname
    | 1 => simp at hx hp; subst hx; subst hp; exact h
    | i + 2 => simp at hx)
  simpa using this

mutual
theorem sval_spells (F : FloatOps) (K : RStr → Prop) : ∀ x : SVal, x.Every Scalar.Survives K →
    Spells F (x.tree F) (x.script.map SStep.toOp)
  | .prim p, h => by simp only [SVal.Every] at h; exact .scalar h
  | .char s, h => by simp only [SVal.Every] at h; exact .scalar (x := .str s) h
  | .none, _ => .scalar (x := .null) trivial
  | .some v, h => by simp only [SVal.Every] at h; exact sval_spells F K v h
  | .unit, _ => .scalar (x := .undefined) trivial
  | .unitStruct, _ => .scalar (x := .null) trivial
  | .unitVariant name, h => by
    simp only [SVal.Every] at h
    refine Spells.arr (F := F) (n := 1) (parts := [[.value (.str name)]]) (Or.inr (by simp)) rfl ?_
    intro i x p hx hp
    match i with
    | 0 => simp at hx hp; subst hx; subst hp; exact .scalar (x := .str name) h
    | i + 1 => simp at hx
  | .newtypeStruct v, h => by simp only [SVal.Every] at h; exact sval_spells F K v h
  | .newtypeVariant name v, h => by
    simp only [SVal.Every] at h
    have hv := sval_spells F K v h.2
    have := hv.pair h.1 (n := 2) (Or.inr (by simp))
    simpa [SVal.script, SVal.tree, SStep.toOp] using this
  | .seq hint vs, h => by
    simp only [SVal.Every] at h
    obtain ⟨h1, h2⟩ := sval_spellsAll F K vs h.2
    have := Spells.arr (F := F) (n := hint.getD 10) (by
      have hl := trees_length F vs
      have hg := weights_ge (SVal.trees F vs)
      cases hint with
      | none => exact Or.inr (by simp)
      | some n =>
        rcases h.1 n rfl with h | h
        · left; simp only [Option.getD_some]; omega
        · right; simpa using h) h1 h2
    simpa [SVal.script, SVal.tree, SStep.toOp, List.map_flatten] using this
  | .tuple vs, h => by
    simp only [SVal.Every] at h
    obtain ⟨h1, h2⟩ := sval_spellsAll F K vs h
    have := Spells.arr (F := F) (n := vs.length) (by have := trees_length F vs; have := weights_ge (SVal.trees F vs); omega) h1 h2
    simpa [SVal.script, SVal.tree, SStep.toOp, List.map_flatten] using this
  | .tupleVariant name vs, h => by
    simp only [SVal.Every] at h
    obtain ⟨h1, h2⟩ := sval_spellsAll F K vs h.2
    have hv := Spells.arr (F := F) (n := vs.length) (by have := trees_length F vs; have := weights_ge (SVal.trees F vs); omega) h1 h2
    have := hv.pair h.1 (n := 3) (Or.inr (by simp))
    simpa [SVal.script, SVal.tree, SStep.toOp, List.map_flatten] using this
  | .map kvs, h => by
    simp only [SVal.Every] at h
    obtain ⟨parts, h1, h2, h3, h4⟩ := sval_spellsEntries F K kvs h
    have := Spells.dict (F := F) h1 h2 h3
    simpa [SVal.script, SVal.tree, SStep.toOp, List.map_flatten, h4] using this
  | .struct fs, h => by
    simp only [SVal.Every] at h
    obtain ⟨parts, h1, h2, h3, h4⟩ := sval_spellsFields F K fs h
    have := Spells.dict (F := F) h1 h2 h3
    simpa [SVal.script, SVal.tree, SStep.toOp, List.map_flatten, h4] using this
  | .structVariant name fs, h => by
    simp only [SVal.Every] at h
    obtain ⟨parts, h1, h2, h3, h4⟩ := sval_spellsFields F K fs h.2
    have hv := Spells.dict (F := F) h1 h2 h3
    have hl := fieldTrees_length F fs
    have hg := entryWeights_ge (SVal.fieldTrees F fs)
    have := hv.pair h.1 (n := fs.length + 2) (Or.inl (by simp [Tree.weights, Tree.weight]; omega))
    simpa [SVal.script, SVal.tree, SStep.toOp, List.map_flatten, h4] using this

theorem sval_spellsAll (F : FloatOps) (K : RStr → Prop) : ∀ vs : List SVal, SVal.EveryOf Scalar.Survives K vs →
    ((SVal.scripts vs).map (·.map SStep.toOp)).length = (SVal.trees F vs).length ∧
      ∀ (i : Nat) x p, (SVal.trees F vs)[i]? = some x → ((SVal.scripts vs).map (·.map SStep.toOp))[i]? = some p →
        Spells F x p
  | [], _ => by simp [SVal.scripts, SVal.trees]
  | v :: vs, h => by
    simp only [SVal.EveryOf] at h
    have h0 := sval_spells F K v h.1
    obtain ⟨h1, h2⟩ := sval_spellsAll F K vs h.2
    refine ⟨by simpa [SVal.scripts, SVal.trees] using h1, ?_⟩
    intro i x p hx hp
    cases i with
    | zero => simp [SVal.scripts, SVal.trees] at hx hp; subst hx; subst hp; exact h0
    | succ i => exact h2 i x p (by simpa [SVal.trees] using hx) (by simpa [SVal.scripts] using hp)

theorem sval_spellsEntries (F : FloatOps) (K : RStr → Prop) : ∀ kvs : List (SVal × SVal),
    SVal.EveryEntry Scalar.Survives K kvs →
    ∃ parts : List (RStr × List Op), parts.length = (SVal.entryTrees F kvs).length ∧
      (∀ (i : Nat) x p, (SVal.entryTrees F kvs)[i]? = some x → parts[i]? = some p → p.1.bytes = x.1) ∧
      (∀ (i : Nat) x p, (SVal.entryTrees F kvs)[i]? = some x → parts[i]? = some p → Spells F x.2 p.2) ∧
      (SVal.entryScripts kvs).map (·.map SStep.toOp) = parts.map fun p => .key p.1 :: p.2
  | [], _ => ⟨[], by simp [SVal.entryScripts, SVal.entryTrees]⟩
  | kv :: kvs, h => by
    simp only [SVal.EveryEntry] at h
    have h0 := sval_spells F K kv.2 h.2.1
    obtain ⟨parts, h1, h2, h3, h4⟩ := sval_spellsEntries F K kvs h.2.2
    refine ⟨(kv.1.keyText, kv.2.script.map SStep.toOp) :: parts, by simpa [SVal.entryTrees] using h1, ?_, ?_, ?_⟩
    · intro i x p hx hp
      cases i with
      | zero => simp [SVal.entryTrees] at hx hp; subst hx; subst hp; rfl
      | succ i => exact h2 i x p (by simpa [SVal.entryTrees] using hx) (by simpa using hp)
    · intro i x p hx hp
      cases i with
      | zero => simp [SVal.entryTrees] at hx hp; subst hx; subst hp; exact h0
      | succ i => exact h3 i x p (by simpa [SVal.entryTrees] using hx) (by simpa using hp)
    · simp [SVal.entryScripts, keyStep_toOp, h4]

theorem sval_spellsFields (F : FloatOps) (K : RStr → Prop) : ∀ fs : List (RStr × SVal),
    SVal.EveryField Scalar.Survives K fs →
    ∃ parts : List (RStr × List Op), parts.length = (SVal.fieldTrees F fs).length ∧
      (∀ (i : Nat) x p, (SVal.fieldTrees F fs)[i]? = some x → parts[i]? = some p → p.1.bytes = x.1) ∧
      (∀ (i : Nat) x p, (SVal.fieldTrees F fs)[i]? = some x → parts[i]? = some p → Spells F x.2 p.2) ∧
      (SVal.fieldScripts fs).map (·.map SStep.toOp) = parts.map fun p => .key p.1 :: p.2
  | [], _ => ⟨[], by simp [SVal.fieldScripts, SVal.fieldTrees]⟩
  | f :: fs, h => by
    simp only [SVal.EveryField] at h
    have h0 := sval_spells F K f.2 h.2.1
    obtain ⟨parts, h1, h2, h3, h4⟩ := sval_spellsFields F K fs h.2.2
    refine ⟨(f.1, f.2.script.map SStep.toOp) :: parts, by simpa [SVal.fieldTrees] using h1, ?_, ?_, ?_⟩
    · intro i x p hx hp
      cases i with
      | zero => simp [SVal.fieldTrees] at hx hp; subst hx; subst hp; rfl
      | succ i => exact h2 i x p (by simpa [SVal.fieldTrees] using hx) (by simpa using hp)
    · intro i x p hx hp
      cases i with
      | zero => simp [SVal.fieldTrees] at hx hp; subst hx; subst hp; exact h0
      | succ i => exact h3 i x p (by simpa [SVal.fieldTrees] using hx) (by simpa using hp)
    · simp [SVal.fieldScripts, SStep.toOp, h4]
end

end Fleece
