import Verif.Proofs.Scoped
import Verif.Props.C36
import Verif.Props.C30
import Verif.Props.C34

/-!
# C49 A document is read through its scope

Full claim: what is obtained from a scope (`Scope::root`, and everything reached from it) reads as what was encoded, for as long
as it can be held. It is proved while the scope is alive and not removed, in every legal history of the registry (C35). It is
false afterwards: the values can still be held, but the dicts in them with shared keys lose all their entries (`C49_refuted`).
-/

namespace Fleece.Props
open Fleece Res

/-! ## Scopes keep what they were made of -/

/-- What a scope record holds, apart from whether somebody holds it. -/
def SameScope (s t : ScopeRec) : Prop := t.sk = s.sk ∧ t.buf = s.buf ∧ t.root = s.root

theorem step_scope {r : Registry} {op : ScopeOp} {id : Nat} {s : ScopeRec} (h : r.scopes[id]? = some s) :
    ∃ t, (r.step op).1.scopes[id]? = some t ∧ SameScope s t := by
  cases op with
  | new m sk =>
    have key : (r.new m sk).1.scopes = r.scopes ∨ ∃ x, (r.new m sk).1.scopes = r.scopes ++ [x] := by
      unfold Registry.new
      split
      · exact .inl rfl
      · split
        · split
          · exact .inl rfl
          · exact .inr ⟨_, rfl⟩
        · exact .inl rfl
        · rename_i x _; exact nomatch x
        · exact .inl rfl
        · exact .inl rfl
    have hs : (r.step (.new m sk)).1.scopes = (r.new m sk).1.scopes := by
      unfold Registry.step
      dsimp only
      generalize r.new m sk = x
      obtain ⟨a, b⟩ := x
      cases b with
      | err e => cases e
      | _ => rfl
    rw [hs]
    rcases key with key | ⟨x, key⟩
    · rw [key]; exact ⟨s, h, rfl, rfl, rfl⟩
    · rw [key]
      refine ⟨s, ?_, rfl, rfl, rfl⟩
      rw [List.getElem?_append_left (List.getElem?_eq_some_iff.mp h).1]
      exact h
  | remove i =>
    refine ⟨s, ?_, rfl, rfl, rfl⟩
    unfold Registry.step
    dsimp only
    cases r.scopes[i]? with
    | none => exact h
    | some x => unfold Registry.remove; dsimp only; split <;> exact h
  | drop i =>
    refine ⟨if id = i then { s with alive := false } else s, ?_, ?_⟩
    · simp only [Registry.step, Registry.drop, List.getElem?_mapIdx, h, Option.map_some]
    · split <;> exact ⟨rfl, rfl, rfl⟩

theorem run_scope (ops : List ScopeOp) : ∀ {r : Registry} {id : Nat} {s : ScopeRec}, r.scopes[id]? = some s →
    ∃ t, (r.run ops).1.scopes[id]? = some t ∧ SameScope s t := by
  induction ops with
  | nil => intro r id s h; exact ⟨s, h, rfl, rfl, rfl⟩
  | cons op ops ih =>
    intro r id s h
    obtain ⟨t, h1, h2, h3, h4⟩ := step_scope (op := op) h
    obtain ⟨u, g1, g2, g3, g4⟩ := ih h1
    exact ⟨u, g1, by rw [g2, h2], by rw [g3, h3], by rw [g4, h4]⟩

/-- **C49, accessors.** Whatever happens in the registry after a scope was made, its accessors give what it was made of. -/
theorem C49_accessors (r r' : Registry) (m : Mem) (sk : Option SharedKeys) (id : Nat) (h : r.new m sk = (r', .ok id))
    (ops : List ScopeOp) :
    ∃ s, (r'.run ops).1.scopes[id]? = some s ∧ s.sharedKeys = sk ∧ s.data = some m ∧
      s.range = some (m.base, m.base + m.data.length) ∧
      (∀ v, fromBytes m = .ok v → s.rootValue = some ⟨m, v⟩) ∧ (∀ e, fromBytes m = .err e → s.rootValue = none) := by
  unfold Registry.new at h
  split at h
  · cases h
  cases hx : Registry.rootOrNone m with
  | err e => cases e
  | panic => rw [hx] at h; cases h
  | ub => rw [hx] at h; cases h
  | diverge => rw [hx] at h; cases h
  | ok x =>
    rw [hx] at h
    dsimp only at h
    split at h
    · cases h
    · cases h
      obtain ⟨t, h1, h2, h3, h4⟩ := run_scope ops (r := { r with
        scopes := r.scopes ++ [⟨sk, m, x, true⟩]
        map := fun a => if m.holds a then some r.scopes.length else r.map a }) (id := r.scopes.length) (s := ⟨sk, m, x, true⟩) (by simp)
      dsimp only at h2 h3 h4
      refine ⟨t, h1, h2, by simp only [ScopeRec.data, h3], by simp only [ScopeRec.range, ScopeRec.data, h3, Option.map_some], ?_, ?_⟩
      · intro v hv
        simp only [Registry.rootOrNone, hv] at hx
        cases hx
        simp only [ScopeRec.rootValue, ScopeRec.data, h3, h4, Option.bind_some, Option.map_some]
      · intro e he
        simp only [Registry.rootOrNone, he] at hx
        cases hx
        simp only [ScopeRec.rootValue, ScopeRec.data, h4, Option.bind_some, Option.map_none]

/-! ## Histories -/

theorem run_append (ops ops' : List ScopeOp) : ∀ (r : Registry), (r.run (ops ++ ops')).1 = ((r.run ops).1.run ops').1 := by
  induction ops with
  | nil => intro r; rfl
  | cons op ops ih => intro r; exact ih _

theorem bookRun_append (ops ops' : List ScopeOp) : ∀ b, bookRun b (ops ++ ops') = bookRun (bookRun b ops) ops' := by
  induction ops with
  | nil => intro b; rfl
  | cons op ops ih => intro b; exact ih _

theorem legalRun_append (ops ops' : List ScopeOp) : ∀ b, LegalRun b (ops ++ ops') ↔ LegalRun b ops ∧ LegalRun (bookRun b ops) ops' := by
  induction ops with
  | nil => intro b; simp [LegalRun, bookRun]
  | cons op ops ih => intro b; simp only [List.cons_append, LegalRun, ih, bookRun, and_assoc]

/-- The scope is neither removed nor dropped in this history. -/
def Spares (id : Nat) (ops : List ScopeOp) : Prop := .remove id ∉ ops ∧ .drop id ∉ ops

theorem bookRun_spared (ops : List ScopeOp) : ∀ {b : List Owner} {id : Nat} {o : Owner}, b[id]? = some o → Spares id ops →
    (bookRun b ops)[id]? = some o := by
  induction ops with
  | nil => intro b id o h _; exact h
  | cons op ops ih =>
    intro b id o h hs
    refine ih ?_ ⟨fun hm => hs.1 (List.mem_cons_of_mem _ hm), fun hm => hs.2 (List.mem_cons_of_mem _ hm)⟩
    cases op with
    | new m sk => rw [bookStep, List.getElem?_append_left (List.getElem?_eq_some_iff.mp h).1]; exact h
    | remove i =>
      have hne : i ≠ id := by rintro rfl; exact hs.1 List.mem_cons_self
      rw [bookStep, modify_get, h]; simp [hne]
    | drop i =>
      have hne : i ≠ id := by rintro rfl; exact hs.2 List.mem_cons_self
      rw [bookStep, modify_get, h]; simp [hne]

/-- A scope made in a legal history and spared since: the registry has its keys for all its addresses, and its record. -/
theorem scope_uniform (before after : List ScopeOp) (m : Mem) (sk : Option SharedKeys)
    (hl : LegalRun [] (before ++ .new m sk :: after)) (hs : Spares (bookRun [] before).length after) :
    (Registry.run {} (before ++ .new m sk :: after)).1.Uniform m sk := by
  intro a h1 h2
  have hb : (bookRun [] (before ++ .new m sk :: after))[(bookRun [] before).length]? =
      some ⟨m.base, m.data.length, sk, true, false⟩ := by
    rw [bookRun_append]
    exact bookRun_spared after (by simp [bookStep]) hs
  exact (C35_shared_keys _ hl a).1 _ _ ⟨_, hb, rfl, rfl, h1, h2⟩ hb

theorem endGo_sk {c : Cfg} {sk : Option SharedKeys} (hsk : ∀ s, sk = some s → s.WF) {ops : List Op} {e e' : Enc}
    (hsize : Op.total ops ≤ SizedValue.maxWide) {rs : List (Except EncodeError Unit)}
    (h : ({ Enc.new with sk } : Enc).run c ops = .ok (e, rs)) (he : Enc.endGo c e.stack.length e = .ok e') : e'.sk = e.sk := by
  have hphi := newWith_phi sk
  obtain ⟨hw, hp, _⟩ := Enc.run_inv ops (newWith_wf hsk) (by omega) h
  rw [Enc.endGo_eq _ hw (by omega) rfl] at he
  cases he
  exact (Enc.closeN_inv e.stack.length hw (by omega)).2.2.2.2

/-- `finish_scoped` is `Scope::new` of what `finish` returns, with the encoder's shared keys. -/
theorem C49_finish_scoped (r : Registry) (c : Cfg) (sk : Option SharedKeys) (hsk : ∀ s, sk = some s → s.WF) (ops : List Op)
    (hsize : Op.total ops ≤ SizedValue.maxWide) (e : Enc) (rs : List (Except EncodeError Unit))
    (h : ({ Enc.new with sk } : Enc).run c ops = .ok (e, rs)) (base : Nat) (out : List UInt8) (hf : e.finish c = .ok out) :
    r.finishScoped c e base = r.new ⟨out, base, c.dbg⟩ e.sk := by
  unfold Enc.finish at hf
  obtain ⟨e', he, ho⟩ := bind_eq_ok.mp hf
  cases ho
  rw [Registry.finishScoped, he]
  dsimp only
  rw [endGo_sk hsk hsize h he]

/-- `Scope::new` in a legal history, and what is left of it after more history. -/
theorem scope_made (before after : List ScopeOp) (m : Mem) (sk : Option SharedKeys)
    (hl : LegalRun [] (before ++ .new m sk :: after)) :
    ∃ r', (Registry.run {} before).1.new m sk = (r', .ok (bookRun [] before).length) ∧
      (Registry.run {} (before ++ .new m sk :: after)).1 = (r'.run after).1 := by
  obtain ⟨hl1, hl2⟩ := (legalRun_append before _ []).mp hl
  obtain ⟨⟨hne, ⟨x, hx⟩, _⟩, _⟩ := hl2
  have hk := (Keeps.run before Keeps.empty hl1).2
  have hpos : ¬ m.data.length = 0 := by simpa using hne
  refine ⟨_, by simp only [Registry.new, hk.sane, Bool.false_eq_true, if_false, hx]; rw [if_neg hpos, hk.length], ?_⟩
  rw [run_append]
  simp only [Registry.run, Registry.step, Registry.new, hk.sane, Bool.false_eq_true, if_false, hx]
  rw [if_neg hpos, hk.length]

/-- **C49, while the scope is alive and registered.** A document that reads back (`Shows`: C24, C30) in a scope made at any point
of a legal history, followed by more history that spares the scope: `Scope::root` gives a value through which everything that was
written is seen. Every reader that asks the registry gives, on every value, what it gives with the scope's shared keys; and with
those the root matches what was written. -/
theorem C49_reads_partial (before after : List ScopeOp) (F : FloatOps) (probe : List UInt8 → Prop)
    (m : Mem) (sk : Option SharedKeys) (t : Tree) (hbase : m.base + m.data.length < 2 ^ 64)
    (hdoc : Shows F sk probe m.data t) (hl : LegalRun [] (before ++ .new m sk :: after))
    (hs : Spares (bookRun [] before).length after) (r : Registry)
    (hr : r = (Registry.run {} (before ++ .new m sk :: after)).1) :
    ∃ s v t', r.scopes[(bookRun [] before).length]? = some s ∧ s.rootValue = some ⟨m, v⟩ ∧ s.sharedKeys = sk ∧
      Tree.Same t t' ∧ Matches m F sk probe v t' ∧
      (∀ fuel x, r.readTree m F fuel x = readTree m F sk fuel x) ∧
      (∀ x k, r.dictGet m x k = x.dictGet m sk k) ∧
      (∀ x k, r.containsKey m x k = x.containsKey m sk k) ∧
      (∀ x k y, x.dictGet m sk k = .ok (some y) → r.dictIndex m x k = .ok y) ∧
      (∀ x k, x.dictGet m sk k = .ok none → r.dictIndex m x k = .panic) ∧
      (∀ (x : Val) (ty : ValueType), x.type m = .ok ty → ∀ (α : Type) (f : Val → R α),
        r.entries m f x = (do let it ← x.dictIter m; collectDict m sk f (it.len + 1) it)) := by
  have hu := scope_uniform before after m sk hl hs
  rw [← hr] at hu
  obtain ⟨v, t', h1, h2, h3⟩ := hdoc m rfl hbase
  obtain ⟨r', hnew, hr'⟩ := scope_made before after m sk hl
  obtain ⟨s, g1, g2, _, _, g5, _⟩ := C49_accessors _ r' m sk _ hnew after
  refine ⟨s, v, t', by rw [hr, hr']; exact g1, g5 v h1, g2, h2, h3, fun fuel x => hu.readTree F fuel x, fun x k => hu.dictGet x k, ?_, ?_, ?_, ?_⟩
  · intro x k
    unfold Registry.containsKey Val.containsKey
    rw [hu.dictGet]
  · intro x k y h
    unfold Registry.dictIndex
    rw [hu.dictGet, h]
    rfl
  · intro x k h
    unfold Registry.dictIndex
    rw [hu.dictGet, h]
    rfl
  · intro x ty hty α f
    exact hu.entries f (type_within hty)

/-- The traversal, in one piece: the tree that was written. -/
theorem C49_tree_partial (before after : List ScopeOp) (F : FloatOps) (m : Mem) (sk : Option SharedKeys) (t : Tree)
    (hbase : m.base + m.data.length < 2 ^ 64) (hdoc : Decodes F sk m.data t)
    (hl : LegalRun [] (before ++ .new m sk :: after)) (hs : Spares (bookRun [] before).length after) (r : Registry)
    (hr : r = (Registry.run {} (before ++ .new m sk :: after)).1) :
    ∃ s v t', r.scopes[(bookRun [] before).length]? = some s ∧ s.rootValue = some ⟨m, v⟩ ∧ Tree.Same t t' ∧
      ∀ fuel, m.data.length ≤ fuel → r.readTree m F fuel v = .ok t' := by
  have hu := scope_uniform before after m sk hl hs
  rw [← hr] at hu
  obtain ⟨v, t', h1, h2, h3⟩ := hdoc m rfl hbase
  obtain ⟨r', hnew, hr'⟩ := scope_made before after m sk hl
  obtain ⟨s, g1, _, _, _, g5, _⟩ := C49_accessors _ r' m sk _ hnew after
  exact ⟨s, v, t', by rw [hr, hr']; exact g1, g5 v h1, h2, fun fuel hf => by rw [hu.readTree]; exact h3 fuel hf⟩

/-- **C49, from the calls to the reading.** A small document with shared keys: `finish_scoped`, in a registry with any legal past,
at an address where no live scope's buffer is; then anything legal that spares the scope. Everything written is found through
`Scope::root`. -/
theorem C49_small_partial (before after : List ScopeOp) (c : Cfg) (F : FloatOps) (sk : SharedKeys) (hsk : sk.WF)
    (htidy : sk.Tidy c.chars) (ops : List Op) (hsize : Op.total ops ≤ SizedValue.maxNarrow) (hgood : ∀ op ∈ ops, op.GoodKey c.chars)
    (hplain : ∀ op ∈ ops, op.Plain true) (hcap : ∀ n, Op.beginArray n ∈ ops → n * 4 < 2 ^ 63) (hall : AllOk F {} ops)
    (t : Tree) (ht : (Build.run F {} ops).1.finish = some t) :
    ∃ e rs out last, ({ Enc.new with sk := some sk } : Enc).run c ops = .ok (e, rs) ∧ e.finish c = .ok out ∧ e.sk = some last ∧
      (last.entries.length < 2048 → ∀ base, base + out.length < 2 ^ 64 →
        ∀ m, m = ⟨out, base, c.dbg⟩ → LegalRun [] (before ++ .new m e.sk :: after) →
        Spares (bookRun [] before).length after →
        ∃ r' s v t', (Registry.run {} before).1.finishScoped c e base = (r', .ok (bookRun [] before).length) ∧
          (r'.run after).1.scopes[(bookRun [] before).length]? = some s ∧ s.rootValue = some ⟨m, v⟩ ∧
          Tree.Same t t' ∧ Matches m F e.sk (Sound c.chars) v t' ∧
          (∀ fuel x, (r'.run after).1.readTree m F fuel x = readTree m F e.sk fuel x) ∧
          (∀ x k, (r'.run after).1.dictGet m x k = x.dictGet m e.sk k)) := by
  have hmn : SizedValue.maxNarrow ≤ SizedValue.maxWide := by decide
  obtain ⟨e, rs, out, last, h1, h2, h3, h4, h5, _, h7⟩ :=
    C30_small_partial c F sk hsk htidy ops hsize hgood hplain hcap hall t ht
  refine ⟨e, rs, out, last, h1, h2, h3, ?_⟩
  rintro hroom base hbase m rfl hl hs
  have hdoc := h7 hroom last (.refl _) h4 h5
  obtain ⟨r', hnew, hr'⟩ := scope_made before after _ _ hl
  obtain ⟨s, v, t', g1, g2, g3, g4, g5, g6, g7, _⟩ := C49_reads_partial before after F _ _ e.sk t hbase (by rw [h3]; exact hdoc) hl hs
    (r'.run after).1 hr'.symm
  refine ⟨r', s, v, t', ?_, g1, g2, g4, g5, g6, g7⟩
  rw [C49_finish_scoped _ c (some sk) (by rintro s ⟨⟩; exact hsk) ops (by omega) e rs h1 base out h2, hnew]

/-! ## Mutable copies -/

/-- `MutableDict::from_scope` and `MutableArray::from_scope` of a spared scope are the conversions of C34, with the scope's keys. -/
theorem C49_from_scope (before after : List ScopeOp) (F : FloatOps) (m : Mem) (sk : Option SharedKeys) (v : Val)
    (hv : fromBytes m = .ok v) (hl : LegalRun [] (before ++ .new m sk :: after)) (hs : Spares (bookRun [] before).length after)
    (r : Registry) (hr : r = (Registry.run {} (before ++ .new m sk :: after)).1) :
    ∃ s, r.scopes[(bookRun [] before).length]? = some s ∧
      (v.type m = .ok .dict → ∀ fuel, r.dictFromScope s F fuel = (Slot.newFromFleece m F sk (fuel + 1) v false).bind fun d => .ok (some d)) ∧
      (v.type m = .ok .array → ∀ fuel, r.arrayFromScope s F fuel = (Slot.newFromFleece m F sk (fuel + 1) v false).bind fun d => .ok (some d)) ∧
      (v.type m ≠ .ok .dict → ∀ fuel, ∀ d, r.dictFromScope s F fuel ≠ .ok (some d)) ∧
      (v.type m ≠ .ok .array → ∀ fuel, ∀ d, r.arrayFromScope s F fuel ≠ .ok (some d)) := by
  have hu := scope_uniform before after m sk hl hs
  rw [← hr] at hu
  obtain ⟨r', hnew, hr'⟩ := scope_made before after m sk hl
  obtain ⟨s, g1, g2, _, _, g5, _⟩ := C49_accessors _ r' m sk _ hnew after
  have hroot := g5 v hv
  have hf : ∀ fuel, r.newFromFleece m F fuel = Slot.newFromFleece m F sk fuel := fun fuel =>
    funext fun v => funext fun w => hu.newFromFleece F fuel v w
  refine ⟨s, by rw [hr, hr']; exact g1, ?_, ?_, ?_, ?_⟩
  · intro ht fuel
    unfold Registry.dictFromScope
    rw [hroot]
    unfold Alloced.toDict
    unfold Slot.newFromFleece
    simp only [ht, ok_bind, pure_eq, if_true, g2, hf]
    rw [hu.copyDict _ (type_within ht)]
    rfl
  · intro ht fuel
    unfold Registry.arrayFromScope
    rw [hroot]
    unfold Alloced.toArray
    unfold Slot.newFromFleece
    simp only [ht, ok_bind, pure_eq, if_true, hf]
    change _ = Bind.bind _ _
    simp only [Res.bind_assoc, ok_bind]
  · intro ht fuel d hd
    unfold Registry.dictFromScope at hd
    rw [hroot] at hd
    unfold Alloced.toDict at hd
    obtain ⟨x, h1, h2⟩ := bind_eq_ok.mp hd
    obtain ⟨ty, h3, h4⟩ := bind_eq_ok.mp h1
    have hne : ty ≠ .dict := by rintro rfl; exact ht h3
    simp only [hne, if_false, pure_eq] at h4
    cases h4
    cases h2
  · intro ht fuel d hd
    unfold Registry.arrayFromScope at hd
    rw [hroot] at hd
    unfold Alloced.toArray at hd
    obtain ⟨x, h1, h2⟩ := bind_eq_ok.mp hd
    obtain ⟨ty, h3, h4⟩ := bind_eq_ok.mp h1
    have hne : ty ≠ .array := by rintro rfl; exact ht h3
    simp only [hne, if_false, pure_eq] at h4
    cases h4
    cases h2

/-! ## Equality -/

theorem book_pos (ops : List ScopeOp) : ∀ b : List Owner, LegalRun b ops → (∀ o ∈ b, 0 < o.len) → ∀ o ∈ bookRun b ops, 0 < o.len := by
  induction ops with
  | nil => intro b _ h; exact h
  | cons op ops ih =>
    intro b hl h
    refine ih _ hl.2 ?_
    intro o ho
    cases op with
    | new m sk =>
      rcases List.mem_append.mp ho with ho | ho
      · exact h o ho
      · cases List.mem_singleton.mp ho
        exact List.length_pos_iff.mpr hl.1.1
    | remove i =>
      obtain ⟨j, hj⟩ := List.getElem?_of_mem ho
      rw [bookStep, modify_get] at hj
      obtain ⟨p, hp, rfl⟩ := Option.map_eq_some_iff.mp hj
      have := h p (List.mem_of_getElem? hp)
      split <;> exact this
    | drop i =>
      obtain ⟨j, hj⟩ := List.getElem?_of_mem ho
      rw [bookStep, modify_get] at hj
      obtain ⟨p, hp, rfl⟩ := Option.map_eq_some_iff.mp hj
      have := h p (List.mem_of_getElem? hp)
      split <;> exact this

/-- **C49, equality.** Of the scopes alive after a legal history, each equals itself and no other. -/
theorem C49_eq (ops : List ScopeOp) (hl : LegalRun [] ops) (i j : Nat) (s t : ScopeRec)
    (hi : (Registry.run {} ops).1.scopes[i]? = some s) (hj : (Registry.run {} ops).1.scopes[j]? = some t) (hs : s.alive = true)
    (ht : t.alive = true) : s.eq t = true ↔ i = j := by
  have h := (Keeps.run ops Keeps.empty hl).2
  unfold ScopeRec.eq
  rw [decide_eq_true_iff]
  refine ⟨fun he => ?_, fun he => ?_⟩
  · apply Decidable.byContradiction
    intro hne
    have h1 := h.same i
    have h2 := h.same j
    rw [hi] at h1
    rw [hj] at h2
    cases ho : (bookRun [] ops)[i]? with
    | none => rw [ho] at h1; cases h1
    | some o =>
      cases hp : (bookRun [] ops)[j]? with
      | none => rw [hp] at h2; cases h2
      | some p =>
        rw [ho] at h1
        rw [hp] at h2
        simp only [Option.map_some, Option.some.injEq, Prod.mk.injEq] at h1 h2
        have hl1 := book_pos ops [] hl (by simp) o (List.mem_of_getElem? ho)
        have hl2 := book_pos ops [] hl (by simp) p (List.mem_of_getElem? hp)
        have := h.apart i j o p ho hp hne (by rw [← h1.2.2.2]; exact hs) (by rw [← h2.2.2.2]; exact ht)
        omega
  · subst he
    rw [hi] at hj
    cases hj
    rfl

/-! ## After the scope -/

/-- Iteration without shared keys over a dict whose first key is a shared one yields nothing. -/
theorem entries_lost {α : Type} {r : Registry} {m : Mem} (hu : r.Uniform m none) (f : Val → R α) {v k : Val} {it it' : Iter}
    (hv : v.pos < m.data.length) (hit : v.dictIter m = .ok it) (hk : it.step m = .ok (some k, it')) (hs : k.type m = .ok .short) :
    r.entries m f v = .ok [] := by
  rw [hu.entries f hv, hit]
  simp only [ok_bind]
  unfold collectDict
  simp only [Iter.dictStep, hk, ok_bind, hs, if_true, pure_eq]

/-- The end of a scope: `remove`, or the last `Arc<Scope>` dropped. -/
def Ends (id : Nat) (op : ScopeOp) : Prop := op = .remove id ∨ op = .drop id

/-- After it the registry knows nothing about the addresses of the scope's buffer. -/
theorem scope_gone (before after : List ScopeOp) (m : Mem) (sk : Option SharedKeys) (op : ScopeOp)
    (hl : LegalRun [] (before ++ .new m sk :: (after ++ [op]))) (hs : Spares (bookRun [] before).length after)
    (hop : Ends (bookRun [] before).length op) :
    (Registry.run {} (before ++ .new m sk :: (after ++ [op]))).1.Uniform m none := by
  intro a h1 h2
  refine (C35_shared_keys _ hl a).2 ?_
  have hsplit : before ++ .new m sk :: (after ++ [op]) = (before ++ .new m sk :: after) ++ [op] := by simp
  rw [hsplit] at hl ⊢
  obtain ⟨hl1, _⟩ := (legalRun_append _ _ []).mp hl
  have hk := (Keeps.run _ Keeps.empty hl1).2
  have hb : (bookRun [] (before ++ .new m sk :: after))[(bookRun [] before).length]? =
      some ⟨m.base, m.data.length, sk, true, false⟩ := by
    rw [bookRun_append]
    exact bookRun_spared after (by simp [bookStep]) hs
  rintro id ⟨o, g1, g2, g3, g4⟩
  rw [bookRun_append] at g1
  -- the book before the last call
  have key : ∀ f : Owner → Owner, (∀ o, (f o).live = false ∨ (f o).removed = true) →
      ((bookRun [] (before ++ .new m sk :: after)).modify (bookRun [] before).length f)[id]? = some o → False := by
    intro f hf hg
    rw [modify_get] at hg
    cases hp : (bookRun [] (before ++ .new m sk :: after))[id]? with
    | none => rw [hp] at hg; cases hg
    | some p =>
      rw [hp] at hg
      simp only [Option.map_some, Option.some.injEq] at hg
      split at hg
      · subst hg
        rcases hf p with h | h
        · rw [h] at g2; cases g2
        · rw [h] at g3; cases g3
      · rename_i hne
        subst hg
        have := hk.apart _ _ _ _ hb hp hne rfl g2
        unfold Owner.covers at g4
        dsimp only at this
        omega
  rcases hop with rfl | rfl
  · exact key _ (fun o => .inr rfl) g1
  · exact key _ (fun o => .inl rfl) g1

/-- **C49 is false after the end of the scope**, of every document whose root is a dict with a shared key. The root obtained from
the scope (before or, after `remove`, still) is valid memory, but it reads as an empty dict, and `MutableDict::from_scope` gives an
empty dict. -/
theorem C49_lost (before after : List ScopeOp) (F : FloatOps) (m : Mem) (sk : Option SharedKeys) (op : ScopeOp) (v k : Val)
    (it it' : Iter) (hv : fromBytes m = .ok v) (hd : v.type m = .ok .dict) (hit : v.dictIter m = .ok it)
    (hk : it.step m = .ok (some k, it')) (hsh : k.type m = .ok .short)
    (hl : LegalRun [] (before ++ .new m sk :: (after ++ [op]))) (hs : Spares (bookRun [] before).length after)
    (hop : Ends (bookRun [] before).length op) (r : Registry)
    (hr : r = (Registry.run {} (before ++ .new m sk :: (after ++ [op]))).1) :
    ∃ s, r.scopes[(bookRun [] before).length]? = some s ∧ s.rootValue = some ⟨m, v⟩ ∧
      ∀ fuel, r.readTree m F (fuel + 1) v = .ok (.dict []) ∧ r.dictFromScope s F fuel = .ok (some (.dict sk [])) := by
  have hu := scope_gone before after m sk op hl hs hop
  rw [← hr] at hu
  obtain ⟨r', hnew, hr'⟩ := scope_made before (after ++ [op]) m sk hl
  obtain ⟨s, g1, g2, _, _, g5, _⟩ := C49_accessors _ r' m sk _ hnew (after ++ [op])
  obtain ⟨w, hw⟩ := isWide_ok hd
  refine ⟨s, by rw [hr, hr']; exact g1, g5 v hv, fun fuel => ⟨?_, ?_⟩⟩
  · unfold Registry.readTree
    rw [hd]
    simp only [ok_bind]
    rw [entries_lost hu _ (type_within hd) hit hk hsh]
    rfl
  · unfold Registry.dictFromScope
    rw [g5 v hv]
    unfold Alloced.toDict
    simp only [hd, ok_bind, pure_eq, if_true]
    unfold Registry.copyDict
    simp only [hw, ok_bind]
    rw [entries_lost hu _ (type_within hd) hit hk hsh, g2]
    rfl

/-! ## A document -/

/-- What the encoder makes of `{"cd": true, "ab": false}` with new shared keys (C25), at address 4096. -/
def scopedDoc : Mem := ⟨[0x70, 0x02, 0, 0, 0x38, 0, 0, 1, 0x34, 0, 0x80, 5], 4096, true⟩

/-- Its shared keys. -/
def scopedKeys : SharedKeys := ⟨[(scd.bytes, 0), (sab.bytes, 1)]⟩

theorem scoped_legal (op : ScopeOp) (hop : op = .remove 0 ∨ op = .drop 0 ∨ op = .new ⟨[0x60, 0, 0x80, 1], 8192, true⟩ none) :
    LegalRun [] ([] ++ .new scopedDoc (some scopedKeys) :: ([] ++ [op])) := by
  refine ⟨⟨by simp [scopedDoc], ⟨some ⟨0, 10⟩, ?_⟩, by simp⟩, ?_, trivial⟩
  · have : fromBytes scopedDoc = .ok ⟨0, 10⟩ := by decide +kernel
    simp only [Registry.rootOrNone, this]
  · rcases hop with rfl | rfl | rfl
    · exact ⟨_, rfl, rfl⟩
    · exact ⟨_, rfl, rfl⟩
    · refine ⟨by simp, ⟨some ⟨0, 2⟩, ?_⟩, by simp [bookStep, scopedDoc]⟩
      have : fromBytes ⟨[0x60, 0, 0x80, 1], 8192, true⟩ = .ok ⟨0, 2⟩ := by decide +kernel
      simp only [Registry.rootOrNone, this]

set_option maxRecDepth 20000 in
/-- **C49 is false of the code.** The scope of `{"cd": true, "ab": false}`, written with shared keys: the root has both entries
while the scope is registered (here, another scope has been made since), and none after `remove`, or after the last
`Arc<Scope>` was dropped while the root is held. -/
theorem C49_refuted (F : FloatOps) :
    (∃ (e : Enc) (rs : List (Except EncodeError Unit)), ({ Enc.new with sk := some .new } : Enc).run exampleCfg
      [.beginDict, .key scd, .value (.bool true), .key sab, .value (.bool false), .endDict] = .ok (e, rs) ∧
      Registry.finishScoped {} exampleCfg e 4096 = Registry.new {} scopedDoc (some scopedKeys)) ∧
    fromBytes scopedDoc = .ok ⟨0, 10⟩ ∧
    (∀ r, r = (Registry.run {} ([] ++ .new scopedDoc (some scopedKeys) :: ([] ++ [.new ⟨[0x60, 0, 0x80, 1], 8192, true⟩ none]))).1 →
      r.readTree scopedDoc F 3 ⟨0, 10⟩ = .ok (.dict [(scd.bytes, .bool true), (sab.bytes, .bool false)]) ∧
      r.dictGet scopedDoc ⟨0, 10⟩ sab.bytes = .ok (some ⟨8, 2⟩)) ∧
    ∀ op r, op = .remove 0 ∨ op = .drop 0 → r = (Registry.run {} ([] ++ .new scopedDoc (some scopedKeys) :: ([] ++ [op]))).1 →
      r.readTree scopedDoc F 3 ⟨0, 10⟩ = .ok (.dict []) ∧ r.dictGet scopedDoc ⟨0, 10⟩ sab.bytes = .ok none := by
  have hv : fromBytes scopedDoc = .ok ⟨0, 10⟩ := by decide +kernel
  refine ⟨⟨_, _, rfl, rfl⟩, hv, ?_, ?_⟩
  · rintro r rfl
    have hu := scope_uniform [] _ scopedDoc (some scopedKeys) (scoped_legal _ (.inr (.inr rfl))) (by simp [Spares])
    refine ⟨?_, ?_⟩
    · rw [hu.readTree]
      rfl
    · rw [hu.dictGet]
      decide +kernel
  · rintro op r hop rfl
    have hu := scope_gone [] [] scopedDoc (some scopedKeys) op
      (scoped_legal op (hop.imp id .inl)) (by simp [Spares]) hop
    refine ⟨?_, ?_⟩
    · rw [hu.readTree]
      rfl
    · rw [hu.dictGet]
      decide +kernel

/-- Its scope meets the hypotheses of `C49_lost`. -/
example (F : FloatOps) : ∃ s, (Registry.run {} ([] ++ .new scopedDoc (some scopedKeys) :: ([] ++ [.remove 0]))).1.scopes[0]? = some s ∧
    s.rootValue = some ⟨scopedDoc, ⟨0, 10⟩⟩ ∧
    (Registry.run {} ([] ++ .new scopedDoc (some scopedKeys) :: ([] ++ [.remove 0]))).1.dictFromScope s F 1 =
      .ok (some (.dict (some scopedKeys) [])) := by
  obtain ⟨s, h1, h2, h3⟩ := C49_lost [] [] F scopedDoc (some scopedKeys) (.remove 0) ⟨0, 10⟩ ⟨2, 2⟩ ⟨some ⟨2, 2⟩, 2, 0, 4⟩ _
    (by decide +kernel) (by decide +kernel) (by decide +kernel) rfl (by decide +kernel) (scoped_legal _ (.inl rfl)) (by simp [Spares])
    (.inl rfl) _ rfl
  exact ⟨s, h1, h2, (h3 1).2⟩

end Fleece.Props
