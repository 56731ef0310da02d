import Verif.Props.C24

/-!
# C26 Collections of any size keep their length

`C26_header` is about what `end_array` and `end_dict` write first, and what `len` and the position of the first element
are for a reader, for every count below 2^63. `C26_len_partial` and `C26_array` are about whole documents.
-/

namespace Fleece.Props
open Fleece Res

/-- **C26, header.** The header of a collection with `n` entries, written behind any output of the encoder: whatever
follows it, a reader sees a collection of the same kind and width, with `n` entries, whose first element is where the
encoder's output ended, i.e. where it writes the first element. -/
theorem C26_header (c : Cfg) (e : Enc) (he : e.out.length % 2 = 0) (dict wide : Bool) (n : Nat) (hn : n < 2 ^ 63) :
    ∃ e', e.write c (if dict then .dict n else .arr n) wide true = .ok (e', e.out.length % 2 ^ 32) ∧
      ∀ (m : Mem) (len : Nat), e'.out <+: m.data → e.out.length + len ≤ m.data.length →
        e'.out.length ≤ e.out.length + len →
        let v : Val := ⟨e.out.length, len⟩
        v.type m = .ok (if dict then .dict else .array) ∧ v.isWide m = .ok wide ∧
        (dict = false → v.arrayLen m = .ok n) ∧ (dict = true → v.dictLen m = .ok n) ∧
        ∃ p, v.firstPos m = .ok p ∧ e.out.length + p = e'.out.length := by
  refine ⟨_, Enc.write_header c e (by omega) dict wide, ?_⟩
  intro m len hm hin hl
  have hlen := padHeader_length he (if dict then 0x70 else 0x60) (n := n) (by omega) wide
  simp only at hl
  rw [hlen] at hl
  have hat := (padHeader_at e.out (if dict then 0x70 else 0x60) n wide []).mono (by simpa using hm)
  have hb := headerBytes_length (if dict then 0x70 else 0x60) (n := n) (by omega) wide
  have hh : Holds m ⟨e.out.length, len⟩ (headerBytes (if dict then 0x70 else 0x60) n wide) :=
    hat.holds rfl (by unfold Val.In; simp only; omega) (by
      rw [hb]; have : headerSize n ≤ hdrLen n := by unfold hdrLen; omega
      simp only; omega)
  obtain ⟨h1, h2, h3, h4⟩ := header_read dict hn hh
  refine ⟨h1, h2, ?_, ?_, hdrLen n, h4, by simp only; rw [hlen]⟩
  · intro hd; rw [h3, hd]; rfl
  · intro hd
    unfold Val.dictLen
    rw [h3, hd]
    simp only [ok_bind, pure_eq, if_true]
    congr 1; omega

example : ∃ e', Enc.new.write exampleCfg (.dict 2047) false true = .ok (e', 0) ∧ e'.out = [0x77, 0xff, 0xff, 0x0f] :=
  ⟨_, rfl, by decide⟩

/-- **C26, documents.** Under the conditions of `C20_exact_partial`: the root of the decoded document has as many elements
(pairs) as were written, and so has everything below it (`Matches`). -/
theorem C26_len_partial (c : Cfg) (F : FloatOps) (ops : List Op) (hsize : Op.total ops ≤ SizedValue.maxWide) (e : Enc)
    (rs : List (Except EncodeError Unit)) (h : Enc.new.run c ops = .ok (e, rs)) (hok : RunOK c Enc.new ops)
    (hfin : FinishOK c e.stack.length e) (t : Tree) (ht : (Build.run F {} ops).1.finish = some t) :
    ∃ out, e.finish c = .ok out ∧ ∀ m : Mem, m.data = out → m.base + out.length < 2 ^ 64 → ∃ v, fromBytes m = .ok v ∧
      (∀ xs, t = .arr xs → v.arrayLen m = .ok xs.length) ∧ (∀ kvs, t = .dict kvs → v.dictLen m = .ok kvs.length) := by
  obtain ⟨out, h1, h2⟩ := C24_exact_partial c F ops hsize e rs h hok hfin t ht
  refine ⟨out, h1, fun m hm hb => ?_⟩
  obtain ⟨v, t', h3, h4, h5⟩ := h2 m hm hb
  refine ⟨v, h3, ?_, ?_⟩
  · rintro xs rfl
    have : ∃ ys, t' = .arr ys ∧ xs.length = ys.length := by
      cases h4 with
      | refl => exact ⟨_, rfl, rfl⟩
      | arr len each => exact ⟨_, rfl, len⟩
    obtain ⟨ys, rfl, hl⟩ := this
    cases h5 with
    | leaf type na nd read => exact absurd rfl ((leaf_read type na nd read).1 _)
    | arr u type len get iter each => rw [len, hl]
  · rintro kvs rfl
    obtain ⟨mid, lvs, rfl, hp, hk, _⟩ := Same.entries h4
    cases h5 with
    | leaf type na nd read => exact absurd rfl ((leaf_read type na nd read).2 _)
    | dict u type len iter order found absent each =>
      rw [len, hp.length_eq]
      have := congrArg List.length hk
      simp only [List.length_map] at this
      rw [this]

/-! ## Arrays of small values, up to 44 million of them -/

/-- Values a slot can hold: small numbers and constants. -/
def Slotted : Scalar → Prop
  | .i8 _ | .u8 _ | .bool _ | .null | .undefined => True
  | .i16 n => ShortRange n.toInt
  | .i32 n => ShortRange n.toInt
  | .i64 n => ShortRange n.toInt
  | .u16 n => n.toNat ≤ 2047
  | .u32 n => n.toNat ≤ 2047
  | .u64 n => n.toNat ≤ 2047
  | _ => False

theorem Slotted.survives {x : Scalar} (h : Slotted x) : x.Survives := by
  cases x <;> first | exact h | trivial | exact Or.inl h | exact h.elim

theorem Slotted.slot {x : Scalar} (h : Slotted x) : ∃ s, x.toSized = some s ∧ s.type ≠ .pointer ∧ s.b0.toNat < 64 := by
  have key : ∃ s, x.toSized = some s := by
    have hu : ∀ n : Nat, n ≤ 2047 → ∃ s, u16Sized n = some s := fun n hn => by
      obtain ⟨_, _, h, _⟩ := u16Sized_ok hn; exact ⟨_, h⟩
    have hi : ∀ n : Int, ShortRange n → ∃ s, i16Sized n = some s := fun n hn => by
      obtain ⟨_, _, h, _⟩ := i16Sized_ok hn; exact ⟨_, h⟩
    cases x <;> simp only [Scalar.toSized]
    case i8 n => exact hi _ (by have := n.toInt_lt; have := n.le_toInt; unfold ShortRange; omega)
    case i16 n => exact hi _ h
    case i32 n => rw [i64Sized_eq, bmod16_of_short h]; exact hi _ h
    case i64 n => rw [i64Sized_eq, bmod16_of_short h]; exact hi _ h
    case u8 n => exact hu _ (by have := n.toNat_lt; omega)
    case u16 n => exact hu _ h
    case u32 n => rw [if_pos (show n.toNat ≤ 2047 from h)]; exact hu _ h
    case u64 n => rw [if_pos (show n.toNat ≤ 2047 from h)]; exact hu _ h
    all_goals first | exact ⟨_, rfl⟩ | exact h.elim
  obtain ⟨s, hs⟩ := key
  let F : FloatOps := ⟨fun _ => 0, fun _ => 0, fun _ => 0, fun _ => 0, fun _ => 0, fun _ => 0⟩
  refine ⟨s, hs, Scalar.toSized_notPointer hs, (Scalar.toSized_ok (F := F) h.survives hs).2 ?_⟩
  cases x <;> first | exact id | exact h.elim

theorem flat_run {c : Cfg} (xs : List Scalar) : ∀ {e : Enc} {vs : List SizedValue}, e.stack = [.arr vs] →
    (∀ v ∈ vs, v.type ≠ .pointer ∧ v.b0.toNat < 64) → (∀ x ∈ xs, Slotted x) → RunOK c e (xs.map .value ++ [.endArray]) := by
  induction xs with
  | nil =>
    intro e vs hs hv _
    refine ⟨⟨by unfold Enc.waitingForKey; rw [hs], ?_⟩, fun _ _ _ => trivial⟩
    intro vs' rest hs'
    rw [hs] at hs'
    cases hs'
    intro _ i v hi
    obtain ⟨h1, h2⟩ := hv v (List.mem_of_getElem? hi)
    exact ⟨fun _ => h2, fun h => absurd h h1⟩
  | cons x xs ih =>
    intro e vs hs hv hx
    obtain ⟨s, h1, h2, h3⟩ := (hx x (by simp)).slot
    refine ⟨(hx x (by simp)).survives, fun e' r he => ?_⟩
    simp only [Enc.step, Enc.writeValue, hs, List.isEmpty_cons, Bool.false_eq_true, if_false, h1, Enc.push, Enc.done] at he
    cases he
    refine ih (vs := vs ++ [s]) rfl ?_ (fun y hy => hx y (by simp [hy]))
    intro v hm
    rcases List.mem_append.mp hm with hm | hm
    · exact hv v hm
    · simp only [List.mem_singleton] at hm; subst hm; exact ⟨h2, h3⟩

theorem flat_build (F : FloatOps) (xs : List Scalar) : ∀ (ys : List Tree),
    Build.run F { stack := [.arr ys] } (xs.map .value ++ [.endArray]) =
      ({ stack := [], root := some (.arr (ys ++ xs.map (Scalar.tree F))) }, List.replicate (xs.length + 1) (.ok ())) := by
  induction xs with
  | nil => intro ys; simp [Build.run, Build.next, Build.step, Build.close]
  | cons x xs ih =>
    intro ys
    simp only [List.map_cons, List.cons_append, Build.run, Build.next, Build.step, Build.put, ih]
    simp [List.replicate_succ]

/-- **C26, arrays of small values.** Every array of small numbers and constants, of any length `n` (24·(n + 2) below
1 GiB, the bound of all document theorems): every call succeeds, and a reader finds an array of length `n` whose `i`-th
element is the `i`-th value. -/
theorem C26_array (c : Cfg) (F : FloatOps) (cap : Nat) (hcap : cap * 4 < 2 ^ 63) (xs : List Scalar) (hx : ∀ x ∈ xs, Slotted x)
    (hn : 24 * (xs.length + 2) ≤ SizedValue.maxWide) :
    ∃ e out, Enc.new.run c (.beginArray cap :: (xs.map .value ++ [.endArray])) = .ok (e, List.replicate (xs.length + 2) (.ok ())) ∧
      e.finish c = .ok out ∧ ∀ m : Mem, m.data = out → m.base + out.length < 2 ^ 64 →
        ∃ v, fromBytes m = .ok v ∧ v.asArray m = .ok (some v) ∧ v.arrayLen m = .ok xs.length ∧
          ∀ (i : Nat) (x : Scalar), xs[i]? = some x → ∃ u, v.get m i = .ok (some u) ∧ readTree m F none 1 u = .ok (x.tree F) := by
  let ops : List Op := .beginArray cap :: (xs.map .value ++ [.endArray])
  have hb : Build.run F {} ops = ({ stack := [], root := some (.arr (xs.map (Scalar.tree F))) },
      List.replicate (xs.length + 2) (.ok ())) := by
    have := flat_build F xs []
    simp only [ops, Build.run, Build.next, Build.step, Build.open, Option.isSome_none, Bool.false_eq_true, if_false, this]
    simp [List.replicate_succ]
  have htot : Op.total ops = 24 * (xs.length + 2) := by
    have hw : ∀ x, Slotted x → (Op.value x).weight = 24 := by intro x h; cases x <;> first | rfl | exact h.elim
    have : ∀ xs : List Scalar, (∀ x ∈ xs, Slotted x) → Op.total (xs.map .value ++ [.endArray]) = 24 * (xs.length + 1) := by
      intro xs
      induction xs with
      | nil => intro _; rfl
      | cons x xs ih =>
        intro h
        simp only [List.map_cons, List.cons_append, Op.total_cons, hw x (h x (by simp)), ih (fun y hy => h y (by simp [hy])),
          List.length_cons]
        omega
    simp only [ops, Op.total_cons, this xs hx]
    simp only [Op.weight]; omega
  have hacc : ∀ op ∈ ops, op.Accepted := by
    intro op hop
    simp only [ops, List.mem_cons, List.mem_append, List.mem_map, List.not_mem_nil, or_false] at hop
    rcases hop with rfl | ⟨x, hxm, rfl⟩ | rfl
    · exact hcap
    · exact (hx x hxm).survives
    · trivial
  have hrun : RunOK c Enc.new ops := by
    refine ⟨trivial, fun e' r he => ?_⟩
    simp only [Enc.step, Enc.beginArray, Enc.new, Enc.waitingForKey, Bool.false_eq_true, if_false] at he
    rw [if_neg (by omega)] at he
    cases he
    exact flat_run xs rfl (by simp) hx
  have hphi := newWith_phi none
  obtain ⟨e, rs, h⟩ := Enc.run_ok (c := c) ops (newWith_wf (sk := none) (by simp)) (by omega) hacc
  have hrs : rs = List.replicate (xs.length + 2) (.ok ()) := by
    have hnd : NoDiscard F {} ops := by
      have hall : AllOk F {} ops := by
        intro r hr; rw [hb] at hr; exact List.eq_of_mem_replicate hr
      have hor := hall.orderly ops (by simp)
      have hnd : ∀ (ops : List Op) (b : Build), Orderly F b ops → NoDiscard F b ops := by
        intro ops
        induction ops with
        | nil => intros; trivial
        | cons op ops ih => intro b hb; exact ⟨hb.1, ih _ hb.2.2⟩
      exact hnd _ _ hor
    have := C18_results_documented_partial c F none (by simp) ops (by omega) hnd e rs h
    rw [this, hb]
  have hfin : FinishOK c e.stack.length e := by
    obtain ⟨hs, _⟩ := Sim.run (F := F) (P := fun _ => True) ops (newWith_wf (sk := none) (by simp)) (newWith_nested none)
      (by omega) (Sim.new F none) hrun (RunKeys.trivial _ _ _) h
    have := hs.shape.length
    rw [hb] at this
    simp only [List.length_nil] at this
    rw [this]; trivial
  obtain ⟨out, h1, h2⟩ := C24_exact_partial c F ops (by omega) e rs h hrun hfin (.arr (xs.map (Scalar.tree F))) (by rw [hb]; rfl)
  refine ⟨e, out, by rw [← hrs]; exact h, h1, fun m hm hbase => ?_⟩
  obtain ⟨v, t', h3, h4, h5⟩ := h2 m hm hbase
  have hleaf : ∀ (t t' : Tree), (∀ ys, t ≠ .arr ys) → (∀ kvs, t ≠ .dict kvs) → Tree.Same t t' → t = t' := by
    intro t t' ha hd hs
    cases hs with
    | refl => rfl
    | arr => exact absurd rfl (ha _)
    | dict => exact absurd rfl (hd _)
  have hsc : ∀ x, (∀ ys, Scalar.tree F x ≠ .arr ys) ∧ ∀ kvs, Scalar.tree F x ≠ .dict kvs := by
    intro x; cases x <;> exact ⟨by simp [Scalar.tree], by simp [Scalar.tree]⟩
  have hx' : t' = .arr (xs.map (Scalar.tree F)) := by
    cases h4 with
    | refl => rfl
    | @arr _ ys len each =>
      congr 1
      apply List.ext_getElem? ; intro i
      by_cases hi : i < ys.length
      · have hi' : i < (xs.map (Scalar.tree F)).length := by omega
        have e1 := List.getElem?_eq_getElem hi
        have e2 := List.getElem?_eq_getElem hi'
        rw [e1, e2]
        have := each i _ _ e2 e1
        congr 1
        rw [List.getElem_map] at this ⊢
        exact (hleaf _ _ (hsc _).1 (hsc _).2 this).symm
      · rw [List.getElem?_eq_none (by omega), List.getElem?_eq_none (by omega)]
  subst hx'
  cases h5 with
  | leaf type na nd read => exact absurd rfl ((leaf_read type na nd read).1 _)
  | arr u type len get iter each =>
    refine ⟨v, h3, type, by rw [len]; simp, fun i x hi => ⟨u i, get i ?_, ?_⟩⟩
    · simpa using (List.getElem?_eq_some_iff.mp hi).1
    · have := each i (x.tree F) (by simp [hi])
      generalize hg : x.tree F = t at this
      cases this with
      | leaf type na nd read => exact read
      | arr => exact absurd hg ((hsc x).1 _)
      | dict => exact absurd hg ((hsc x).2 _)

/-- Two thousand `true`s, and three thousand (beyond the inline count). -/
example : (∀ x ∈ List.replicate 2000 (Scalar.bool true), Slotted x) ∧ (∀ x ∈ List.replicate 3000 (Scalar.i64 (-7)), Slotted x) ∧
    24 * ((List.replicate 3000 (Scalar.i64 (-7))).length + 2) ≤ SizedValue.maxWide := by
  refine ⟨?_, ?_, by rw [List.length_replicate]; decide⟩
  · intro x hx; rw [List.eq_of_mem_replicate hx]; trivial
  · intro x hx; rw [List.eq_of_mem_replicate hx]
    show ShortRange _
    decide

end Fleece.Props
