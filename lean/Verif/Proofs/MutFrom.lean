import Verif.Spec.Copy
import Verif.Proofs.Copy
import Verif.Proofs.MutAnswer

/-! # Converting a document to a mutable collection -/

namespace Fleece
open Res

theorem Exec.lift_ok {α : Type} {a : α} : Exec.lift (.ok a) = .ok a := rfl

/-- The scalar arms of `new_from_fleece`. -/
theorem newFromFleece_scalar {m : Mem} {F : FloatOps} {scope : Option SharedKeys} {v : Val} {f : Nat} {t : Tree} {ty : ValueType} {K : List UInt8 → Prop}
    (hm : m.data.length < 2 ^ 63) (ht : v.type m = .ok ty) (hty : ty.isScalar = true)
    (h : readTree m F scope (f + 1) v = .ok t) (hc : Copies m F scope K (f + 1) v) :
    ∃ x : Scalar, x.Kept ∧ x.tree F = t ∧ ∀ w, Slot.newFromFleece m F scope (f + 1) v w = (Slot.new m.dbg x).lift := by
  unfold readTree at h
  rw [ht] at h
  simp only [ok_bind] at h
  cases ty <;> dsimp only at h
  case null => cases h; exact ⟨.null, trivial, rfl, fun w => by unfold Slot.newFromFleece; rw [ht]; rfl⟩
  case undefined => cases h; exact ⟨.undefined, trivial, rfl, fun w => by unfold Slot.newFromFleece; rw [ht]; rfl⟩
  case false => cases h; exact ⟨.bool false, trivial, rfl, fun w => by unfold Slot.newFromFleece; rw [ht]; rfl⟩
  case true => cases h; exact ⟨.bool true, trivial, rfl, fun w => by unfold Slot.newFromFleece; rw [ht]; rfl⟩
  case short =>
    obtain ⟨i, hi, h⟩ := bind_eq_ok.mp h
    cases h
    have hs : v.shortInt m = .ok i := by
      unfold Val.toInt at hi; rw [ht] at hi; exact hi
    have hr := shortInt_range hs
    have he : (Int16.ofInt i).toInt = i := by
      have hz : Int16.size = 2 ^ 16 := rfl
      rw [Int16.toInt_ofInt, hz, Int.bmod_eq_of_le (by unfold ShortRange at hr; omega) (by unfold ShortRange at hr; omega)]
    refine ⟨.i16 (Int16.ofInt i), ?_, ?_, fun w => ?_⟩
    · show ShortRange _; rw [he]; exact hr
    · simp only [Scalar.tree, he]
    · unfold Slot.newFromFleece Val.toShort
      rw [ht]
      simp only [ok_bind, hs]
  case int =>
    obtain ⟨i, hi, h⟩ := bind_eq_ok.mp h
    cases h
    have hr := hc.1 ht i hi
    have he : (Int64.ofInt i).toInt = i := by
      have hz : Int64.size = 2 ^ 64 := rfl
      rw [Int64.toInt_ofInt, hz, Int.bmod_eq_of_le (by unfold ShortRange at hr; omega) (by unfold ShortRange at hr; omega)]
    refine ⟨.i64 (Int64.ofInt i), ?_, ?_, fun w => ?_⟩
    · show ShortRange _; rw [he]; exact hr
    · simp only [Scalar.tree, he]
    · unfold Slot.newFromFleece
      rw [ht]
      simp only [ok_bind, hi]
  case unsignedInt =>
    obtain ⟨n, hn, h⟩ := bind_eq_ok.mp h
    cases h
    have hk := hc.2.1 ht n hn
    have hlt : n < 2 ^ 64 := by
      unfold Val.toUnsignedInt at hn
      obtain ⟨i, _, hn⟩ := bind_eq_ok.mp hn
      simp only [pure_eq, ok.injEq] at hn
      omega
    have he : (UInt64.ofNat n).toNat = n := by simp; omega
    refine ⟨.u64 (UInt64.ofNat n), ?_, ?_, fun w => ?_⟩
    · show _ ∨ _; rw [he]; exact hk
    · simp only [Scalar.tree, he]
    · unfold Slot.newFromFleece
      rw [ht]
      simp only [ok_bind, hn]
  case float =>
    obtain ⟨d, hd, h⟩ := bind_eq_ok.mp h
    cases h
    refine ⟨.f32 (F.narrow d), trivial, ?_, fun w => ?_⟩
    · simp only [Scalar.tree, hc.2.2.1 ht d hd]
    · unfold Slot.newFromFleece Val.toFloat
      rw [ht]
      simp only [ok_bind, hd, pure_eq]
  case double32 =>
    obtain ⟨d, hd, h⟩ := bind_eq_ok.mp h
    cases h
    refine ⟨.f64 d, trivial, rfl, fun w => ?_⟩
    unfold Slot.newFromFleece
    rw [ht]
    simp only [ok_bind, hd]
  case double64 =>
    obtain ⟨d, hd, h⟩ := bind_eq_ok.mp h
    cases h
    refine ⟨.f64 d, trivial, rfl, fun w => ?_⟩
    unfold Slot.newFromFleece
    rw [ht]
    simp only [ok_bind, hd]
  case string =>
    obtain ⟨s, hs, h⟩ := bind_eq_ok.mp h
    cases h
    obtain ⟨h1, h2⟩ := toStr_valid hs
    refine ⟨.str ⟨s, h1⟩, ?_, rfl, fun w => ?_⟩
    · show s.length < _; omega
    · unfold Slot.newFromFleece
      rw [ht]
      simp only [ok_bind, hs]
      rfl
  case data =>
    obtain ⟨d, hd, h⟩ := bind_eq_ok.mp h
    cases h
    have := toData_length hd
    refine ⟨.data d, ?_, rfl, fun w => ?_⟩
    · show d.length < _; omega
    · unfold Slot.newFromFleece
      rw [ht]
      simp only [ok_bind, hd]
  all_goals cases hty

theorem node_of_scalar {x : Scalar} {F : FloatOps} : (x.tree F).node = .leaf (x.tree F) := by
  cases x <;> simp [Scalar.tree, Tree.node]

theorem nodes_getElem (ts : List Tree) (i : Nat) : (Tree.nodes ts)[i]? = (ts[i]?).map Tree.node := by
  induction ts generalizing i with
  | nil => simp [Tree.nodes]
  | cons t ts ih => cases i with
    | zero => simp [Tree.nodes]
    | succ i => simp [Tree.nodes, ih]

theorem nodes_length (ts : List Tree) : (Tree.nodes ts).length = ts.length := by
  induction ts with
  | nil => simp [Tree.nodes]
  | cons t ts ih => simp [Tree.nodes, ih]

theorem isWide_ok {m : Mem} {v : Val} {ty : ValueType} (ht : v.type m = .ok ty) : ∃ w, v.isWide m = .ok w := by
  unfold Val.type at ht
  obtain ⟨b, hb, _⟩ := bind_eq_ok.mp ht
  unfold Val.isWide
  rw [hb]
  exact ⟨_, rfl⟩

theorem foldInsert_rel {dbg : Bool} {F : FloatOps} {K : List UInt8 → Prop} {sk : Option SharedKeys}
    (ts : List (List UInt8 × Tree)) : ∀ {ss : List (List UInt8 × Slot)} {map : List (Key × Slot)} {acc : List (List UInt8 × Node)},
    ss.length = ts.length → (∀ (i : Nat) t s, ts[i]? = some t → ss[i]? = some s → s.1 = t.1 ∧ K t.1 ∧ Rel dbg F K s.2 t.2.node) →
    Rel dbg F K (.dict sk map) (.dict acc) →
    Rel dbg F K (.dict sk (ss.foldl (fun map kv => mapInsert (mutEncodeKey sk kv.1) kv.2 map) map)) (.dict (Tree.assignAll ts acc)) := by
  induction ts with
  | nil =>
    intro ss map acc hl _ h
    cases ss with
    | nil => simpa [Tree.assignAll] using h
    | cons _ _ => cases hl
  | cons t ts ih =>
    intro ss map acc hl he h
    cases ss with
    | nil => cases hl
    | cons s ss =>
      obtain ⟨e1, e2, e3⟩ := he 0 t s rfl rfl
      simp only [List.foldl_cons, Tree.assignAll]
      refine ih (by simpa using hl) (fun i t' s' a b => he (i + 1) t' s' (by simpa using a) (by simpa using b)) ?_
      rw [e1]
      exact h.insert e2 e3

/-- `ValueSlot::new_from_fleece` keeps the document. -/
theorem newFromFleece_rel {m : Mem} {F : FloatOps} {scope : Option SharedKeys} (hm : m.data.length < 2 ^ 63)
    (hsc : ∀ sk, scope = some sk → sk.WF) :
    ∀ {f : Nat} {v : Val} {t : Tree} (w : Bool), Copies m F scope (ScopeKeeps scope) f v → readTree m F scope f v = .ok t →
      ∃ s, Slot.newFromFleece m F scope f v w = .ok s ∧ Rel m.dbg F (ScopeKeeps scope) s t.node := by
  intro f
  induction f with
  | zero => intro v t w _ h; cases h
  | succ f ih =>
    intro v t w hcv h
    have h0 := h
    unfold readTree at h
    obtain ⟨ty, ht, h⟩ := bind_eq_ok.mp h
    by_cases hsca : ty.isScalar = true
    · obtain ⟨x, hx, rfl, hw⟩ := newFromFleece_scalar hm ht hsca h0 hcv
      obtain ⟨s, h1, h2⟩ := Scalar.slot_ok (dbg := m.dbg) (F := F) (K := ScopeKeeps scope) hx
      refine ⟨s, ?_, by rw [node_of_scalar]; exact h2⟩
      rw [hw w, h1]; rfl
    · obtain ⟨w', hw'⟩ := isWide_ok ht
      cases ty <;> first | exact absurd rfl hsca | skip
      case array =>
        dsimp only at h
        obtain ⟨it, hit, h⟩ := bind_eq_ok.mp h
        obtain ⟨ts, hts, h⟩ := bind_eq_ok.mp h
        cases h
        obtain ⟨xs, k1, k2, k3⟩ := collect_values hts
        obtain ⟨ss, g2, g3⟩ := list_pick (P := fun t s => Rel m.dbg F (ScopeKeeps scope) s t.node)
          (g := fun x => Slot.newFromFleece m F scope f x w') k2 (fun i x t hx ht' =>
            ih w' (hcv.2.2.2.1 ht it xs hit k1 x (List.mem_of_getElem? hx)) (k3 i x t hx ht'))
        refine ⟨.arr ss, ?_, ?_⟩
        · unfold Slot.newFromFleece
          rw [ht]
          have g1 := collect_of_values (g := fun x => Slot.newFromFleece m F scope f x w') (ss := ss) k1 (by omega)
            (fun i x s hx hs => by
              have hi : i < ts.length := by have := (List.getElem?_eq_some_iff.mp hx).1; omega
              exact (g3 i x ts[i] s hx (by simp [hi]) hs).1)
          simp only [ok_bind, hw', hit, g1, pure_eq]
        · simp only [Tree.node]
          refine .arr (by rw [nodes_length]; exact g2) ?_
          intro i s n e1 e2
          rw [nodes_getElem, Option.map_eq_some_iff] at e2
          obtain ⟨t, e2, rfl⟩ := e2
          have hi : i < xs.length := by have := (List.getElem?_eq_some_iff.mp e2).1; omega
          exact (g3 i xs[i] t s (by simp [hi]) e2 e1).2
      case dict =>
        dsimp only at h
        obtain ⟨it, hit, h⟩ := bind_eq_ok.mp h
        obtain ⟨ts, hts, h⟩ := bind_eq_ok.mp h
        cases h
        obtain ⟨xs, k1, k2, k3⟩ := collectDict_values hts
        obtain ⟨ss, g2, g3⟩ := list_pick (xs := xs) (ts := ts)
          (P := fun t s => s.1 = t.1 ∧ ScopeKeeps scope t.1 ∧ Rel m.dbg F (ScopeKeeps scope) s.2 t.2.node)
          (g := fun x => do let s ← Slot.newFromFleece m F scope f x.2 w'; pure (x.1, s)) k2 (fun i x t hx ht' => by
            obtain ⟨k4, k5⟩ := k3 i x t hx ht'
            obtain ⟨k6, k7⟩ := hcv.2.2.2.2 ht it xs hit k1 x (List.mem_of_getElem? hx)
            obtain ⟨s, a, b⟩ := ih w' k7 k5
            exact ⟨(x.1, s), by simp only [a, ok_bind, pure_eq], k4, k4 ▸ k6, b⟩)
        refine ⟨.dict scope (ss.foldl (fun map kv => mapInsert (mutEncodeKey scope kv.1) kv.2 map) []), ?_, ?_⟩
        · unfold Slot.newFromFleece
          rw [ht]
          have g1 := collectDict_of_values (g := fun x => Slot.newFromFleece m F scope f x w') (ss := ss) k1 (by omega)
            (fun i x s hx hs => by
              have hi : i < ts.length := by have := (List.getElem?_eq_some_iff.mp hx).1; omega
              have := (g3 i x ts[i] s hx (by simp [hi]) hs).1
              obtain ⟨s', a, b⟩ := bind_eq_ok.mp this
              cases b
              exact ⟨rfl, a⟩)
          simp only [ok_bind, hw', hit, g1, pure_eq]
        · simp only [Tree.node]
          refine foldInsert_rel ts g2 (fun i t s a b => ?_) ?_
          · have hi : i < xs.length := by have := (List.getElem?_eq_some_iff.mp a).1; omega
            exact (g3 i xs[i] t s (by simp [hi]) a b).2
          · exact .dict (fun s hs => ⟨hsc s hs, fun k hk => hk s hs⟩) List.Pairwise.nil (by simp) (by simp) (by simp) (by simp)
              (by simp)
      case pointer => cases h

end Fleece
