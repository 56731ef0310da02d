import Verif.Proofs.WriteFleece

/-!
# `write_fleece` is the sequence of calls that spells the tree
-/

namespace Fleece
open Res

/-! ## An array has as many elements as it says -/

theorem iter_counts {m : Mem} {v : Val} {it : Iter} (h : v.iter m = .ok it) :
    v.arrayLen m = .ok it.len ∧ it.index = 0 ∧ (it.next = none → it.len = 0) := by
  unfold Val.iter at h
  obtain ⟨nx, hn, h⟩ := bind_eq_ok.mp h
  obtain ⟨w, hw, h⟩ := bind_eq_ok.mp h
  obtain ⟨n, hl, h⟩ := bind_eq_ok.mp h
  cases h
  refine ⟨hl, rfl, ?_⟩
  rintro rfl
  unfold Val.iterFirst at hn
  rw [hl] at hn
  simp only [ok_bind] at hn
  split at hn
  · assumption
  · obtain ⟨a, _, hn⟩ := bind_eq_ok.mp hn
    obtain ⟨b, _, hn⟩ := bind_eq_ok.mp hn
    obtain ⟨c, _, hn⟩ := bind_eq_ok.mp hn
    cases hn

theorem step_counts {m : Mem} {it it' : Iter} {x : Option Val} (h : it.step m = .ok (x, it'))
    (h0 : it.index ≤ it.len) (h1 : it.next = none → it.index = it.len) :
    (x = none → it.index = it.len) ∧ (x.isSome → it.index < it.len ∧ it'.len = it.len ∧ it'.index = it.index + 1 ∧
      (it'.next = none → it'.index = it'.len)) := by
  unfold Iter.step at h
  cases hn : it.next with
  | none =>
    rw [hn] at h
    cases h
    exact ⟨fun _ => h1 hn, fun h => nomatch h⟩
  | some cur =>
    rw [hn] at h
    dsimp only at h
    split at h
    · next hle => cases h; exact ⟨fun _ => by omega, fun h => nomatch h⟩
    · obtain ⟨t, _, h⟩ := bind_eq_ok.mp h
      split at h <;>
      · obtain ⟨r, _, h⟩ := bind_eq_ok.mp h
        split at h
        · obtain ⟨n, _, h⟩ := bind_eq_ok.mp h
          cases h
          exact ⟨fun h => (nomatch h), fun _ => ⟨by omega, rfl, rfl, fun h => (nomatch h)⟩⟩
        · cases h
          exact ⟨fun h => (nomatch h), fun _ => ⟨by omega, rfl, rfl, fun _ => by simp; omega⟩⟩

theorem collect_counts {α : Type} {m : Mem} {f : Val → R α} {n : Nat} : ∀ {it : Iter} {ts : List α},
    it.index ≤ it.len → (it.next = none → it.index = it.len) → collect m f n it = .ok ts → ts.length = it.len - it.index := by
  induction n with
  | zero => intro it ts _ _ h; cases h
  | succ n ih =>
    intro it ts h0 h1 h
    unfold collect at h
    obtain ⟨⟨x, it'⟩, hs, h⟩ := bind_eq_ok.mp h
    obtain ⟨g1, g2⟩ := step_counts hs h0 h1
    cases x with
    | none => cases h; have := g1 rfl; simp; omega
    | some x =>
      obtain ⟨t, ht, h⟩ := bind_eq_ok.mp h
      obtain ⟨rest, hr, h⟩ := bind_eq_ok.mp h
      cases h
      obtain ⟨a, b, c, d⟩ := g2 rfl
      have := ih (by omega) d hr
      simp; omega

/-! ## The loops -/

theorem andThen_assoc (x : Enc.OutR) (f g : Enc → Enc.OutR) :
    Enc.andThen (Enc.andThen x f) g = Enc.andThen x fun e => Enc.andThen (f e) g := by
  unfold Enc.andThen
  cases x with
  | ok p => obtain ⟨e, r⟩ := p; cases r <;> rfl
  | _ => rfl

theorem writeItems_eq {m : Mem} {c : Cfg} {w : Val → Enc → Enc.OutR} {n : Nat} : ∀ {it : Iter} {xs : List Val}
    {parts : List (List Op)} (e : Enc), collect m .ok n it = .ok xs → parts.length = xs.length →
    (∀ (i : Nat) x p, xs[i]? = some x → parts[i]? = some p → ∀ e : Enc, w x e = (e.runStop c p).lift) →
    Enc.writeItems m w n it e = (e.runStop c parts.flatten).lift := by
  induction n with
  | zero => intro it xs parts e h; cases h
  | succ n ih =>
    intro it xs parts e h hl he
    unfold collect at h
    unfold Enc.writeItems
    obtain ⟨⟨x, it'⟩, hs, h⟩ := bind_eq_ok.mp h
    rw [hs]
    cases x with
    | none =>
      cases h
      cases parts with
      | nil => rfl
      | cons _ _ => cases hl
    | some x =>
      obtain ⟨t, ht, h⟩ := bind_eq_ok.mp h
      obtain ⟨rest, hr, h⟩ := bind_eq_ok.mp h
      cases ht; cases h
      cases parts with
      | nil => cases hl
      | cons p parts =>
        simp only [ok_bind]
        rw [he 0 x p rfl rfl e, List.flatten_cons, Enc.runStop_append]
        congr 1
        funext e
        exact ih e hr (by simpa using hl) (fun i x' p' a b => he (i + 1) x' p' (by simpa using a) (by simpa using b))

theorem writeEntries_eq {m : Mem} {c : Cfg} {scope : Option SharedKeys} {w : Val → Enc → Enc.OutR} {n : Nat} : ∀ {it : Iter}
    {xs : List (List UInt8 × Val)} {parts : List (RStr × List Op)} (e : Enc), collectDict m scope .ok n it = .ok xs →
    parts.length = xs.length →
    (∀ (i : Nat) x p, xs[i]? = some x → parts[i]? = some p → p.1.bytes = x.1 ∧ ∀ e : Enc, w x.2 e = (e.runStop c p.2).lift) →
    Enc.writeEntries c m scope w n it e = (e.runStop c (parts.map fun p => Op.key p.1 :: p.2).flatten).lift := by
  induction n with
  | zero => intro it xs parts e h; cases h
  | succ n ih =>
    intro it xs parts e h hl he
    unfold collectDict at h
    unfold Enc.writeEntries
    obtain ⟨⟨x, it'⟩, hs, h⟩ := bind_eq_ok.mp h
    rw [hs]
    cases x with
    | none =>
      cases h
      cases parts with
      | nil => rfl
      | cons _ _ => cases hl
    | some x =>
      obtain ⟨k, x⟩ := x
      obtain ⟨t, ht, h⟩ := bind_eq_ok.mp h
      obtain ⟨rest, hr, h⟩ := bind_eq_ok.mp h
      cases ht; cases h
      cases parts with
      | nil => cases hl
      | cons p parts =>
        obtain ⟨h1, h2⟩ := he 0 _ p rfl rfl
        simp only [ok_bind]
        rw [List.map_cons, List.flatten_cons, List.cons_append, Enc.runStop_cons]
        have hk : ∀ e : Enc, Enc.writeKeyStr c e k = (e.step c (.key p.1)).lift := by
          intro e
          obtain ⟨⟨pk, pv⟩, ps⟩ := p
          dsimp only at h1
          subst h1
          unfold Enc.writeKeyStr
          rw [dif_pos pv]
          rfl
        rw [hk]
        congr 1
        funext e
        rw [h2 e, Enc.runStop_append]
        congr 1
        funext e
        exact ih e hr (by simpa using hl) (fun i x' p' a b => he (i + 1) x' p' (by simpa using a) (by simpa using b))

/-- Choose calls for each. -/
theorem parts_pick {α β γ : Type} {P : α → β → γ → Prop} {xs : List α} : ∀ {ts : List β}, xs.length = ts.length →
    (∀ (i : Nat) x t, xs[i]? = some x → ts[i]? = some t → ∃ s, P x t s) →
    ∃ ss : List γ, ss.length = ts.length ∧
      ∀ (i : Nat) x t s, xs[i]? = some x → ts[i]? = some t → ss[i]? = some s → P x t s := by
  induction xs with
  | nil =>
    intro ts hl _
    cases ts with
    | nil => exact ⟨[], rfl, by simp⟩
    | cons _ _ => cases hl
  | cons x xs ih =>
    intro ts hl h
    cases ts with
    | nil => cases hl
    | cons t ts =>
      obtain ⟨s, h1⟩ := h 0 x t rfl rfl
      obtain ⟨ss, h2, h3⟩ := ih (ts := ts) (by simpa using hl) (fun i y t' a b => h (i + 1) y t' (by simpa using a) (by simpa using b))
      refine ⟨s :: ss, by simp [h2], ?_⟩
      intro i y t' s' a b c
      cases i with
      | zero => simp at a b c; subst a; subst b; subst c; exact h1
      | succ i => exact h3 i y t' s' (by simpa using a) (by simpa using b) (by simpa using c)

/-! ## Scalars -/

/-- The scalar arms of `write_fleece`. -/
theorem writeFleece_scalar {m : Mem} {F : FloatOps} {scope : Option SharedKeys} {v : Val} {f : Nat} {t : Tree} {ty : ValueType}
    {K : List UInt8 → Prop} (hm : m.data.length < 2 ^ 63) (ht : v.type m = .ok ty) (hty : ty.isScalar = true)
    (h : readTree m F scope (f + 1) v = .ok t) (hc : Copies m F scope K (f + 1) v) :
    ∃ x : Scalar, x.Survives ∧ x.tree F = t ∧
      ∀ c e, Enc.writeFleece c m F scope (f + 1) v e = (Enc.writeValue c e x).lift := by
  -- an encoder without open collection refuses both
  have hgo : ∀ {x : Scalar} {c : Cfg} {e : Enc} {k : Enc.OutR}, (e.stack.isEmpty = false → k = (Enc.writeValue c e x).lift) →
      (if e.stack.isEmpty = true ∧ ty ≠ .dict ∧ ty ≠ .array then .ok (e, .error .collectionNotOpen) else k) =
        (Enc.writeValue c e x).lift := by
    intro x c e k hk
    have h1 : ty ≠ .dict ∧ ty ≠ .array := by constructor <;> (rintro rfl; cases hty)
    cases he : e.stack.isEmpty with
    | true =>
      rw [if_pos ⟨rfl, h1⟩]
      unfold Enc.writeValue
      rw [he, if_pos rfl]
      rfl
    | false =>
      rw [if_neg (by simp)]
      exact hk he
  have hpush : ∀ {x : Scalar} {s : SizedValue} {c : Cfg} {e : Enc}, x.toSized = some s → e.stack.isEmpty = false →
      (e.push s).lift = (Enc.writeValue c e x).lift := by
    intro x s c e hs he
    unfold Enc.writeValue
    rw [he, hs]
    rfl
  unfold readTree at h
  rw [ht] at h
  simp only [ok_bind] at h
  cases ty <;> dsimp only at h
  case null =>
    cases h
    refine ⟨.null, trivial, rfl, fun c e => ?_⟩
    unfold Enc.writeFleece; rw [ht]; simp only [ok_bind]
    exact hgo fun he => hpush rfl he
  case undefined =>
    cases h
    refine ⟨.undefined, trivial, rfl, fun c e => ?_⟩
    unfold Enc.writeFleece; rw [ht]; simp only [ok_bind]
    exact hgo fun he => hpush rfl he
  case false =>
    cases h
    refine ⟨.bool false, trivial, rfl, fun c e => ?_⟩
    unfold Enc.writeFleece; rw [ht]; simp only [ok_bind]
    exact hgo fun he => hpush rfl he
  case true =>
    cases h
    refine ⟨.bool true, trivial, rfl, fun c e => ?_⟩
    unfold Enc.writeFleece; rw [ht]; simp only [ok_bind]
    exact hgo fun he => hpush rfl he
  case short =>
    obtain ⟨i, hi, h⟩ := bind_eq_ok.mp h
    cases h
    have hs : v.shortInt m = .ok i := by
      unfold Val.toInt at hi; rw [ht] at hi; exact hi
    have hr := shortInt_range hs
    have he : (Int16.ofInt i).toInt = i := by
      have hz : Int16.size = 2 ^ 16 := rfl
      rw [Int16.toInt_ofInt, hz, Int.bmod_eq_of_le (by unfold ShortRange at hr; omega) (by unfold ShortRange at hr; omega)]
    have hsh : v.toShort m F = .ok i := by unfold Val.toShort; rw [ht]; exact hs
    refine ⟨.i16 (Int16.ofInt i), ?_, ?_, fun c e => ?_⟩
    · show ShortRange _; rw [he]; exact hr
    · simp only [Scalar.tree, he]
    · unfold Enc.writeFleece; rw [ht]; simp only [ok_bind, hsh]
      exact hgo fun _ => rfl
  case int =>
    obtain ⟨i, hi, h⟩ := bind_eq_ok.mp h
    cases h
    have hr := hc.1 ht i hi
    have he : (Int64.ofInt i).toInt = i := by
      have hz : Int64.size = 2 ^ 64 := rfl
      rw [Int64.toInt_ofInt, hz, Int.bmod_eq_of_le (by unfold ShortRange at hr; omega) (by unfold ShortRange at hr; omega)]
    refine ⟨.i64 (Int64.ofInt i), ?_, ?_, fun c e => ?_⟩
    · show ShortRange _; rw [he]; exact hr
    · simp only [Scalar.tree, he]
    · unfold Enc.writeFleece; rw [ht]; simp only [ok_bind, hi]
      exact hgo fun _ => rfl
  case unsignedInt =>
    obtain ⟨n, hn, h⟩ := bind_eq_ok.mp h
    cases h
    have hk := hc.2.1 ht n hn
    have hlt : n < 2 ^ 64 := by
      have hn := hn
      unfold Val.toUnsignedInt at hn
      obtain ⟨i, _, hn⟩ := bind_eq_ok.mp hn
      simp only [pure_eq, ok.injEq] at hn
      omega
    have he : (UInt64.ofNat n).toNat = n := by simp; omega
    refine ⟨.u64 (UInt64.ofNat n), ?_, ?_, fun c e => ?_⟩
    · show _ ∨ _; rw [he]; exact hk
    · simp only [Scalar.tree, he]
    · unfold Enc.writeFleece; rw [ht]; simp only [ok_bind, hn]
      exact hgo fun _ => rfl
  case float =>
    obtain ⟨d, hd, h⟩ := bind_eq_ok.mp h
    cases h
    have hf : v.toFloat m F = .ok (F.narrow d) := by unfold Val.toFloat; rw [hd]; rfl
    refine ⟨.f32 (F.narrow d), trivial, ?_, fun c e => ?_⟩
    · simp only [Scalar.tree, hc.2.2.1 ht d hd]
    · unfold Enc.writeFleece; rw [ht]; simp only [ok_bind, hf]
      exact hgo fun _ => rfl
  case double32 =>
    obtain ⟨d, hd, h⟩ := bind_eq_ok.mp h
    cases h
    refine ⟨.f64 d, trivial, rfl, fun c e => ?_⟩
    unfold Enc.writeFleece; rw [ht]; simp only [ok_bind, hd]
    exact hgo fun _ => rfl
  case double64 =>
    obtain ⟨d, hd, h⟩ := bind_eq_ok.mp h
    cases h
    refine ⟨.f64 d, trivial, rfl, fun c e => ?_⟩
    unfold Enc.writeFleece; rw [ht]; simp only [ok_bind, hd]
    exact hgo fun _ => rfl
  case string =>
    obtain ⟨s, hs, h⟩ := bind_eq_ok.mp h
    cases h
    obtain ⟨h1, h2⟩ := toStr_valid hs
    refine ⟨.str ⟨s, h1⟩, ?_, rfl, fun c e => ?_⟩
    · show s.length < _; omega
    · unfold Enc.writeFleece; rw [ht]; simp only [ok_bind, hs]
      exact hgo fun _ => by rw [dif_pos h1]
  case data =>
    obtain ⟨d, hd, h⟩ := bind_eq_ok.mp h
    cases h
    have := toData_length hd
    refine ⟨.data d, ?_, rfl, fun c e => ?_⟩
    · show d.length < _; omega
    · unfold Enc.writeFleece; rw [ht]; simp only [ok_bind, hd]
      exact hgo fun _ => rfl
  all_goals cases hty

/-- `write_fleece` of a readable value is the calls that spell it, up to the first that fails. -/
theorem writeFleece_spells {m : Mem} {F : FloatOps} {scope : Option SharedKeys} (hm : m.data.length < 2 ^ 63) :
    ∀ {f : Nat} {v : Val} {t : Tree}, Copies m F scope (fun k => validUtf8 k = true) f v → readTree m F scope f v = .ok t →
      ∃ ops, Spells F t ops ∧ ∀ c e, Enc.writeFleece c m F scope f v e = (Enc.runStop c e ops).lift := by
  intro f
  induction f with
  | zero => intro v t _ h; cases h
  | succ f ih =>
    intro v t hcv h
    have h0 := h
    unfold readTree at h
    obtain ⟨ty, ht, h⟩ := bind_eq_ok.mp h
    by_cases hsca : ty.isScalar = true
    · obtain ⟨x, hx, rfl, hw⟩ := writeFleece_scalar hm ht hsca h0 hcv
      refine ⟨[.value x], .scalar hx, fun c e => ?_⟩
      rw [hw, Enc.runStop_one]
      rfl
    · cases ty <;> first | exact absurd rfl hsca | skip
      case array =>
        dsimp only at h
        obtain ⟨it, hit, h⟩ := bind_eq_ok.mp h
        obtain ⟨ts, hts, h⟩ := bind_eq_ok.mp h
        cases h
        obtain ⟨c1, c2, c3⟩ := iter_counts hit
        have hlen : ts.length = it.len := by
          have := collect_counts (by omega) (fun h => by have := c3 h; omega) hts
          omega
        obtain ⟨xs, k1, k2, k3⟩ := collect_values hts
        have hex : ∀ (i : Nat) x t, xs[i]? = some x → ts[i]? = some t →
            ∃ p, Spells F t p ∧ ∀ c e, Enc.writeFleece c m F scope f x e = (Enc.runStop c e p).lift := fun i x t hx ht' =>
          ih (hcv.2.2.2.1 ht it xs hit k1 x (List.mem_of_getElem? hx)) (k3 i x t hx ht')
        obtain ⟨parts, p1, p2⟩ := parts_pick (P := fun x t p => Spells F t p ∧
          ∀ c e, Enc.writeFleece c m F scope f x e = (Enc.runStop c e p).lift) k2 hex
        refine ⟨_, .arr (parts := parts) (n := ts.length) (Or.inl (by have := weights_ge ts; omega)) p1 (fun i x p a b => ?_), fun c e => ?_⟩
        · have hi : i < xs.length := by have := (List.getElem?_eq_some_iff.mp a).1; omega
          exact (p2 i xs[i] x p (by simp [hi]) a b).1
        · unfold Enc.writeFleece
          rw [ht]
          simp only [ok_bind]
          rw [if_neg (by simp)]
          simp only [c1, ok_bind, Enc.runStop_cons, hlen]
          show Enc.andThen _ _ = Enc.andThen _ _
          congr 1
          funext e
          have := writeItems_eq (c := c) (w := Enc.writeFleece c m F scope f) (parts := parts) e k1 (by omega)
            (fun i x p a b => by
              have hi : i < ts.length := by have := (List.getElem?_eq_some_iff.mp a).1; omega
              exact (p2 i x ts[i] p a (by simp [hi]) b).2 c)
          simp only [hit, ok_bind]
          rw [this, Enc.runStop_append]
          congr 1
          funext e
          rw [Enc.runStop_one]
          rfl
      case dict =>
        dsimp only at h
        obtain ⟨it, hit, h⟩ := bind_eq_ok.mp h
        obtain ⟨ts, hts, h⟩ := bind_eq_ok.mp h
        cases h
        obtain ⟨xs, k1, k2, k3⟩ := collectDict_values hts
        have hex : ∀ (i : Nat) x t, xs[i]? = some x → ts[i]? = some t →
            ∃ p : RStr × List Op, (p.1.bytes = t.1 ∧ p.1.bytes = x.1 ∧ Spells F t.2 p.2) ∧
              ∀ c e, Enc.writeFleece c m F scope f x.2 e = (Enc.runStop c e p.2).lift := fun i x t hx ht' => by
          obtain ⟨k4, k5⟩ := k3 i x t hx ht'
          obtain ⟨k6, k7⟩ := hcv.2.2.2.2 ht it xs hit k1 x (List.mem_of_getElem? hx)
          obtain ⟨p, a, b⟩ := ih k7 k5
          exact ⟨(⟨x.1, k6⟩, p), ⟨k4, rfl, a⟩, b⟩
        obtain ⟨parts, p1, p2⟩ := parts_pick (P := fun x t (p : RStr × List Op) =>
          (p.1.bytes = t.1 ∧ p.1.bytes = x.1 ∧ Spells F t.2 p.2) ∧
          ∀ c e, Enc.writeFleece c m F scope f x.2 e = (Enc.runStop c e p.2).lift) k2 hex
        refine ⟨_, .dict (parts := parts) p1 (fun i x p a b => ?_) (fun i x p a b => ?_), fun c e => ?_⟩
        · have hi : i < xs.length := by have := (List.getElem?_eq_some_iff.mp a).1; omega
          exact (p2 i xs[i] x p (by simp [hi]) a b).1.1
        · have hi : i < xs.length := by have := (List.getElem?_eq_some_iff.mp a).1; omega
          exact (p2 i xs[i] x p (by simp [hi]) a b).1.2.2
        · unfold Enc.writeFleece
          rw [ht]
          simp only [ok_bind]
          rw [if_neg (by simp)]
          simp only [Enc.runStop_cons]
          show Enc.andThen _ _ = Enc.andThen _ _
          congr 1
          funext e
          have := writeEntries_eq (c := c) (w := Enc.writeFleece c m F scope f) (parts := parts) e k1 (by omega)
            (fun i x p a b => by
              have hi : i < ts.length := by have := (List.getElem?_eq_some_iff.mp a).1; omega
              obtain ⟨q1, q2⟩ := p2 i x ts[i] p a (by simp [hi]) b
              exact ⟨q1.2.1, q2 c⟩)
          simp only [hit, ok_bind]
          rw [this, Enc.runStop_append]
          congr 1
          funext e
          rw [Enc.runStop_one]
          rfl
      case pointer => cases h

/-! ## What the calls do -/

theorem Spells.accepted {F : FloatOps} {t : Tree} {ops : List Op} (h : Spells F t ops) (hw : t.weight < 2 ^ 60) :
    ∀ op ∈ ops, op.Accepted := by
  induction h with
  | @scalar x keep =>
    intro op hop
    simp only [List.mem_singleton] at hop
    subst hop
    exact keep
  | @arr xs parts n cap len each ih =>
    have hitems : ∀ (xs : List Tree) (parts : List (List Op)), parts.length = xs.length → Tree.weights xs < 2 ^ 60 →
        (∀ (i : Nat) x p, xs[i]? = some x → parts[i]? = some p → x.weight < 2 ^ 60 → ∀ op ∈ p, op.Accepted) →
        ∀ op ∈ parts.flatten, op.Accepted := by
      intro xs
      induction xs with
      | nil => intro parts hl _ _; cases parts <;> first | (cases hl; done) | simp
      | cons x xs ih2 =>
        intro parts hl hwl he
        cases parts with
        | nil => cases hl
        | cons p parts =>
          simp only [Tree.weights] at hwl
          intro op hop
          rw [List.flatten_cons, List.mem_append] at hop
          rcases hop with hop | hop
          · exact he 0 x p rfl rfl (by omega) op hop
          · exact ih2 parts (by simpa using hl) (by omega)
              (fun i x' p' a b => he (i + 1) x' p' (by simpa using a) (by simpa using b)) op hop
    simp only [Tree.weight] at hw
    have hl := weights_ge xs
    intro op hop
    simp only [List.mem_cons, List.mem_append, List.not_mem_nil, or_false] at hop
    rcases hop with rfl | hop | rfl
    · show _ * 4 < _; rcases cap with h | h <;> omega
    · exact hitems xs parts len (by omega) ih op hop
    · trivial
  | @dict kvs parts len keys each ih =>
    have hitems : ∀ (xs : List (List UInt8 × Tree)) (parts : List (RStr × List Op)), parts.length = xs.length →
        Tree.entryWeights xs < 2 ^ 60 →
        (∀ (i : Nat) x p, xs[i]? = some x → parts[i]? = some p → x.2.weight < 2 ^ 60 → ∀ op ∈ p.2, op.Accepted) →
        ∀ op ∈ (parts.map fun p => Op.key p.1 :: p.2).flatten, op.Accepted := by
      intro xs
      induction xs with
      | nil => intro parts hl _ _; cases parts <;> first | (cases hl; done) | simp
      | cons x xs ih2 =>
        intro parts hl hwl he
        cases parts with
        | nil => cases hl
        | cons p parts =>
          simp only [Tree.entryWeights] at hwl
          intro op hop
          rw [List.map_cons, List.flatten_cons, List.mem_append, List.mem_cons] at hop
          rcases hop with (rfl | hop) | hop
          · trivial
          · exact he 0 x p rfl rfl (by omega) op hop
          · exact ih2 parts (by simpa using hl) (by omega)
              (fun i x' p' a b => he (i + 1) x' p' (by simpa using a) (by simpa using b)) op hop
    simp only [Tree.weight] at hw
    intro op hop
    simp only [List.mem_cons, List.mem_append, List.not_mem_nil, or_false] at hop
    rcases hop with rfl | hop | rfl
    · trivial
    · exact hitems kvs parts len (by omega) ih op hop
    · trivial

theorem Enc.run_append_ok {c : Cfg} {r : List Op} (l : List Op) : ∀ {e e' : Enc} {rs : List (Except EncodeError Unit)},
    e.run c (l ++ r) = .ok (e', rs) →
    ∃ e1 rs1 rs2, e.run c l = .ok (e1, rs1) ∧ e1.run c r = .ok (e', rs2) ∧ rs = rs1 ++ rs2 := by
  induction l with
  | nil => intro e e' rs h; exact ⟨e, [], rs, rfl, h, rfl⟩
  | cons op l ih =>
    intro e e' rs h
    obtain ⟨e1, r1, rs', h1, h2, rfl⟩ := Enc.run_cons h
    obtain ⟨e2, a, b, g1, g2, rfl⟩ := ih h2
    exact ⟨e2, r1 :: a, b, by simp [Enc.run, h1, g1], g2, rfl⟩

/-- It stops after some of the calls. -/
theorem Enc.runStop_prefix {c : Cfg} (ops : List Op) : ∀ {e e' : Enc} {r : Except EncodeError Unit},
    e.runStop c ops = .ok (e', r) → ∃ pre suf rs, ops = pre ++ suf ∧ e.run c pre = .ok (e', rs) := by
  induction ops with
  | nil => intro e e' r h; cases h; exact ⟨[], [], [], rfl, rfl⟩
  | cons op ops ih =>
    intro e e' r h
    unfold Enc.runStop at h
    obtain ⟨⟨e1, r1⟩, h1, h⟩ := bind_eq_ok.mp h
    cases r1 with
    | error x => cases h; exact ⟨[op], ops, [.error x], rfl, by simp [Enc.run, h1]⟩
    | ok u =>
      obtain ⟨pre, suf, rs, h2, h3⟩ := ih h
      exact ⟨op :: pre, suf, .ok u :: rs, by rw [h2]; rfl, by simp [Enc.run, h1, h3]⟩

end Fleece
