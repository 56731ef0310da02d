import Verif.Proofs.Broken

/-!
# Documents that lose dict entries

`Cut data F scope false p e t`: like `Rep` for narrow collections, but key slots may also hold a number that is not a code of
`scope`, where the dict iterator stops. `Cut data F scope true q e t`: the slot at `q`.
-/

namespace Fleece
open Res

/-- The pairs up to the first unreadable key. -/
def cutPairs : List (Option (List UInt8)) → List Tree → List (List UInt8 × Tree)
  | some k :: ks, v :: vs => (k, v) :: cutPairs ks vs
  | _, _ => []

/-- What a stored key is read as. -/
def Key.view (scope : Option SharedKeys) : Key → Option (List UInt8)
  | .shared c => scope.bind fun sk => sk.decode c
  | .string s => some s

/-- A key slot: a key that is read as `k`; `none` if it is not read as anything. -/
def CutKey (data : List UInt8) (F : FloatOps) (scope : Option SharedKeys) (q : Nat) (k : Option (List UInt8)) : Prop :=
  ∃ key : Key, KeyAt data F false q key ∧ k = key.view scope

/-- See the module comment. -/
inductive Cut (data : List UInt8) (F : FloatOps) (scope : Option SharedKeys) : Bool → Nat → Nat → Tree → Prop where
  | scalar {p : Nat} {bs : List UInt8} {ty : ValueType} {t : Tree} (hat : At data p bs) (hs : ScalarBytes F bs ty t) :
      Cut data F scope false p (p + bs.length) t
  | inline {q : Nat} {bs : List UInt8} {ty : ValueType} {t : Tree} (hat : At data q bs)
      (len : bs.length = 2) (hs : ScalarBytes F bs ty t) : Cut data F scope true q (q + 2) t
  | ptr {q p e : Nat} {t : Tree} (hat : At data q (ptrBytes false (q - p))) (lt : p < e) (le : e ≤ q)
      (even : (q - p) % 2 = 0) (max : q - p ≤ maxOff false) (tgt : Cut data F scope false p e t) : Cut data F scope true q (q + 2) t
  | arr {p : Nat} {xs : List Tree} (hat : At data p (headerBytes 0x60 xs.length false))
      (small : xs.length < 2 ^ 32) (fits : p + hdrLen xs.length + xs.length * 2 ≤ data.length)
      (each : ∀ (i : Nat) (t : Tree), xs[i]? = some t → Cut data F scope true (p + hdrLen xs.length + i * 2)
        (p + hdrLen xs.length + i * 2 + 2) t) :
      Cut data F scope false p (p + hdrLen xs.length + xs.length * 2) (.arr xs)
  | dict {p : Nat} {ks : List (Option (List UInt8))} {vs : List Tree}
      (hat : At data p (headerBytes 0x70 vs.length false)) (small : vs.length < 2 ^ 32)
      (fits : p + hdrLen vs.length + vs.length * 2 * 2 ≤ data.length) (len : ks.length = vs.length)
      (keys : ∀ (i : Nat) (k : Option (List UInt8)), ks[i]? = some k → CutKey data F scope (p + hdrLen vs.length + 2 * i * 2) k)
      (vals : ∀ (i : Nat) (t : Tree), vs[i]? = some t →
        Cut data F scope true (p + hdrLen vs.length + (2 * i + 1) * 2) (p + hdrLen vs.length + (2 * i + 1) * 2 + 2) t) :
      Cut data F scope false p (p + hdrLen vs.length + vs.length * 2 * 2) (.dict (cutPairs ks vs))

variable {scope : Option SharedKeys}

theorem CutKey.mono {data data' : List UInt8} {F : FloatOps} {q : Nat} {k : Option (List UInt8)} (h : CutKey data F scope q k)
    (hd : data <+: data') : CutKey data' F scope q k := by
  obtain ⟨key, h1, h2⟩ := h
  exact ⟨key, h1.mono hd, h2⟩

theorem Cut.mono {data data' : List UInt8} {F : FloatOps} {k : Bool} {p e : Nat} {t : Tree} (h : Cut data F scope k p e t)
    (hd : data <+: data') : Cut data' F scope k p e t := by
  have hl := hd.length_le
  induction h with
  | scalar hat hb => exact .scalar (hat.mono hd) hb
  | inline hat len hb => exact .inline (hat.mono hd) len hb
  | ptr hat lt le even max _ ih => exact .ptr (hat.mono hd) lt le even max ih
  | arr hat small fits _ ih => exact .arr (hat.mono hd) small (by omega) ih
  | dict hat small fits len keys _ ih =>
    exact .dict (hat.mono hd) small (by omega) len (fun i k hk => (keys i k hk).mono hd) ih

theorem Cut.le {data : List UInt8} {F : FloatOps} {k : Bool} {p e : Nat} {t : Tree} (h : Cut data F scope k p e t) :
    e ≤ data.length ∧ p + 2 ≤ e := by
  cases h with
  | scalar hat hs => have := hat.le; have := hs.two; omega
  | inline hat len hs => have := hat.le; omega
  | ptr hat lt le even max tgt =>
    have := hat.le
    rw [ptrBytes_length] at this
    simp only [Bool.false_eq_true, if_false] at this
    omega
  | @arr p xs hat small fits each => have := hdrLen_ge xs.length; omega
  | @dict p ks vs hat small fits len keys vals => have := hdrLen_ge vs.length; omega

/-- How a key is read. -/
def CutRead (m : Mem) (scope : Option SharedKeys) (e : Val) : Option (List UInt8) → Prop
  | some s => KeyRead m scope e s
  | none => e.type m = .ok .short ∧ ∃ c, e.getShort m = .ok c ∧ (scope.bind fun sk => sk.decode c) = none

section
variable {m : Mem} {v : Val}

/-- The dict iterator stops at a number that is not a code. -/
theorem Coll.dictStep_stop {w : Bool} {fp n i : Nat} {ek : Val} (h : Coll m v w n fp) (hi : i < n)
    (hk : resolve m w (slotAt (v.pos + fp) (wof w) i) = .ok ek) (ht : CutRead m scope ek none) :
    ∃ it, (iterAt (v.pos + fp) (wof w) n i).dictStep m scope = .ok (none, it) := by
  obtain ⟨ht, c, hg, hd⟩ := ht
  unfold Iter.dictStep
  rw [h.step hi hk]
  cases scope with
  | none =>
    simp only [ok_bind, ht, if_true, pure_eq]
    exact ⟨_, rfl⟩
  | some sk =>
    simp only [Option.bind_some] at hd
    simp only [ok_bind, ht, if_true, pure_eq, hg, hd]
    exact ⟨_, rfl⟩

theorem Coll.collectDict_cut (f : Val → R Tree) {w : Bool} {fp : Nat} {ks : List (Option (List UInt8))} {vs : List Tree}
    (hlen : ks.length = vs.length) (h : Coll m v w (vs.length * 2) fp)
    (hk : ∀ (j : Nat) (k : Option (List UInt8)), ks[j]? = some k →
      ∃ ek, resolve m w (slotAt (v.pos + fp) (wof w) (2 * j)) = .ok ek ∧ CutRead m scope ek k)
    (he : ∀ (j : Nat) (t : Tree), vs[j]? = some t →
      ∃ ev, resolve m w (slotAt (v.pos + fp) (wof w) (2 * j + 1)) = .ok ev ∧ f ev = .ok t) (i : Nat) (fuel : Nat)
    (hfuel : vs.length - i < fuel) :
    collectDict m scope f fuel (iterAt (v.pos + fp) (wof w) (vs.length * 2) (2 * i)) =
      .ok (cutPairs (ks.drop i) (vs.drop i)) := by
  induction fuel generalizing i with
  | zero => omega
  | succ fuel ih =>
    unfold collectDict
    by_cases hi : i < vs.length
    · have hi' : i < ks.length := by omega
      obtain ⟨ek, h1, h2⟩ := hk i ks[i] (List.getElem?_eq_getElem hi')
      obtain ⟨ev, h3, h4⟩ := he i vs[i] (List.getElem?_eq_getElem hi)
      rw [List.drop_eq_getElem_cons hi, List.drop_eq_getElem_cons hi']
      cases hki : ks[i] with
      | some s =>
        rw [hki] at h2
        rw [h.dictStep_pair (by omega) h1 h2 h3]
        simp only [ok_bind, h4]
        rw [show 2 * i + 2 = 2 * (i + 1) by omega, ih (i + 1) (by omega)]
        rfl
      | none =>
        rw [hki] at h2
        obtain ⟨it, h5⟩ := h.dictStep_stop (by omega) h1 h2
        rw [h5]
        rfl
    · unfold Iter.dictStep
      rw [iterAt_step_end (by omega)]
      rw [List.drop_eq_nil_of_le (by omega), List.drop_eq_nil_of_le (by omega)]; rfl

end

theorem CutKey.ok {m : Mem} {F : FloatOps} {q : Nat} {k : Option (List UInt8)} (h : CutKey m.data F scope q k) :
    SlotOK m false q fun e => CutRead m scope e k := by
  obtain ⟨key, h0, rfl⟩ := h
  obtain ⟨h1, h2, e, h3, h4, h5⟩ := KeyAt.ok h0
  refine ⟨h1, h2, e, h3, ?_⟩
  cases key with
  | string s => exact h5.read h4 rfl
  | shared c =>
    cases hv : (Key.shared c).view scope with
    | some s =>
      cases scope with
      | none => cases hv
      | some sk => exact h5.read h4 ⟨sk, rfl, hv⟩
    | none =>
      cases h5 with
      | short g1 g2 => exact ⟨g1, c, g2, hv⟩

/-- What `Cut` says is what the reader sees. -/
theorem Cut.ok {m : Mem} (hbase : m.base + m.data.length < 2 ^ 64) {F : FloatOps} {k : Bool} {p e : Nat} {t : Tree}
    (h : Cut m.data F scope k p e t) :
    match k with
    | false => ∀ v : Val, v.pos = p → v.In m → e ≤ p + v.len → ValueOK m F scope v e t
    | true => SlotOK m false p (fun x => ∀ f, p + 1 ≤ f → readTree m F scope f x = .ok t) := by
  induction h with
  | @scalar p bs ty t hat hs =>
    intro v hp hin hl
    have := value_scalar (scope := scope) (hat.holds hp hin (by omega)) hs
    rw [hp] at this
    exact this
  | @inline q bs ty t hat len hs =>
    dsimp only
    refine slot_scalar (w := false) hat len hs fun hh f hf => ?_
    obtain ⟨f, rfl⟩ : ∃ k, f = k + 1 := ⟨f - 1, by omega⟩
    exact hs.read m _ scope f hh
  | @ptr q p e t hat lt le even max tgt ih =>
    dsimp only at ih ⊢
    have hle := hat.le
    have := ih ⟨p, q - p⟩ rfl (by unfold Val.In; simp only; omega) (by simp only; omega)
    obtain ⟨ty, h1, h2⟩ := this.type
    refine slot_ptr hat (by omega) even max h1 h2 (fun f hf => this.valid f false q (by omega) le) fun f hf => ?_
    exact this.read f (by omega)
  | @arr p xs hat small fits each ih =>
    dsimp only at ih ⊢
    intro v hp hin hl
    have hhl := headerBytes_length 0x60 (n := xs.length) (by omega) false
    have hge := hdrLen_ge xs.length
    have hhd : headerSize xs.length ≤ hdrLen xs.length := by unfold hdrLen; omega
    have hh : Holds m v (headerBytes 0x60 xs.length false) := hat.holds hp hin (by omega)
    obtain ⟨h1, h2, h3, h4⟩ := header_read false (n := xs.length) (by omega) hh
    simp only [Bool.false_eq_true, if_false] at h1 h3
    have hwf : xs.length * wof false = xs.length * 2 := rfl
    have hcoll : Coll m v false xs.length (hdrLen xs.length) :=
      ⟨hin, h2, h3, h4, by omega, by omega⟩
    refine ⟨⟨_, h1, by simp⟩, ?_, ?_⟩
    · intro f w' de hf hde
      obtain ⟨f, rfl⟩ : ∃ k, f = k + 1 := ⟨f - 1, by omega⟩
      unfold validateGo
      rw [h1]
      simp only [ok_bind]
      refine arrayValidate_intro h2 h3 h4 (by omega) (by omega) (by omega) ?_
      refine validateElems_intro fun i hi => ?_
      have := ih i _ (List.getElem?_eq_getElem hi)
      rw [hp]
      exact ⟨_, this.raw, this.valid f (by omega)⟩
    · intro f hf
      obtain ⟨f, rfl⟩ : ∃ k, f = k + 1 := ⟨f - 1, by omega⟩
      unfold readTree
      rw [h1]
      simp only [ok_bind]
      rw [hcoll.iter]
      simp only [ok_bind]
      rw [hcoll.collect_list (readTree m F scope f) _ 0]
      · simp
      · simp [iterAt]
      · intro j t ht
        have hj : j < xs.length := (List.getElem?_eq_some_iff.mp ht).1
        obtain ⟨x, hx, hr⟩ := (ih j t ht).res
        refine ⟨x, ?_, hr f (by omega)⟩
        unfold slotAt
        rw [hp]; exact hx
  | @dict p ks vs hat small fits len keys vals ih =>
    dsimp only at ih ⊢
    intro v hp hin hl
    have hhl := headerBytes_length 0x70 (n := vs.length) (by omega) false
    have hge := hdrLen_ge vs.length
    have hhd : headerSize vs.length ≤ hdrLen vs.length := by unfold hdrLen; omega
    have hh : Holds m v (headerBytes 0x70 vs.length false) := hat.holds hp hin (by omega)
    obtain ⟨h1, h2, h3, h4⟩ := header_read true (n := vs.length) (by omega) hh
    simp only [if_true] at h1 h3
    have hwf : vs.length * 2 * wof false = vs.length * 2 * 2 := rfl
    have hcoll : Coll m v false (vs.length * 2) (hdrLen vs.length) :=
      ⟨hin, h2, h3, h4, by omega, by omega⟩
    refine ⟨⟨_, h1, by simp⟩, ?_, ?_⟩
    · intro f w' de hf hde
      obtain ⟨f, rfl⟩ : ∃ k, f = k + 1 := ⟨f - 1, by omega⟩
      unfold validateGo
      rw [h1]
      simp only [ok_bind]
      refine arrayValidate_intro h2 h3 h4 (by omega) (by omega) (by omega) ?_
      refine validateElems_intro fun i hi => ?_
      rw [hp]
      rcases Nat.mod_two_eq_zero_or_one i with hi2 | hi2
      · obtain ⟨j, rfl⟩ : ∃ j, i = 2 * j := ⟨i / 2, by omega⟩
        have := (keys j _ (List.getElem?_eq_getElem (by omega))).ok
        exact ⟨_, this.raw, this.valid f (by omega)⟩
      · obtain ⟨j, rfl⟩ : ∃ j, i = 2 * j + 1 := ⟨i / 2, by omega⟩
        have := ih j _ (List.getElem?_eq_getElem (show j < vs.length by omega))
        exact ⟨_, this.raw, this.valid f (by omega)⟩
    · intro f hf
      obtain ⟨f, rfl⟩ : ∃ k, f = k + 1 := ⟨f - 1, by omega⟩
      unfold readTree
      rw [h1]
      simp only [ok_bind]
      unfold Val.dictIter
      rw [hcoll.iter]
      simp only [ok_bind]
      have := hcoll.collectDict_cut (scope := scope) (readTree m F scope f) len ?_ ?_ 0 (vs.length * 2 + 1) (by omega)
      · simp only [iterAt] at this ⊢
        rw [this]
        simp
      · intro j k hk
        obtain ⟨y, hy, hr⟩ := (keys j k hk).ok.res
        exact ⟨y, by unfold slotAt; rw [hp]; exact hy, hr⟩
      · intro j t ht
        have hj : j < vs.length := (List.getElem?_eq_some_iff.mp ht).1
        obtain ⟨x, hx, hr⟩ := (ih j t ht).res
        exact ⟨x, by unfold slotAt; rw [hp]; exact hx, hr f (by omega)⟩

/-- Followed by its root it is a document. -/
theorem Cut.document {m : Mem} (hbase : m.base + m.data.length < 2 ^ 64) {F : FloatOps} {pre : List UInt8} {p e : Nat}
    {t : Tree} (h : Cut pre F scope false p e t) (hd : m.data = pre ++ rootBytes (pre.length - p)) (hpre : pre.length % 2 = 0)
    (hp : p % 2 = 0) (hmax : pre.length - p ≤ SizedValue.maxWide) :
    fromBytes m = .ok ⟨p, pre.length - p⟩ ∧ ValueOK m F scope ⟨p, pre.length - p⟩ e t := by
  have hpe := h.le
  have hr : Cut m.data F scope false p e t := h.mono ⟨_, hd.symm⟩
  have hlen : pre.length ≤ m.data.length := by rw [hd]; simp
  have hok := hr.ok hbase
  dsimp only at hok
  have hv := hok ⟨p, pre.length - p⟩ rfl (by unfold Val.In; simp only; omega) (by simp only; omega)
  obtain ⟨ty, h1, h2⟩ := hv.type
  refine ⟨?_, hv⟩
  unfold fromBytes fromBytesGo
  rw [find_root hd hpre (by omega) (by omega) (by omega) hmax h1 h2]
  simp only [ok_bind]
  have hfuel : e ≤ fuelFor m.data.length := by
    unfold fuelFor
    have := Nat.mul_le_mul_left (m.data.length + 1) (show 1 ≤ m.data.length + 1 by omega)
    omega
  rw [hv.valid _ _ _ hfuel (by omega)]
  rfl

end Fleece
