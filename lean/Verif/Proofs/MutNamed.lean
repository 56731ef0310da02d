import Verif.Proofs.MutMap
import Verif.Spec.Mutable

/-! # Mutable collections: every key of every dict can be decoded, whatever was done to it -/

namespace Fleece
open Res

/-- Every key of every dict in the slot has a text. -/
inductive Slot.Named : Slot → Prop where
  | inline {b : List UInt8} : Slot.Named (.inline b)
  | boxed {b : List UInt8} : Slot.Named (.boxed b)
  | arr {l : List Slot} (each : ∀ s ∈ l, Slot.Named s) : Slot.Named (.arr l)
  | dict {sk : Option SharedKeys} {map : List (Key × Slot)} (wf : ∀ s, sk = some s → s.WF)
      (keys : ∀ e ∈ map, (mutDecodeKey sk e.1).isSome = true) (each : ∀ e ∈ map, Slot.Named e.2) : Slot.Named (.dict sk map)

theorem mutDecode_encoded {sk : Option SharedKeys} (h : ∀ s, sk = some s → s.WF) (k : List UInt8) :
    (mutDecodeKey sk (mutEncodeKey sk k)).isSome = true := by
  cases sk with
  | none => rfl
  | some s =>
    simp only [mutEncodeKey, Option.bind_some]
    cases h1 : s.encode k with
    | none => rfl
    | some c =>
      have g1 := (h s rfl).lookup_iff.mp h1
      simp only [mutDecodeKey, Option.bind_some, g1, Option.isSome_some]

theorem mem_of_mapInsert {map : List (Key × Slot)} {k : Key} {s : Slot} {e : Key × Slot} (h : e ∈ mapInsert k s map) :
    e = (k, s) ∨ e ∈ map := by
  induction map with
  | nil => simpa [mapInsert] using h
  | cons a r ih =>
    unfold mapInsert at h
    split at h
    · simpa using h
    · simp only [List.mem_cons] at h ⊢
      rcases h with h | h
      · exact .inl h
      · exact .inr (.inr h)
    · simp only [List.mem_cons] at h ⊢
      rcases h with h | h
      · exact .inr (.inl h)
      · rcases ih h with h | h
        · exact .inl h
        · exact .inr (.inr h)

theorem mapGet_mem {map : List (Key × Slot)} {k : Key} {s : Slot} (h : mapGet k map = some s) : ∃ k', (k', s) ∈ map := by
  induction map with
  | nil => cases h
  | cons a r ih =>
    unfold mapGet at h
    split at h
    · cases h
    · cases h; exact ⟨a.1, List.mem_cons_self ..⟩
    · obtain ⟨k', h⟩ := ih h; exact ⟨k', List.mem_cons_of_mem _ h⟩

namespace Slot.Named

theorem insert {sk : Option SharedKeys} {map : List (Key × Slot)} (h : Slot.Named (.dict sk map)) (k : List UInt8) {x : Slot}
    (hx : x.Named) : Slot.Named (.dict sk (mapInsert (mutEncodeKey sk k) x map)) := by
  cases h with
  | dict wf keys each =>
    refine .dict wf (fun e he => ?_) (fun e he => ?_)
    · rcases mem_of_mapInsert he with rfl | he
      · exact mutDecode_encoded wf k
      · exact keys e he
    · rcases mem_of_mapInsert he with rfl | he
      · exact hx
      · exact each e he

theorem child {s c : Slot} (h : s.Named) {x : Sel} (hc : s.child x = some c) : c.Named := by
  cases h with
  | inline | boxed => cases x <;> cases hc
  | arr each =>
    cases x with
    | idx i => exact each c (List.mem_of_getElem? hc)
    | key k => cases hc
  | dict wf keys each =>
    cases x with
    | idx i => cases hc
    | key k => obtain ⟨k', h⟩ := mapGet_mem hc; exact each _ h

theorem follow {path : List Hop} {s c : Slot} (h : s.Named) (hc : s.follow path = some c) : c.Named := by
  induction path generalizing s with
  | nil => cases hc; exact h
  | cons p path ih =>
    unfold Slot.follow at hc
    split at hc
    · next d hd =>
      split at hc
      · exact ih (h.child hd) hc
      · cases hc
    · cases hc

theorem put {s x r : Slot} (h : s.Named) (hx : x.Named) {p : Slot.Place} (hr : Slot.put p x s = .ok r) : r.Named := by
  cases h with
  | inline => cases hr; exact .inline
  | boxed => cases hr; exact .boxed
  | arr each =>
    cases p with
    | set i =>
      simp only [Slot.put] at hr
      split at hr
      · cases hr
        refine .arr fun s hs => ?_
        rcases List.mem_or_eq_of_mem_set hs with hs | rfl
        · exact each s hs
        · exact hx
      · cases hr
    | push =>
      cases hr
      refine .arr fun s hs => ?_
      simp only [List.mem_append, List.mem_singleton] at hs
      rcases hs with hs | rfl
      · exact each s hs
      · exact hx
    | insert k => cases hr; exact .arr each
  | dict wf keys each =>
    cases p with
    | insert k => cases hr; exact Slot.Named.insert (.dict wf keys each) k hx
    | set i => cases hr; exact .dict wf keys each
    | push => cases hr; exact .dict wf keys each

theorem remove {s r : Slot} (h : s.Named) {x : Sel} (hr : Slot.remove x s = .ok r) : r.Named := by
  cases h with
  | inline => cases hr; exact .inline
  | boxed => cases hr; exact .boxed
  | arr each =>
    cases x with
    | idx i =>
      simp only [Slot.remove] at hr
      split at hr
      · cases hr; exact .arr each
      · cases hr; exact .arr fun s hs => each s (List.mem_of_mem_eraseIdx hs)
    | key k => cases hr; exact .arr each
  | dict wf keys each =>
    cases x with
    | idx i => cases hr; exact .dict wf keys each
    | key k =>
      cases hr
      exact .dict wf (fun e he => keys e (mapRemove_sub.mem he)) (fun e he => each e (mapRemove_sub.mem he))

theorem update {f : Slot → Exec Slot} (hf : ∀ {s r : Slot}, s.Named → f s = .ok r → r.Named) {path : List Hop} :
    ∀ {s r : Slot}, s.Named → s.update f path = .ok r → r.Named := by
  induction path with
  | nil => intro s r h hr; exact hf h hr
  | cons p path ih =>
    intro s r h hr
    unfold Slot.update at hr
    split at hr
    · cases hr; exact h
    · next c hc =>
      split at hr
      · obtain ⟨c', h1, h2⟩ := bind_eq_ok.mp hr
        have hc' := ih (h.child hc) h1
        split at h2
        · cases h2
          cases h with
          | arr each =>
            refine .arr fun s hs => ?_
            rcases List.mem_or_eq_of_mem_set hs with hs | rfl
            · exact each s hs
            · exact hc'
        · cases h2; exact h.insert _ hc'
        · cases h2; exact h
      · cases hr; exact h

theorem clone_all : (∀ s : Slot, s.Named → s.clone.Named) := by
  intro s h
  induction h with
  | inline => exact .inline
  | boxed => exact .boxed
  | @arr l _ ih =>
    simp only [Slot.clone]
    refine .arr ?_
    have : ∀ l : List Slot, (∀ s ∈ l, s.clone.Named) → ∀ s ∈ Slot.cloneList l, s.Named := by
      intro l
      induction l with
      | nil => intro _ s hs; cases hs
      | cons a r ih =>
        intro h s hs
        simp only [Slot.cloneList, List.mem_cons] at hs
        rcases hs with rfl | hs
        · exact h a (List.mem_cons_self ..)
        · exact ih (fun s hs => h s (List.mem_cons_of_mem _ hs)) s hs
    exact this l ih
  | @dict sk map wf keys _ ih =>
    simp only [Slot.clone]
    have : ∀ (r new : List (Key × Slot)), (∀ e ∈ r, (mutDecodeKey sk e.1).isSome = true ∧ e.2.clone.Named) →
        (∀ e ∈ new, (mutDecodeKey sk e.1).isSome = true ∧ e.2.Named) →
        ∀ e ∈ Slot.cloneMap r new, (mutDecodeKey sk e.1).isSome = true ∧ e.2.Named := by
      intro r
      induction r with
      | nil => intro new _ h e he; exact h e he
      | cons a r ih =>
        intro new h1 h2 e he
        unfold Slot.cloneMap at he
        refine ih _ (fun e he => h1 e (List.mem_cons_of_mem _ he)) (fun e he => ?_) e he
        rcases mem_of_mapInsert he with rfl | he
        · exact h1 a (List.mem_cons_self ..)
        · exact h2 e he
    have := this map [] (fun e he => ⟨keys e he, ih e he⟩) (by simp)
    exact .dict wf (fun e he => (this e he).1) (fun e he => (this e he).2)

theorem ofItem {dbg : Bool} {x : Item} {s : Slot} (h : Slot.ofItem dbg x = .ok s) : s.Named := by
  unfold Slot.ofItem at h
  split at h
  all_goals
    obtain ⟨o, _, h⟩ := bind_eq_ok.mp h
    cases o <;> cases h <;> first | exact .inline | exact .boxed

theorem lifted {dbg : Bool} {x : Item} {s : Slot} (h : (Slot.ofItem dbg x).lift = .ok s) : s.Named := by
  cases h1 : Slot.ofItem dbg x with
  | ok a => rw [h1] at h; cases h; exact ofItem h1
  | err e => exact nomatch e
  | _ => rw [h1] at h; cases h

theorem of_collect {α : Type} {m : Mem} {f : Val → R α} {n : Nat} : ∀ {it : Iter} {xs : List α}, collect m f n it = .ok xs →
    ∀ x ∈ xs, ∃ v, f v = .ok x := by
  induction n with
  | zero => intro it xs h; cases h
  | succ n ih =>
    intro it xs h x hx
    unfold collect at h
    obtain ⟨⟨o, it'⟩, _, h⟩ := bind_eq_ok.mp h
    cases o with
    | none => cases h; cases hx
    | some v =>
      obtain ⟨a, h1, h⟩ := bind_eq_ok.mp h
      obtain ⟨r, h2, h⟩ := bind_eq_ok.mp h
      cases h
      rcases List.mem_cons.mp hx with rfl | hx
      · exact ⟨v, h1⟩
      · exact ih h2 x hx

theorem of_collectDict {α : Type} {m : Mem} {scope : Option SharedKeys} {f : Val → R α} {n : Nat} :
    ∀ {it : Iter} {xs : List (List UInt8 × α)}, collectDict m scope f n it = .ok xs → ∀ x ∈ xs, ∃ v, f v = .ok x.2 := by
  induction n with
  | zero => intro it xs h; cases h
  | succ n ih =>
    intro it xs h x hx
    unfold collectDict at h
    obtain ⟨⟨o, it'⟩, _, h⟩ := bind_eq_ok.mp h
    cases o with
    | none => cases h; cases hx
    | some v =>
      obtain ⟨a, h1, h⟩ := bind_eq_ok.mp h
      obtain ⟨r, h2, h⟩ := bind_eq_ok.mp h
      cases h
      rcases List.mem_cons.mp hx with rfl | hx
      · exact ⟨v.2, h1⟩
      · exact ih h2 x hx

/-- What a document is converted to. -/
theorem newFromFleece {m : Mem} {F : FloatOps} {scope : Option SharedKeys} (hw : ∀ s, scope = some s → s.WF) {fuel : Nat} :
    ∀ {v : Val} {w : Bool} {s : Slot}, Slot.newFromFleece m F scope fuel v w = .ok s → s.Named := by
  induction fuel with
  | zero => intro v w s h; cases h
  | succ fuel ih =>
    intro v w s h
    unfold Slot.newFromFleece at h
    obtain ⟨t, _, h⟩ := bind_eq_ok.mp h
    cases t <;> simp only at h
    case array =>
      obtain ⟨w', _, h⟩ := bind_eq_ok.mp h
      obtain ⟨it, _, h⟩ := bind_eq_ok.mp h
      obtain ⟨xs, h1, h⟩ := bind_eq_ok.mp h
      cases h
      exact .arr fun s hs => by obtain ⟨v, hv⟩ := of_collect h1 s hs; exact ih hv
    case dict =>
      obtain ⟨w', _, h⟩ := bind_eq_ok.mp h
      obtain ⟨it, _, h⟩ := bind_eq_ok.mp h
      obtain ⟨kvs, h1, h⟩ := bind_eq_ok.mp h
      cases h
      have : ∀ (kvs : List (List UInt8 × Slot)) (map : List (Key × Slot)), (∀ e ∈ kvs, e.2.Named) →
          Slot.Named (.dict scope map) →
          Slot.Named (.dict scope (kvs.foldl (fun map kv => mapInsert (mutEncodeKey scope kv.1) kv.2 map) map)) := by
        intro kvs
        induction kvs with
        | nil => intro map _ h; exact h
        | cons e r ih =>
          intro map h1 h2
          exact ih _ (fun e he => h1 e (List.mem_cons_of_mem _ he)) (h2.insert e.1 (h1 e (List.mem_cons_self ..)))
      exact this kvs [] (fun e he => by obtain ⟨v, hv⟩ := of_collectDict h1 e he; exact ih hv) (.dict hw (by simp) (by simp))
    case pointer =>
      obtain ⟨tgt, _, h⟩ := bind_eq_ok.mp h
      exact ih h
    all_goals first
      | exact lifted h
      | (obtain ⟨_, _, h⟩ := bind_eq_ok.mp h; exact lifted h)

end Slot.Named

/-- All tables of shared keys the program starts dicts with are well formed. -/
def Prog.Tables {β : Type} : Prog β → Prop
  | .dict sk => ∀ s, sk = some s → s.WF
  | .clone p => p.Tables
  | .put t _ _ a => t.Tables ∧ a.Tables
  | .remove t _ _ => t.Tables
  | _ => True

theorem Prog.named {β : Type} {dbg : Bool} {load : β → Exec Slot} (hl : ∀ b s, load b = .ok s → s.Named) :
    ∀ {p : Prog β} {s : Slot}, p.Tables → p.eval dbg load = .ok s → s.Named := by
  intro p
  induction p with
  | array => intro s _ h; cases h; exact .arr (by simp)
  | dict sk => intro s ht h; cases h; exact .dict ht (by simp) (by simp)
  | scalar x => intro s _ h; exact Slot.Named.ofItem h
  | base b => intro s _ h; exact hl b s h
  | clone p ih =>
    intro s ht h
    obtain ⟨s1, h1, h2⟩ := bind_eq_ok.mp h
    cases h2
    exact Slot.Named.clone_all _ (ih ht h1)
  | put t path place a iht iha =>
    intro s ht h
    obtain ⟨s1, h1, h⟩ := bind_eq_ok.mp h
    obtain ⟨x, h2, h⟩ := bind_eq_ok.mp h
    exact Slot.Named.update (fun hs hr => hs.put (iha ht.2 h2) hr) (iht ht.1 h1) h
  | remove t path sel ih =>
    intro s ht h
    obtain ⟨s1, h1, h⟩ := bind_eq_ok.mp h
    exact Slot.Named.update (fun hs hr => hs.remove hr) (ih ht h1) h

end Fleece
