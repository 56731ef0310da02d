import Verif.Proofs.De

/-!
# Deserializing gives the value back
-/

namespace Fleece
open Res

/-! ## Structs -/

theorem RStr.ext_bytes {a b : RStr} (h : a.bytes = b.bytes) : a = b := by
  cases a; cases b; cases h; rfl

theorem findIdx_name {names : List RStr} (hd : names.Nodup) {i : Nat} {n : RStr} (hi : names[i]? = some n) :
    (names.findIdx? fun x => decide (x.bytes = n.bytes)) = some i := by
  rw [List.findIdx?_eq_some_iff_getElem]
  obtain ⟨h, rfl⟩ := List.getElem?_eq_some_iff.mp hi
  refine ⟨h, by simp, ?_⟩
  intro j hj
  simp only [decide_eq_true_eq]
  intro hc
  have := (List.pairwise_iff_getElem.mp hd) j i (by omega) h hj
  exact this (RStr.ext_bytes hc)

theorem ident_ok {X : DeCtx} {names : List RStr} (hd : names.Nodup) {i : Nat} {n : RStr} (hi : names[i]? = some n) {d : De}
    (h : d.any X = .ok (.str n.bytes)) : De.ident X names d = .ok (some i) := by
  unfold De.ident
  simp only [h, ok_bind, findIdx_name hd hi, pure_eq]

theorem ident_data {X : DeCtx} {names : List RStr} (hd : names.Nodup) {i : Nat} {n : RStr} (hi : names[i]? = some n) {d : De}
    (h : d.any X = .ok (.bytes n.bytes)) : De.ident X names d = .ok (some i) := by
  unfold De.ident
  simp only [h, ok_bind, findIdx_name hd hi, pure_eq]

theorem fields_ok {X : DeCtx} {fuel : Nat} {f : Ty → De → D SVal} {fs : List (RStr × Ty)} {vals : List SVal}
    (hd : (fs.map (·.1)).Nodup) (hvl : vals.length = fs.length) {it : Iter} {es : List (List UInt8 × Val)}
    (hw : Walk X it es) : ∀ {n : Nat} {got : List (Option SVal)}, es.length < n → got.length = fs.length →
    (es.map (·.1)).Nodup →
    (∀ e ∈ es, ∃ (i : Nat) (fd : RStr × Ty) (x : SVal), fs[i]? = some fd ∧ vals[i]? = some x ∧ fd.1.bytes = e.1 ∧
      f fd.2 ⟨e.2, false⟩ = .ok x) →
    (∀ (i : Nat) (fd : RStr × Ty) (x : SVal), fs[i]? = some fd → vals[i]? = some x →
      got[i]? = some (if fd.1.bytes ∈ es.map (·.1) then none else some x)) →
    De.fields X fuel f fs n it got = .ok (vals.map some) := by
  induction hw with
  | nil stop =>
    intro n got hn hg _ _ hi
    cases n with
    | zero => simp at hn
    | succ n =>
      unfold De.fields
      simp only [stop, ok_bind, pure_eq, ok.injEq]
      apply List.ext_getElem?
      intro i
      by_cases h : i < fs.length
      · rw [hi i fs[i] vals[i] (by simp) (by simp)]
        simp [hvl, h]
      · rw [List.getElem?_eq_none (by omega), List.getElem?_eq_none (by simp; omega)]
  | @cons it it1 it2 d k u es key text value rest ih =>
    intro n got hn hg hnd he hi
    cases n with
    | zero => simp at hn
    | succ n =>
      obtain ⟨i, fd, x, h1, h2, h3, h4⟩ := he (k, u) (by simp)
      have h3 : fd.1.bytes = k := h3
      have hid : De.ident X (fs.map (·.1)) d = .ok (some i) :=
        ident_ok hd (i := i) (n := fd.1) (by simp [h1]) (by rw [text, h3])
      have hgot : got[i]? = some none := by
        rw [hi i fd x h1 h2, if_pos (by simp [h3])]
      have hil : i < got.length := (List.getElem?_eq_some_iff.mp hgot).1
      simp only [List.map_cons, List.nodup_cons] at hnd
      unfold De.fields
      simp only [key, ok_bind, hid, h1, hgot, value, h4]
      refine ih (by simp at hn; omega) (by simpa using hg) hnd.2 (fun e h => he e (by simp [h])) ?_
      intro j fd' x' g1 g2
      by_cases hji : j = i
      · subst hji
        rw [g1] at h1; cases h1
        rw [g2] at h2; cases h2
        rw [if_neg (by rw [h3]; exact hnd.1)]
        simp [hil]
      · rw [List.getElem?_set_ne (by omega), hi j fd' x' g1 g2]
        have hne : fd'.1.bytes ≠ k := by
          intro hc
          have e1 := findIdx_name hd (i := j) (n := fd'.1) (by simp [g1])
          have e2 := findIdx_name hd (i := i) (n := fd.1) (by simp [h1])
          rw [hc] at e1
          rw [h3, e1] at e2
          exact hji (by injection e2)
        have hiff : fd'.1.bytes ∈ List.map (·.1) ((k, u) :: es) ↔ fd'.1.bytes ∈ es.map (·.1) := by
          rw [List.map_cons, List.mem_cons]; exact or_iff_right hne
        simp only [hiff]

theorem build_ok {X : DeCtx} (fs : List (RStr × Ty)) : ∀ {xs : List (RStr × SVal)}, xs.map (·.1) = fs.map (·.1) →
    De.build X fs (xs.map fun x => some x.2) = .ok xs := by
  induction fs with
  | nil => intro xs h; simp at h; subst h; rfl
  | cons f fs ih =>
    intro xs h
    cases xs with
    | nil => simp at h
    | cons x xs =>
      simp only [List.map_cons, List.cons.injEq] at h
      simp only [List.map_cons, De.build, ih h.2, ok_bind, pure_eq, ← h.1]

/-! ## Maps -/

theorem pairs_ok {α β : Type} {X : DeCtx} {fk : De → D α} {fv : α → De → D β} {it : Iter} {es : List (List UInt8 × Val)}
    (hw : Walk X it es) : ∀ {n : Nat} {as : List (α × β)}, es.length < n → as.length = es.length →
    (∀ (i : Nat) e a, es[i]? = some e → as[i]? = some a → (∀ d : De, d.any X = .ok (.str e.1) → fk d = .ok a.1) ∧
      fv a.1 ⟨e.2, false⟩ = .ok a.2) →
    De.pairs X fk fv n it = .ok as := by
  induction hw with
  | nil stop =>
    intro n as hn hl _
    cases as with
    | cons _ _ => cases hl
    | nil =>
      cases n with
      | zero => simp at hn
      | succ n => unfold De.pairs; simp only [stop, ok_bind, pure_eq]
  | @cons it it1 it2 d k u es key text value rest ih =>
    intro n as hn hl he
    cases as with
    | nil => cases hl
    | cons a as =>
      cases n with
      | zero => simp at hn
      | succ n =>
        obtain ⟨h1, h2⟩ := he 0 (k, u) a rfl rfl
        have hr := ih (n := n) (as := as) (by simp at hn; omega) (by simpa using hl)
          (fun i e a b c => he (i + 1) e a (by simpa using b) (by simpa using c))
        unfold De.pairs
        simp only [key, ok_bind, h1 d text, value, h2, hr, pure_eq]

/-- The entries are sorted. -/
def Ascends (l : List (RStr × SVal)) : Prop := l.Pairwise fun a b => a.1.bytes < b.1.bytes

theorem insert_new {k : RStr} {v : SVal} {l : List (RStr × SVal)} : k ∉ l.map (·.1) → Ascends l →
    (SVal.insert k v l).Perm ((k, v) :: l) ∧ Ascends (SVal.insert k v l) := by
  induction l with
  | nil => intro _ _; exact ⟨.refl _, by simp [SVal.insert, Ascends]⟩
  | cons e l ih =>
    intro hk hs
    have hs' := List.pairwise_cons.mp hs
    have hc := cmpBytes_compares k.bytes e.1.bytes
    unfold SVal.insert
    cases ho : cmpBytes k.bytes e.1.bytes with
    | lt =>
      rw [ho] at hc
      have hc : k.bytes < e.1.bytes := hc
      refine ⟨.refl _, List.pairwise_cons.mpr ⟨?_, hs⟩⟩
      intro b hb
      rcases List.mem_cons.mp hb with rfl | hb
      · exact hc
      · exact u8_list_trans hc (hs'.1 b hb)
    | eq =>
      rw [ho] at hc
      have hc : Key.string k.bytes = .string e.1.bytes := hc
      injection hc with hc
      exact absurd (by simp [RStr.ext_bytes hc]) hk
    | gt =>
      rw [ho] at hc
      have hc : e.1.bytes < k.bytes := hc
      obtain ⟨h1, h2⟩ := ih (fun h => hk (by simp at h ⊢; exact .inr h)) hs'.2
      refine ⟨(h1.cons e).trans (List.Perm.swap _ _ _), List.pairwise_cons.mpr ⟨?_, h2⟩⟩
      intro b hb
      rcases List.mem_cons.mp (h1.mem_iff.mp hb) with rfl | hb
      · exact hc
      · exact hs'.1 b hb

theorem foldl_insert (es : List (RStr × SVal)) : ∀ {acc : List (RStr × SVal)}, ((acc ++ es).map (·.1)).Nodup → Ascends acc →
    (es.foldl (fun acc e => SVal.insert e.1 e.2 acc) acc).Perm (acc ++ es) ∧
      Ascends (es.foldl (fun acc e => SVal.insert e.1 e.2 acc) acc) := by
  induction es with
  | nil => intro acc _ h; exact ⟨by simp, h⟩
  | cons e es ih =>
    intro acc hn hs
    have hnot : e.1 ∉ acc.map (·.1) := by
      intro hc
      rw [List.map_append, List.nodup_append] at hn
      exact hn.2.2 _ hc _ (by simp) rfl
    obtain ⟨h1, h2⟩ := insert_new (v := e.2) hnot hs
    have hp : (SVal.insert e.1 e.2 acc ++ es).Perm (acc ++ e :: es) :=
      (h1.append_right es).trans (by simpa using (List.perm_middle (a := e) (l₁ := acc) (l₂ := es)).symm)
    obtain ⟨h3, h4⟩ := ih (acc := SVal.insert e.1 e.2 acc) ((hp.map (·.1)).nodup_iff.mpr hn) h2
    exact ⟨h3.trans hp, h4⟩

theorem ascends_nodup {l : List (RStr × SVal)} (h : Ascends l) : (l.map (·.1)).Nodup := by
  rw [List.Nodup, List.pairwise_map]
  refine h.imp ?_
  intro a b hab hc
  rw [hc] at hab
  exact u8_list_irrefl _ hab

theorem insert_mem {k : RStr} {v : SVal} {l : List (RStr × SVal)} : Ascends l → Ascends (SVal.insert k v l) ∧
    ∀ a, a ∈ SVal.insert k v l ↔ a = (k, v) ∨ a ∈ l ∧ a.1 ≠ k := by
  induction l with
  | nil => intro _; exact ⟨by simp [SVal.insert, Ascends], by simp [SVal.insert]⟩
  | cons e l ih =>
    intro hs
    have hs' := List.pairwise_cons.mp hs
    have hc := cmpBytes_compares k.bytes e.1.bytes
    have far : ∀ {a : RStr × SVal}, k.bytes < a.1.bytes → a.1 ≠ k := by
      intro a h hk
      rw [hk] at h
      exact u8_list_irrefl _ h
    unfold SVal.insert
    cases ho : cmpBytes k.bytes e.1.bytes with
    | lt =>
      rw [ho] at hc
      have hc : k.bytes < e.1.bytes := hc
      have hall : ∀ b ∈ e :: l, k.bytes < b.1.bytes := by
        intro b hb
        rcases List.mem_cons.mp hb with rfl | hb
        · exact hc
        · exact u8_list_trans hc (hs'.1 b hb)
      refine ⟨List.pairwise_cons.mpr ⟨hall, hs⟩, fun a => ?_⟩
      rw [List.mem_cons]
      exact ⟨fun h => h.imp id fun h => ⟨h, far (hall a h)⟩, fun h => h.imp id fun h => h.1⟩
    | eq =>
      rw [ho] at hc
      have hc : Key.string k.bytes = .string e.1.bytes := hc
      injection hc with hc
      have hke : e.1 = k := (RStr.ext_bytes hc).symm
      refine ⟨List.pairwise_cons.mpr ⟨fun b hb => by show k.bytes < _; rw [hc]; exact hs'.1 b hb, hs'.2⟩, fun a => ?_⟩
      rw [List.mem_cons, List.mem_cons]
      constructor
      · rintro (h | h)
        · exact .inl h
        · exact .inr ⟨.inr h, far (by rw [hc]; exact hs'.1 a h)⟩
      · rintro (h | ⟨rfl | h, hn⟩)
        · exact .inl h
        · exact absurd hke hn
        · exact .inr h
    | gt =>
      rw [ho] at hc
      have hc : e.1.bytes < k.bytes := hc
      obtain ⟨h1, h2⟩ := ih hs'.2
      refine ⟨List.pairwise_cons.mpr ⟨?_, h1⟩, fun a => ?_⟩
      · intro b hb
        rcases (h2 b).mp hb with rfl | ⟨hb, _⟩
        · exact hc
        · exact hs'.1 b hb
      · rw [List.mem_cons, List.mem_cons, h2]
        constructor
        · rintro (rfl | h | h)
          · exact .inr ⟨.inl rfl, fun h => by rw [h] at hc; exact u8_list_irrefl _ hc⟩
          · exact .inl h
          · exact .inr ⟨.inr h.1, h.2⟩
        · rintro (h | ⟨rfl | h, hn⟩)
          · exact .inr (.inl h)
          · exact .inl rfl
          · exact .inr (.inr ⟨h, hn⟩)

/-- Of the entries with the same key the last one remains. -/
theorem foldl_insert_last (es : List (RStr × SVal)) : ∀ {acc : List (RStr × SVal)}, Ascends acc →
    Ascends (es.foldl (fun acc e => SVal.insert e.1 e.2 acc) acc) ∧
    ∀ k v, (k, v) ∈ es.foldl (fun acc e => SVal.insert e.1 e.2 acc) acc ↔
      (∃ l r, es = l ++ (k, v) :: r ∧ k ∉ r.map (·.1)) ∨ (k, v) ∈ acc ∧ k ∉ es.map (·.1) := by
  induction es with
  | nil => intro acc h; exact ⟨h, by simp⟩
  | cons e es ih =>
    intro acc hs
    obtain ⟨h1, h2⟩ := insert_mem (k := e.1) (v := e.2) hs
    obtain ⟨h3, h4⟩ := ih h1
    refine ⟨h3, fun k v => ?_⟩
    rw [List.foldl_cons, h4, h2]
    constructor
    · rintro (⟨l, r, rfl, hr⟩ | ⟨h | ⟨h, hne⟩, hn⟩)
      · exact .inl ⟨e :: l, r, rfl, hr⟩
      · have hk : k = e.1 := congrArg Prod.fst h
        subst hk
        exact .inl ⟨[], es, by rw [h]; rfl, hn⟩
      · exact .inr ⟨h, by simp only [List.map_cons, List.mem_cons, not_or]; exact ⟨hne, hn⟩⟩
    · rintro (⟨l, r, hes, hr⟩ | ⟨h, hn⟩)
      · cases l with
        | nil =>
          cases hes
          exact .inr ⟨.inl rfl, hr⟩
        | cons x l =>
          cases hes
          exact .inl ⟨l, r, rfl, hr⟩
      · simp only [List.map_cons, List.mem_cons, not_or] at hn
        exact .inr ⟨.inr ⟨h, hn.1⟩, hn.2⟩

/-- Inserting the entries of a sorted list, in any order, gives the list. -/
theorem foldl_insert_sorted {es kvs : List (RStr × SVal)} (hp : es.Perm kvs) (hs : Ascends kvs) :
    es.foldl (fun acc e => SVal.insert e.1 e.2 acc) [] = kvs := by
  obtain ⟨h1, h2⟩ := foldl_insert es (acc := []) (by simpa using (hp.map (·.1)).nodup_iff.mpr (ascends_nodup hs)) (by simp [Ascends])
  refine List.Perm.eq_of_pairwise (le := fun a b : RStr × SVal => a.1.bytes < b.1.bytes) ?_ h2 hs ((by simpa using h1 : List.Perm _ es).trans hp)
  intro a b _ _ hab hba
  exact absurd (u8_list_trans hab hba) (u8_list_irrefl _)

/-! ## Keys -/

theorem hasKeys_ok {X : DeCtx} {v : Val} (names : List RStr) :
    (∀ k ∈ names, ∃ r, v.Lookup X.m X.scope k.bytes (some r)) → De.hasKeys X v names = .ok true := by
  induction names with
  | nil => intro _; rfl
  | cons k names ih =>
    intro h
    obtain ⟨r, h1, h2, h3⟩ := h k (by simp)
    have hr := ih fun k hk => h k (by simp [hk])
    unfold De.hasKeys
    cases hs : X.scope with
    | none =>
      rw [hs] at h2
      simp only [h2, dread_ok, ok_bind, Option.isSome_some, if_true, hr]
    | some sk =>
      simp only [h3 sk hs, dread_ok, ok_bind, pure_eq, Option.isSome_some, if_true, hr]

/-! ## Depths -/

theorem bound {P : Nat → Nat → Prop} (n : Nat) (h : ∀ i, i < n → ∃ N, ∀ fuel, N ≤ fuel → P i fuel) :
    ∃ N, ∀ fuel, N ≤ fuel → ∀ i, i < n → P i fuel := by
  induction n with
  | zero => exact ⟨0, fun _ _ i hi => by omega⟩
  | succ n ih =>
    obtain ⟨N, hN⟩ := ih fun i hi => h i (by omega)
    obtain ⟨M, hM⟩ := h n (by omega)
    refine ⟨max N M, fun fuel hf i hi => ?_⟩
    by_cases hin : i = n
    · subst hin; exact hM fuel (by omega)
    · exact hN fuel (by omega) i (by omega)

end Fleece
