import Verif.Proofs.Format
import Verif.Proofs.LookupDoc
import Verif.Proofs.HasFits

/-! # What is represented is in the format -/

namespace Fleece
open Res Spec

variable {P : List UInt8 → Prop}

theorem At.here {data : List UInt8} {p : Nat} {bs : List UInt8} (h : At data p bs) : Format.Here data p bs := by
  obtain ⟨pre, post, rfl, rfl⟩ := h
  exact ⟨post, by rw [List.append_assoc, List.drop_left' rfl]⟩

theorem Format.width_eq (w : Bool) : Format.width w = wof w := rfl

theorem ptr_points {data : List UInt8} {w : Bool} {q p : Nat} (hat : At data q (ptrBytes w (q - p))) (le : p ≤ q)
    (even : (q - p) % 2 = 0) (max : q - p ≤ maxOff w) : Format.Points data w q p := by
  refine ⟨_, (q - p) / 2, hat.here, by rw [ptrBytes_length]; rfl, ?_, ?_, by omega⟩
  · cases w with
    | false =>
      simp only [maxOff, Bool.false_eq_true, if_false] at max
      have h := or80_toNat (UInt8.ofNat ((q - p) / 2 / 2 ^ 8)) (by rw [ofNat_toNat]; omega)
      rw [ofNat_toNat] at h
      simp only [Format.width, Format.bigEndian, littleEndian, ptrBytes, Bool.false_eq_true, if_false, List.reverse_cons,
        List.reverse_nil, List.nil_append, List.cons_append, List.foldr_cons, List.foldr_nil, ofNat_toNat, h]
      omega
    | true =>
      simp only [maxOff, if_true] at max
      have h := or80_toNat (UInt8.ofNat ((q - p) / 2 / 2 ^ 24)) (by rw [ofNat_toNat]; omega)
      rw [ofNat_toNat] at h
      simp only [Format.width, Format.bigEndian, littleEndian, ptrBytes, if_true, List.reverse_cons,
        List.reverse_nil, List.nil_append, List.cons_append, List.foldr_cons, List.foldr_nil, ofNat_toNat, h]
      omega
  · cases w <;> simp [Format.width, maxOff] at max ⊢ <;> omega

theorem KeyAt.format {data : List UInt8} {r : Format.Reading} (hneg : r.neg = False) {w : Bool} {q : Nat} {k : Key}
    (h : KeyAt data r.F w q k) : Format.KeySlot r data w q k := by
  cases h with
  | shared hat len hb hc => rw [hc]; exact .shared hat.here len hb
  | inline hat len hs => exact .inline hat.here len (by rw [hneg]; exact hs.form)
  | pointer hat hs le even max ptr =>
    exact .pointer (ptr_points ptr (by omega) even max) hat.here le (by rw [hneg]; exact hs.form)

theorem Rep.format {data : List UInt8} {F : FloatOps} {scope : Option SharedKeys} {k : Option Bool} {p e : Nat} {t : Tree}
    (h : Rep data F P scope k p e t) (hd : t.Distinct) : Format.Value ⟨F, scope, False, P⟩ data k p e t := by
  induction h with
  | scalar hat hs => exact .scalar hat.here hs.form
  | inline hat len hs => exact .inline hat.here len hs.form
  | ptr hat lt le even max _ ih => exact .pointer (ptr_points hat (by omega) even max) le (ih hd)
  | empty no le fits _ ih => exact .empty no le fits (ih hd)
  | @arr p w xs hat small fits each ih =>
    have hs := Format.headerSize_eq (n := xs.length) (by omega)
    have hh := Format.header_eq (n := xs.length) (by omega) Bool.false w
    simp only [Bool.false_eq_true, if_false] at hh
    rw [← hs] at fits ih ⊢
    rw [← hh] at hat
    refine .arr hat.here small fits fun i t ht => ih i t ht ?_
    cases hd with
    | leaf na _ => exact absurd rfl (na xs)
    | arr of => exact of t (List.mem_of_getElem? ht)
  | @dict p w ks kvs hat small fits len keys text sorted strs vals ih =>
    have hs := Format.headerSize_eq (n := kvs.length) (by omega)
    have hh := Format.header_eq (n := kvs.length) (by omega) Bool.true w
    simp only [if_true] at hh
    rw [← hs] at fits ih keys ⊢
    rw [← hh] at hat
    obtain ⟨once, of⟩ : (kvs.map (·.1)).Nodup ∧ ∀ e ∈ kvs, Tree.Distinct e.2 := by
      cases hd with
      | leaf _ nd => exact absurd rfl (nd kvs)
      | dict once of => exact ⟨once, of⟩
    refine .dict (ks := ks) hat.here small fits len (fun i k hk => (keys i k hk).format rfl) ?_ ?_
      fun i s t ht => ih i s t ht (of _ (List.mem_of_getElem? ht))
    · intro i k s t hk hkv
      have ht := text i k s t hk hkv
      cases k with
      | shared c =>
        obtain ⟨sk, h1, h2⟩ := ht
        unfold SharedKeys.decode at h2
        rw [Option.map_eq_some_iff] at h2
        obtain ⟨⟨s', n⟩, h3, rfl⟩ := h2
        exact ⟨sk, n, h1, h3⟩
      | string k =>
        have : k = s := ht
        subst this
        exact ⟨rfl, strs i _ hk⟩
    · rw [List.pairwise_iff_getElem] at sorted ⊢
      intro i j hi hj hij
      rcases sorted i j hi hj hij with h | h
      · exact h
      · have h1 : kvs[i]? = some (kvs[i]'(by omega)) := List.getElem?_eq_getElem (by omega)
        have h2 : kvs[j]? = some (kvs[j]'(by omega)) := List.getElem?_eq_getElem (by omega)
        have t1 := text i _ _ _ (List.getElem?_eq_getElem hi) h1
        have t2 := text j _ _ _ (List.getElem?_eq_getElem hj) h2
        rw [h] at t1
        have := t1.unique t2
        rw [List.nodup_iff_pairwise_ne, List.pairwise_iff_getElem] at once
        refine absurd ?_ (once i j (by simp; omega) (by simp; omega) hij)
        rw [List.getElem_map, List.getElem_map]
        exact this

/-- A represented value, followed by its root, is a document of the format. -/
theorem Rep.format_document {data : List UInt8} {F : FloatOps} {scope : Option SharedKeys} {pre : List UInt8} {p e : Nat}
    {t : Tree} (h : Rep pre F P scope none p e t) (hd : data = pre ++ rootBytes (pre.length - p)) (hpre : pre.length % 2 = 0)
    (hp : p % 2 = 0) (hmax : pre.length - p ≤ SizedValue.maxWide) (ht : t.Distinct) :
    Format.Document ⟨F, scope, False, P⟩ data t := by
  have hpe := h.le
  have hr : Rep data F P scope none p e t := h.mono ⟨_, hd.symm⟩ (.refl _)
  have hv := hr.format ht
  by_cases hn : pre.length - p ≤ SizedValue.maxNarrow
  · rw [rootBytes, if_pos hn] at hd
    have hlen : data.length = pre.length + 2 := by rw [hd]; simp [ptrBytes]
    have hat : At data pre.length (ptrBytes Bool.false (pre.length - p)) := ⟨pre, [], by simp [hd], rfl⟩
    exact .narrow (by omega) hlen (ptr_points hat (by omega) (by omega) (Nat.le_trans hn (by decide))) hpe.1 hv
  · rw [rootBytes, if_neg hn] at hd
    have hlen : data.length = pre.length + 6 := by rw [hd]; simp [ptrBytes]
    have hat : At data pre.length (ptrBytes Bool.true (pre.length - p)) := ⟨pre, ptrBytes Bool.false 4, by simp [hd], rfl⟩
    have hat2 : At data (pre.length + 4) (ptrBytes Bool.false 4) :=
      ⟨pre ++ ptrBytes Bool.true (pre.length - p), [], by simp [hd], by simp [ptrBytes]⟩
    have h4 : pre.length + 4 - pre.length = 4 := by omega
    rw [show ptrBytes Bool.false 4 = ptrBytes Bool.false (pre.length + 4 - pre.length) by rw [h4]] at hat2
    exact .wide (q := pre.length + 4) (q' := pre.length) (by omega) hlen
      (ptr_points hat2 (by omega) (by omega) (by rw [h4]; decide)) (by omega)
      (ptr_points hat (by omega) (by omega) (Nat.le_trans hmax (by decide))) hpe.1 hv

end Fleece
