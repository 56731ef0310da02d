import Verif.Proofs.LookupCost
import Verif.Proofs.Format
import Verif.Props.C62

/-!
# C64 A lookup takes logarithmically many steps

Steps are comparisons of keys (calls of `Value::dict_key_cmp`) and pointers followed (calls of `Pointer::deref_unchecked`);
Model/LookupCost.lean counts both. Full claim: both are at most a constant times the number of binary digits of the number of
pairs, in every accepted document. It holds of comparisons (`C64_comparisons`, and no less is enough, `C64_tight`). It is false
of pointers (`C64_refuted`): a pointer may lead to a pointer, as often as there is room. In documents of the format (which has
no pointers to pointers but at the root) it holds of both (`C64_document_partial`).
Not counted: the bytes of the keys compared, and the scope registry (`Scope::find_shared_keys`).
-/

namespace Fleece.Props
open Fleece Res Format

/-- **C64, counting changes nothing**, whatever the bytes: the lookups are the counted ones without their counts. -/
theorem C64_counts (m : Mem) (v : Val) (key : List UInt8) (scope : Option SharedKeys) (sk : SharedKeys) :
    v.dictGet m scope key = (v.lookupCount m key none scope >>= fun a => .ok a.1) ∧
      v.dictGetWith m sk key = (v.lookupCount m key (some sk) none >>= fun a => .ok a.1) :=
  ⟨(lookupCount_forget m v key none scope).symm, (lookupCount_forget m v key (some sk) none).symm⟩

/-- **C64, comparisons.** Looking up any key, with or without shared keys, in a dict of `n` pairs compares at most as many keys
as `n` has binary digits. This holds of any bytes, sorted or not, in both builds. -/
theorem C64_comparisons (m : Mem) (v : Val) (key : List UInt8) (given scope : Option SharedKeys) (r : Option Val) (c : Tally)
    (h : v.lookupCount m key given scope = .ok (r, c)) (n : Nat) (hn : v.dictLen m = .ok n) (k : Nat) (hk : n < 2 ^ k) :
    c.cmps ≤ k := by
  unfold Val.lookupCount at h
  obtain ⟨⟨x, a⟩, _, h⟩ := bind_eq_ok.mp h
  obtain ⟨⟨r', c'⟩, h2, h⟩ := bind_eq_ok.mp h
  cases h
  unfold Val.searchCount at h2
  rw [hn] at h2
  exact searchCountLoop_cmps h2 (by omega)

/-- The root of a document of the format is deeply valid in both builds. -/
theorem document_deep {r : Reading} (hneg : ¬ r.neg) {m : Mem} {t : Tree} (h : Document r m.data t)
    (hb : m.base + m.data.length < 2 ^ 64) {v : Val} (hv : fromBytes m = .ok v) : DeepOK m v := by
  cases hd : m.dbg with
  | true => exact fromBytesGo_deep hd _ v hv
  | false =>
    obtain ⟨p, e, len, h1, h2, h3, h4, _⟩ := Document.root hneg hb h
    obtain ⟨p', e', len', g1, g2, g3, g4, _⟩ := Document.root (m := { m with dbg := true }) hneg hb h
    have hdeep := (fromBytesGo_deep (m := { m with dbg := true }) rfl _ _ g1).rel rfl
    have hm : ({ m with dbg := true } : Mem).rel = m := by
      cases m; simp only at hd; subst hd; rfl
    rw [hm] at hdeep
    have : fromBytes ({ m with dbg := true } : Mem).rel = .ok ⟨p', len'⟩ := by
      rcases fromBytesGo_prof (m := { m with dbg := true }) rfl (fuelFor m.data.length) with h5 | h5
      · exact absurd (h5.symm.trans g1) (by simp)
      · exact h5.symm.trans g1
    rw [hm, hv] at this
    cases this
    exact hdeep

/-- **C64, documents of the format**, whoever wrote them (those of this encoder among them, C62): for every dict a user can get
hold of and every key, at most two pointers for every comparison and two more. With `C64_comparisons` this is logarithmic.
Missing: documents with pointers to pointers, for which it is false. -/
theorem C64_document_partial (r : Reading) (hneg : ¬ r.neg) (data : List UInt8) (t : Tree) (h : Document r data t) (m : Mem)
    (hm : m.data = data) (hb : m.base + data.length < 2 ^ 64) (root d : Val) (hroot : fromBytes m = .ok root)
    (reg : Option SharedKeys) (hr : Reach m reg root d) (hd : d.type m = .ok .dict) (key : List UInt8)
    (given scope : Option SharedKeys) (x : Option Val) (c : Tally) (hc : d.lookupCount m key given scope = .ok (x, c)) :
    c.hops ≤ 2 * (c.cmps + 1) := by
  subst hm
  have hdeep := document_deep hneg h hb hroot
  obtain ⟨p, e, len, h1, h2, h3, h4, _⟩ := Document.root hneg hb h
  rw [hroot] at h1; cases h1
  have hdir := h2.direct hb
  dsimp only at hdir
  exact ((hdir _ rfl h4 h3).reach hdeep hr).lookupCount (hdeep.reach hr) hd hc

/-- **C64, documents of the encoder**, under the conditions of `C62_exact_partial`. -/
theorem C64_encoder_partial (c : Cfg) (F : FloatOps) (ops : List Op) (hsize : Op.total ops ≤ SizedValue.maxWide) (e : Enc)
    (rs : List (Except EncodeError Unit)) (h : Enc.new.run c ops = .ok (e, rs)) (hok : RunOK c Enc.new ops)
    (hfin : FinishOK c e.stack.length e) (t : Tree) (ht : (Build.run F {} ops).1.finish = some t) (hd : t.Distinct) :
    ∃ out, e.finish c = .ok out ∧ ∀ base dbg, base + out.length < 2 ^ 64 → ∃ root, fromBytes ⟨out, base, dbg⟩ = .ok root ∧
      ∀ reg d, Reach ⟨out, base, dbg⟩ reg root d → d.type ⟨out, base, dbg⟩ = .ok .dict → ∀ key given scope x n,
        d.lookupCount ⟨out, base, dbg⟩ key given scope = .ok (x, n) → n.hops ≤ 2 * (n.cmps + 1) := by
  obtain ⟨out, t', h1, _, h2⟩ := C62_exact_partial c F ops hsize e rs h hok hfin t ht hd
  refine ⟨out, h1, fun base dbg hb => ?_⟩
  obtain ⟨root, h3, _⟩ := C61_decodes_partial _ (fun h => h) out t' h2 ⟨out, base, dbg⟩ rfl hb
  exact ⟨root, h3, fun reg d hr hdt key given scope x n hc =>
    C64_document_partial _ (fun h => h) out t' h2 ⟨out, base, dbg⟩ rfl hb root d h3 reg hr hdt key given scope x n hc⟩

/-- **C64, every accepted document** (overflow-checked build): at most as many pointers for a comparison as there are bytes. -/
theorem C64_accepted_partial (m : Mem) (hdbg : m.dbg = true) (root d : Val) (hroot : fromBytes m = .ok root)
    (reg : Option SharedKeys) (hr : Reach m reg root d) (hd : d.type m = .ok .dict) (key : List UInt8)
    (given scope : Option SharedKeys) (x : Option Val) (c : Tally) (hc : d.lookupCount m key given scope = .ok (x, c)) :
    c.hops ≤ m.data.length * (c.cmps + 1) :=
  ((fromBytesGo_deep hdbg _ _ hroot).reach hr).lookupCount hd hc

/-- **C64, no fewer comparisons.** A key before all those of the dict is looked up with exactly as many comparisons as the number
of pairs has binary digits (at least by this theorem, at most by `C64_comparisons`). -/
theorem C64_tight (r : Reading) (hneg : ¬ r.neg) (hs : r.scope = none) (data : List UInt8) (kvs : List (List UInt8 × Tree))
    (h : Document r data (.dict kvs)) (m : Mem) (hm : m.data = data) (hb : m.base + data.length < 2 ^ 64) (key : List UInt8)
    (low : ∀ e ∈ kvs, key < e.1) :
    ∃ v c, fromBytes m = .ok v ∧ v.dictLen m = .ok kvs.length ∧ v.lookupCount m key none none = .ok (none, c) ∧
      ∀ k, 2 ^ k ≤ kvs.length → k < c.cmps := by
  subst hm
  obtain ⟨p, e, len, h1, h2, h3, h4, _⟩ := Document.root hneg hb h
  obtain ⟨w, fp, ks, u, hp, hl, text⟩ := h2.pairs hb (v := ⟨p, len⟩) rfl h4 h3
  have hlow : ∀ k ∈ ks, Key.Lt (.string key) k := by
    intro k hk
    obtain ⟨i, hi⟩ := mem_getElem?.mp hk
    have hil : i < ks.length := (List.getElem?_eq_some_iff.mp hi).1
    have hkv := List.getElem?_eq_getElem (show i < kvs.length by omega)
    have ht := text i k kvs[i].1 kvs[i].2 hi hkv
    cases k with
    | shared c => obtain ⟨sk, h5, _⟩ := ht; rw [hs] at h5; cases h5
    | string s => cases ht; exact low _ (List.getElem_mem _)
  obtain ⟨c, h5, h6⟩ := hp.searchCountLoop_low hlow (fuel := ks.length) (left := 0) (right := ks.length) (by omega) (Nat.le_refl _)
  obtain ⟨b, h7, _⟩ := hp.usesSharedKeys
  obtain ⟨a, h8⟩ := forget_inv ((usesCount_forget m ⟨p, len⟩).trans h7)
  refine ⟨_, ⟨c.cmps, c.hops + a⟩, h1, by rw [hp.dictLen, hl], ?_, fun k hk => h6 k (by omega)⟩
  have h9 : Val.encodeKeyCount m ⟨p, len⟩ key none none = .ok (.string key, a) := by
    unfold Val.encodeKeyCount
    dsimp only
    rw [h8]
    simp only [ok_bind]
    cases b <;> rfl
  unfold Val.lookupCount Val.searchCount
  rw [h9]
  simp only [ok_bind]
  rw [hp.dictLen]
  simp only [ok_bind, h5, pure_eq]

/-! ## What a lookup is made of -/

theorem searchCountLoop_sums {m : Mem} {v : Val} {key : Key} {fuel left right : Nat} {r : Option Val} {c : Tally}
    (h : v.searchCountLoop m key fuel left right = .ok (r, c)) :
    ∃ is : List (Nat × Nat), c.cmps = is.length ∧ c.hops = (is.map (·.2)).sum ∧ (is.map (·.1)).Nodup ∧
      ∀ i ∈ is, (left ≤ i.1 ∧ i.1 < right) ∧ ∃ p w o a b, v.pairCount m i.1 = .ok (p, a) ∧ v.isWide m = .ok w ∧
        dictKeyCmpCount m key p.1 w = .ok (o, b) ∧ i.2 = a + b := by
  induction fuel generalizing left right r c with
  | zero =>
    unfold Val.searchCountLoop at h
    split at h
    · cases h
    · cases h; exact ⟨[], rfl, rfl, .nil, by simp⟩
  | succ f ih =>
    unfold Val.searchCountLoop at h
    split at h
    · dsimp only at h
      obtain ⟨⟨⟨k, x⟩, a⟩, h1, h⟩ := bind_eq_ok.mp h
      obtain ⟨w, h2, h⟩ := bind_eq_ok.mp h
      obtain ⟨⟨o, b⟩, h3, h⟩ := bind_eq_ok.mp h
      have hhere : ∃ p w o a' b', v.pairCount m (left + (right - left) / 2) = .ok (p, a') ∧ v.isWide m = .ok w ∧
        dictKeyCmpCount m key p.1 w = .ok (o, b') ∧ a + b = a' + b' := ⟨_, w, o, a, b, h1, h2, h3, rfl⟩
      cases o with
      | eq =>
        cases h
        refine ⟨[(left + (right - left) / 2, a + b)], rfl, by simp, by simp, ?_⟩
        intro i hi
        rw [List.mem_singleton] at hi
        subst hi
        exact ⟨by dsimp only; omega, hhere⟩
      | lt =>
        obtain ⟨⟨r', c'⟩, h4, h⟩ := bind_eq_ok.mp h
        cases h
        obtain ⟨is, g1, g2, g3, g4⟩ := ih h4
        refine ⟨(left + (right - left) / 2, a + b) :: is, by simp [g1], by simp only [g2, List.map_cons, List.sum_cons]; omega, ?_, ?_⟩
        · rw [List.map_cons, List.nodup_cons]
          refine ⟨fun hm => ?_, g3⟩
          obtain ⟨i, hi, heq⟩ := List.mem_map.mp hm
          have := (g4 i hi).1
          omega
        · intro i hi
          rcases List.mem_cons.mp hi with rfl | hi
          · exact ⟨by dsimp only; omega, hhere⟩
          · obtain ⟨k1, k2⟩ := g4 i hi
            exact ⟨by omega, k2⟩
      | gt =>
        obtain ⟨⟨r', c'⟩, h4, h⟩ := bind_eq_ok.mp h
        cases h
        obtain ⟨is, g1, g2, g3, g4⟩ := ih h4
        refine ⟨(left + (right - left) / 2, a + b) :: is, by simp [g1], by simp only [g2, List.map_cons, List.sum_cons]; omega, ?_, ?_⟩
        · rw [List.map_cons, List.nodup_cons]
          refine ⟨fun hm => ?_, g3⟩
          obtain ⟨i, hi, heq⟩ := List.mem_map.mp hm
          have := (g4 i hi).1
          omega
        · intro i hi
          rcases List.mem_cons.mp hi with rfl | hi
          · exact ⟨by dsimp only; omega, hhere⟩
          · obtain ⟨k1, k2⟩ := g4 i hi
            exact ⟨by omega, k2⟩
    · cases h; exact ⟨[], rfl, rfl, .nil, by simp⟩

/-- **C64, what is counted.** A lookup compares the key with those of some pairs, no pair twice. It follows the pointers that lead
to these pairs and, in comparisons, to their keys, and those of the first pair if it has to know whether the keys are shared,
and no others. -/
theorem C64_sums (m : Mem) (v : Val) (key : List UInt8) (given scope : Option SharedKeys) (r : Option Val) (c : Tally)
    (h : v.lookupCount m key given scope = .ok (r, c)) :
    ∃ n k first, ∃ is : List (Nat × Nat), v.dictLen m = .ok n ∧ v.encodeKeyCount m key given scope = .ok (k, first) ∧
      c.cmps = is.length ∧ c.hops = first + (is.map (·.2)).sum ∧ (is.map (·.1)).Nodup ∧
      ∀ i ∈ is, i.1 < n ∧ ∃ p w o a b, v.pairCount m i.1 = .ok (p, a) ∧ v.isWide m = .ok w ∧
        dictKeyCmpCount m k p.1 w = .ok (o, b) ∧ i.2 = a + b := by
  unfold Val.lookupCount at h
  obtain ⟨⟨k, first⟩, h1, h⟩ := bind_eq_ok.mp h
  obtain ⟨⟨r', c'⟩, h2, h⟩ := bind_eq_ok.mp h
  cases h
  unfold Val.searchCount at h2
  obtain ⟨n, h3, h2⟩ := bind_eq_ok.mp h2
  obtain ⟨is, g1, g2, g3, g4⟩ := searchCountLoop_sums h2
  refine ⟨n, k, first, is, h3, h1, g1, by dsimp only; omega, g3, fun i hi => ?_⟩
  obtain ⟨k1, k2⟩ := g4 i hi
  exact ⟨k1.2, k2⟩

/-! ## Pointers to pointers -/

/-- The number 5, a pointer to it, and `k` more, each to the one before. -/
def hopping : Nat → List UInt8
  | 0 => [0x00, 0x05, 0x80, 0x00, 0x00, 0x01]
  | k + 1 => hopping k ++ [0x80, 0x00, 0x00, 0x02]

/-- `{"a": 5}`, where the slot of the value points to the last of them. -/
def hoppingDict (k : Nat) : List UInt8 := hopping k ++ [0x70, 0x01, 0x41, 0x61, 0x80, 0x04]

theorem hopping_length (k : Nat) : (hopping k).length = 4 * k + 6 := by
  induction k with
  | zero => rfl
  | succ k ih => simp only [hopping, List.length_append, ih, List.length_cons, List.length_nil]; omega

theorem hopping_prefix {j k : Nat} (h : j ≤ k) : hopping j <+: hopping k := by
  induction k with
  | zero => obtain rfl : j = 0 := by omega
            exact List.prefix_refl _
  | succ k ih =>
    by_cases hj : j = k + 1
    · subst hj; exact List.prefix_refl _
    · exact (ih (by omega)).trans ⟨_, rfl⟩

/-- The pointer `j`. -/
theorem hopping_at (j : Nat) : At (hopping j) (4 * j + 2) (ptrBytes true (if j = 0 then 2 else 4)) := by
  cases j with
  | zero => exact ⟨[0x00, 0x05], [], by decide, rfl⟩
  | succ j =>
    have h4 : ptrBytes true 4 = [0x80, 0x00, 0x00, 0x02] := by decide
    rw [if_neg (by omega), h4]
    exact ⟨hopping j, [], by simp [hopping], by have := hopping_length j; omega⟩

/-- Following the pointer `j`, in memory that begins with `hopping k`: `j + 1` pointers. -/
theorem hopping_deref {m : Mem} {k : Nat} (hd : hopping k <+: m.data) {j : Nat} (hj : j ≤ k) {len fuel : Nat} (hl : 4 ≤ len)
    (hin : 4 * j + 2 + len ≤ m.data.length) (hf : j < fuel) :
    Val.type m ⟨4 * j + 2, len⟩ = .ok .pointer ∧ derefCheckedGo m fuel true ⟨4 * j + 2, len⟩ = .ok ⟨0, 2⟩ ∧
      derefCountGo m fuel true ⟨4 * j + 2, len⟩ = .ok (⟨0, 2⟩, j + 1) := by
  induction j generalizing len fuel with
  | zero =>
    obtain ⟨f, rfl⟩ : ∃ f, fuel = f + 1 := ⟨fuel - 1, by omega⟩
    have hat : At m.data 2 (ptrBytes true 2) := (hopping_at 0).mono ((hopping_prefix hj).trans hd)
    have hh : Holds m ⟨2, len⟩ (ptrBytes true 2) :=
      hat.holds rfl (by unfold Val.In; simp only; omega) (by simp [ptrBytes]; omega)
    have hv : At m.data 0 [0x00, 0x05] :=
      At.mono (data := hopping 0) ⟨[], [0x80, 0x00, 0x00, 0x01], rfl, rfl⟩ ((hopping_prefix hj).trans hd)
    have ht : Val.type m ⟨0, 2⟩ = .ok .short := by
      have : Holds m ⟨0, 2⟩ [0x00, 0x05] := hv.holds rfl (by unfold Val.In; simp only; omega) (by simp)
      rw [this.type]; decide
    refine ⟨ptr_type hh (by decide), ?_, ?_⟩
    · rw [derefGo_step hh (by decide) rfl (by omega) (by simp) ht]; rfl
    · rw [derefCountGo_step hh (by decide) rfl (by omega) (by simp) ht]; rfl
  | succ j ih =>
    obtain ⟨f, rfl⟩ : ∃ f, fuel = f + 1 := ⟨fuel - 1, by omega⟩
    have hat := (hopping_at (j + 1)).mono ((hopping_prefix hj).trans hd)
    rw [if_neg (by omega)] at hat
    have hh : Holds m ⟨4 * (j + 1) + 2, len⟩ (ptrBytes true 4) :=
      hat.holds rfl (by unfold Val.In; simp only; omega) (by simp [ptrBytes]; omega)
    have he : 4 * (j + 1) + 2 - 4 = 4 * j + 2 := by omega
    obtain ⟨h1, h2, h3⟩ := ih (by omega) (len := 4) (fuel := f) (by omega) (by omega) (by omega)
    refine ⟨ptr_type hh (by decide), ?_, ?_⟩
    · rw [derefGo_step hh (by decide) rfl (by omega) (by simp only; omega) (by simp only [he]; exact h1), if_pos rfl]
      simp only [he]; exact h2
    · rw [derefCountGo_step hh (by decide) rfl (by omega) (by simp only; omega) (by simp only [he]; exact h1), if_pos rfl]
      simp only [he, h3, ok_bind, pure_eq]

/-- A dict with one pair, in slots of two bytes. -/
theorem one_pair_valid {m : Mem} (hbase : m.base + m.data.length < 2 ^ 64) {v : Val} (hc : Coll m v false 2 2)
    (ht : v.type m = .ok .dict) {q0 q1 : Nat} {A B : Val → Prop} (h0 : SlotOK m false q0 A) (h1 : SlotOK m false q1 B)
    (e0 : v.pos + 2 = q0) (e1 : v.pos + 4 = q1) {f de : Nat} {w : Bool} (hf : v.pos + 6 ≤ f) (hde : v.pos + 6 ≤ de)
    (hin : v.pos + 6 ≤ m.data.length) : validateGo m f false w v de = .ok () := by
  obtain ⟨f, rfl⟩ : ∃ g, f = g + 1 := ⟨f - 1, by omega⟩
  have hw : wof false = 2 := rfl
  unfold validateGo
  rw [ht]
  simp only [ok_bind]
  refine arrayValidate_intro hc.wide hc.len hc.first (by omega) (by omega) (by omega) ?_
  refine validateElems_intro fun i hi => ?_
  have hq : i = 0 ∧ v.pos + 2 + i * wof false = q0 ∨ i = 1 ∧ v.pos + 2 + i * wof false = q1 := by
    rw [hw]; omega
  rcases hq with ⟨_, hq⟩ | ⟨_, hq⟩
  · rw [hq]; exact ⟨_, h0.raw, h0.valid f (by omega)⟩
  · rw [hq]; exact ⟨_, h1.raw, h1.valid f (by omega)⟩

/-- The full statement of C64 is false: for every `k` there is a document of `4 * k + 14` bytes, accepted wherever it lies in
memory and in both builds, whose root is a dict with one pair. Looking up its key compares one key and follows
`2 * (k + 2)` pointers. -/
theorem C64_refuted (k : Nat) : ∃ data : List UInt8, data.length = 4 * k + 14 ∧
    ∀ base dbg, base + data.length < 2 ^ 64 → ∃ v x, fromBytes ⟨data, base, dbg⟩ = .ok v ∧
      v.dictLen ⟨data, base, dbg⟩ = .ok 1 ∧
      v.lookupCount ⟨data, base, dbg⟩ [0x61] none none = .ok (some x, ⟨1, 2 * (k + 2)⟩) := by
  have hl := hopping_length k
  have hr : rootBytes 6 = [0x80, 0x03] := by decide
  have hlp : (hoppingDict k).length = 4 * k + 12 := by simp [hoppingDict, hl]
  refine ⟨hoppingDict k ++ rootBytes 6, by simp [hlp, hr], fun base dbg hb => ?_⟩
  generalize hmm : (⟨hoppingDict k ++ rootBytes 6, base, dbg⟩ : Mem) = m
  have hdata : m.data = hoppingDict k ++ rootBytes 6 := by rw [← hmm]
  have hlen : m.data.length = 4 * k + 14 := by rw [hdata]; simp [hlp, hr]
  have hbase : m.base + m.data.length < 2 ^ 64 := by rw [← hmm]; exact hb
  have hpre : hopping k <+: m.data := by
    rw [hdata]; exact ⟨[0x70, 0x01, 0x41, 0x61, 0x80, 0x04] ++ rootBytes 6, by simp [hoppingDict]⟩
  have hin : ∀ p l, p + l ≤ 4 * k + 14 → Val.In m ⟨p, l⟩ := fun p l h => by unfold Val.In; simp only; omega
  -- the dict
  have hhead : At m.data (4 * k + 6) (headerBytes 0x70 1 false) := by
    have : headerBytes 0x70 1 false = [0x70, 0x01] := by decide
    rw [this, hdata]
    exact ⟨hopping k, [0x41, 0x61, 0x80, 0x04] ++ rootBytes 6, by simp [hoppingDict], by omega⟩
  have hh : Holds m ⟨4 * k + 6, 6⟩ (headerBytes (if true then 0x70 else 0x60) 1 false) :=
    hhead.holds rfl (hin _ _ (by omega)) (by
      show (headerBytes 0x70 1 false).length ≤ 6
      decide)
  obtain ⟨h1, h2, h3, h4⟩ := header_read true (n := 1) (by omega) hh
  simp only [if_true] at h1 h3
  have hd1 : hdrLen 1 = 2 := by decide
  rw [hd1] at h4
  have hcoll : Coll m ⟨4 * k + 6, 6⟩ false 2 2 := ⟨hin _ _ (by omega), h2, h3, h4, by decide, by simp [wof]; omega⟩
  -- the key
  have hkey : At m.data (4 * k + 8) [0x41, 0x61] := by
    rw [hdata]
    exact ⟨hopping k ++ [0x70, 0x01], [0x80, 0x04] ++ rootBytes 6, by simp [hoppingDict], by simp [hl]⟩
  let F : FloatOps := ⟨fun _ => 0, fun _ => 0, fun _ => 0, fun _ => 0, fun _ => 0, fun _ => 0⟩
  have hstr : ScalarBytes F [0x41, 0x61] .string (.str [0x61]) := by
    obtain ⟨ty, h⟩ := Format.Scalar.bytes (F := F) (neg := False) (fun h => h) (bs := [0x41, 0x61]) (t := .str [0x61])
      (.str (by decide) (by decide +kernel) (.short (s := [0x61]) (pad := []) (by decide) (by decide)))
    have hty : ty = .string := by
      have hh : Holds m ⟨4 * k + 8, 2⟩ [0x41, 0x61] := hkey.holds rfl (hin _ _ (by omega)) (by simp)
      have := (h.toStr hh).2
      rw [h.type m _ hh] at this
      cases this; rfl
    rw [hty] at h; exact h
  have hkh : Holds m ⟨4 * k + 8, 2⟩ [0x41, 0x61] := hkey.holds rfl (hin _ _ (by omega)) (by simp)
  obtain ⟨k1, k2⟩ := hstr.toStr hkh
  have hks := slot_scalar (m := m) (w := false) (P := fun _ => True) hkey rfl hstr fun _ => trivial
  -- the value
  have hptr : At m.data (4 * k + 10) (ptrBytes false 8) := by
    have : ptrBytes false 8 = [0x80, 0x04] := by decide
    rw [this, hdata]
    exact ⟨hopping k ++ [0x70, 0x01, 0x41, 0x61], rootBytes 6, by simp [hoppingDict], by simp [hl]⟩
  have hph : Holds m ⟨4 * k + 10, 2⟩ (ptrBytes false 8) := hptr.holds rfl (hin _ _ (by omega)) (by simp [ptrBytes])
  have hpt := ptr_type hph (by decide)
  have he : 4 * k + 10 - 8 = 4 * k + 2 := by omega
  obtain ⟨d1, d2, d3⟩ := hopping_deref hpre (Nat.le_refl k) (len := 8) (fuel := 4 * k + 10) (by omega) (by omega) (by omega)
  have hchk : derefChecked m false ⟨4 * k + 10, 2⟩ = .ok ⟨0, 2⟩ := by
    unfold derefChecked
    rw [derefGo_step hph (by decide) rfl (by omega) (by simp only; omega) (by simp only [he]; exact d1), if_pos rfl]
    simp only [he]; exact d2
  have hcnt : derefCount m false ⟨4 * k + 10, 2⟩ = .ok (⟨0, 2⟩, k + 2) := by
    unfold derefCount
    rw [derefCountGo_step hph (by decide) rfl (by omega) (by simp only; omega) (by simp only [he]; exact d1), if_pos rfl]
    simp only [he, d3, ok_bind, pure_eq]
  have hv5 : At m.data 0 [0x00, 0x05] :=
    At.mono (data := hopping 0) ⟨[], [0x80, 0x00, 0x00, 0x01], rfl, rfl⟩ ((hopping_prefix (Nat.zero_le k)).trans hpre)
  have h5h : Holds m ⟨0, 2⟩ [0x00, 0x05] := hv5.holds rfl (hin _ _ (by omega)) (by simp)
  have h5b := short_bytes (F := F) (b0 := 0) (b1 := 5) (tl := []) (by decide)
  have h5t := h5b.type m _ h5h
  obtain ⟨r5, h5r, h5l⟩ := h5b.req m _ h5h
  simp only [List.length_cons, List.length_nil] at h5l
  have e0 : 4 * k + 6 + 2 + 0 * wof false = 4 * k + 8 := by simp
  have e1 : 4 * k + 6 + 2 + 1 * wof false = 4 * k + 10 := by simp [wof]
  have w2 : wof false = 2 := rfl
  have s0 : slotAt (4 * k + 6 + 2) (wof false) 0 = ⟨4 * k + 8, 2⟩ := by unfold slotAt; rw [e0]; rfl
  have s1 : slotAt (4 * k + 6 + 2) (wof false) 1 = ⟨4 * k + 10, 2⟩ := by unfold slotAt; rw [e1]; rfl
  -- accepted
  have hvs : SlotOK m false (4 * k + 10) (fun _ => True) := by
    refine ⟨?_, fun f hf => ?_, ⟨⟨0, 2⟩, ?_, trivial⟩⟩
    · have : Val.requiredSize m ⟨4 * k + 10, 2⟩ = .ok 2 := by unfold Val.requiredSize; rw [hpt]; rfl
      unfold fromRaw
      rw [w2, mkSlice_eq (by omega)]
      simp only [ok_bind, this]
      rw [if_neg (by omega), if_neg (by omega)]
      rfl
    · obtain ⟨f, rfl⟩ : ∃ g, f = g + 1 := ⟨f - 1, by omega⟩
      rw [w2]
      unfold validateGo
      rw [hpt]
      simp only [ok_bind, hchk]
      exact validate_scalar h5t h5b.scalar h5r (.inr (by simp only; omega)) (by omega)
    · unfold resolve
      rw [w2, hpt]
      simp only [ok_bind, if_true]
      exact derefUnchecked_eq hchk
  have hvalid : ∀ f w de, 4 * k + 12 ≤ f → 4 * k + 12 ≤ de → validateGo m f false w ⟨4 * k + 6, 6⟩ de = .ok () :=
    fun f w de hf hde => one_pair_valid hbase hcoll h1 hks hvs (by simp only) (by simp only) (by simp only; omega)
      (by simp only; omega) (by simp only; omega)
  have hroot : findRoot m = .ok ⟨4 * k + 6, 6⟩ :=
    find_root hdata (by omega) (by omega) (by omega) rfl (by decide) h1 (by simp)
  have hfrom : fromBytes m = .ok ⟨4 * k + 6, 6⟩ := by
    unfold fromBytes fromBytesGo
    rw [hroot]
    simp only [ok_bind]
    have hf : 4 * k + 12 ≤ fuelFor m.data.length := by
      unfold fuelFor
      have := Nat.mul_le_mul_left (m.data.length + 1) (show 1 ≤ m.data.length + 1 by omega)
      omega
    rw [hvalid _ _ _ hf (by omega)]
    rfl
  -- the lookup
  have g0 : Val.getCount m ⟨4 * k + 6, 6⟩ 0 = .ok (⟨4 * k + 8, 2⟩, 0) := by
    rw [hcoll.getCount_eq (by omega)]
    simp only [s0, k2, ok_bind, reduceCtorEq, if_false, pure_eq]
  have g1 : Val.getCount m ⟨4 * k + 6, 6⟩ 1 = .ok (⟨0, 2⟩, k + 2) := by
    rw [hcoll.getCount_eq (by omega)]
    simp only [s1, hpt, ok_bind, if_true, hcnt]
  have gp : Val.pairCount m ⟨4 * k + 6, 6⟩ 0 = .ok ((⟨4 * k + 8, 2⟩, ⟨0, 2⟩), k + 2) := by
    unfold Val.pairCount
    rw [usizeMul_eq _ (by omega)]
    simp only [ok_bind, Nat.mul_zero, g0, g1, Nat.zero_add, pure_eq]
  have hcmp : dictKeyCmpCount m (.string [0x61]) ⟨4 * k + 8, 2⟩ false = .ok (.eq, 0) := by
    unfold dictKeyCmpCount
    rw [k2]
    simp only [ok_bind, k1]
    rw [if_neg (by simp)]
    rfl
  refine ⟨_, ⟨0, 2⟩, hfrom, by unfold Val.dictLen; rw [h3]; rfl, ?_⟩
  unfold Val.lookupCount Val.encodeKeyCount Val.usesCount Val.searchCount Val.dictLen
  simp only [h3, ok_bind, gp, k2, pure_eq]
  simp only [show (1 * 2 = 0) = False by simp, if_false, ok_bind, reduceCtorEq, decide_false, Bool.false_eq_true]
  rw [show 1 * 2 / 2 = 0 + 1 from rfl]
  unfold Val.searchCountLoop
  simp only [show (0 < 0 + 1) = True by simp, if_true, show 0 + (0 + 1 - 0) / 2 = 0 from rfl, gp, ok_bind, h2, hcmp, pure_eq]
  congr 3
  omega

/-! ## Cases -/

/-- Four pairs, three binary digits: a key before all others takes three comparisons, the third key one. -/
def fourBytes : List UInt8 := [0x70, 0x04, 0x41, 0x62, 0, 1, 0x41, 0x63, 0, 2, 0x41, 0x64, 0, 3, 0x41, 0x65, 0, 4, 0x80, 0x09]

set_option maxRecDepth 20000 in
example : fromBytes { data := fourBytes } = .ok ⟨0, 18⟩ ∧
    (∃ c, Val.lookupCount { data := fourBytes } ⟨0, 18⟩ [0x61] none none = .ok (none, c) ∧ c.cmps = 3) ∧
    ∃ x c, Val.lookupCount { data := fourBytes } ⟨0, 18⟩ [0x64] none none = .ok (some x, c) ∧ c.cmps = 1 :=
  ⟨by decide +kernel, ⟨_, rfl, rfl⟩, _, _, rfl, rfl⟩

/-- `{"abc": "xyz"}`, key and value behind pointers. -/
def apartBytes : List UInt8 := [0x43, 0x61, 0x62, 0x63, 0x43, 0x78, 0x79, 0x7A, 0x70, 0x01, 0x80, 0x05, 0x80, 0x04, 0x80, 0x03]

set_option maxRecDepth 20000 in
/-- **C64, no fewer pointers.** The bound of `C64_document_partial` is reached: one comparison and four pointers, those to the
key and to the value to see whether the keys are shared, and both again for the comparison. -/
theorem C64_pointers_tight : fromBytes { data := apartBytes } = .ok ⟨8, 6⟩ ∧
    Val.type { data := apartBytes } ⟨8, 6⟩ = .ok .dict ∧
    ∃ c, Val.lookupCount { data := apartBytes } ⟨8, 6⟩ [0x61, 0x62, 0x63] none none = .ok (some ⟨4, 8⟩, c) ∧
      c.cmps = 1 ∧ c.hops = 2 * (c.cmps + 1) :=
  ⟨by decide +kernel, by decide +kernel, _, rfl, rfl, rfl⟩

/-- In the document of C61, with shared keys. -/
example (F : FloatOps) (m : Mem) (hm : m.data = otherBytes) (hb : m.base + 42 < 2 ^ 64) (root : Val)
    (hroot : fromBytes m = .ok root) (hd : root.type m = .ok .dict) (key : List UInt8) (x : Option Val) (c : Tally)
    (hc : root.lookupCount m key none (some otherKeys) = .ok (x, c)) : c.hops ≤ 2 * (c.cmps + 1) :=
  C64_document_partial (otherReading F) (fun h => h) otherBytes _ (other_document F) m hm hb root root hroot (some otherKeys)
    .root hd key none _ x c hc

set_option maxRecDepth 20000 in
example : fromBytes { data := otherBytes } = .ok ⟨30, 10⟩ ∧ Val.type { data := otherBytes } ⟨30, 10⟩ = .ok .dict ∧
    ∃ x c, Val.lookupCount { data := otherBytes } ⟨30, 10⟩ [0x6E] none (some otherKeys) = .ok (some x, c) ∧
      c.cmps = 1 ∧ c.hops = 2 :=
  ⟨by decide +kernel, by decide +kernel, _, _, rfl, rfl, rfl⟩

end Fleece.Props
