import Verif.Spec.Lookup
import Verif.Proofs.RepRoot

/-! # Lookup in represented dicts -/

namespace Fleece
open Res

variable {P : List UInt8 → Prop} {m : Mem} {v : Val}

theorem mem_getElem? {α : Type} {l : List α} {a : α} : a ∈ l ↔ ∃ i : Nat, l[i]? = some a := List.mem_iff_getElem?

/-- The keys and values of a dict, as slots. -/
structure Pairs (m : Mem) (v : Val) (w : Bool) (fp : Nat) (ks : List Key) (u : Nat → Val) : Prop where
  coll : Coll m v w (ks.length * 2) fp
  key : ∀ (i : Nat) (k : Key), ks[i]? = some k → ∃ e, resolve m w (slotAt (v.pos + fp) (wof w) (2 * i)) = .ok e ∧
    (∃ ty, e.type m = .ok ty ∧ (ty = .short ∨ ty = .string)) ∧ KeyValue m w e k
  val : ∀ i, i < ks.length → resolve m w (slotAt (v.pos + fp) (wof w) (2 * i + 1)) = .ok (u i)
  sorted : ks.Pairwise (fun a b => Key.Lt a b ∨ a = b)

namespace Pairs
variable {w : Bool} {fp : Nat} {ks : List Key} {u : Nat → Val}

theorem pair (h : Pairs m v w fp ks u) {i : Nat} {k : Key} (hk : ks[i]? = some k) :
    ∃ e, v.pairUnchecked m i = .ok (e, u i) ∧ (∃ ty, e.type m = .ok ty ∧ (ty = .short ∨ ty = .string)) ∧ KeyValue m w e k := by
  have hi : i < ks.length := (List.getElem?_eq_some_iff.mp hk).1
  obtain ⟨e, h1, h2, h3⟩ := h.key i k hk
  refine ⟨e, ?_, h2, h3⟩
  have hs := h.coll.small
  have hw := wof_pos w
  have hle : ks.length * 2 * 2 ≤ ks.length * 2 * wof w := Nat.mul_le_mul_left _ hw
  unfold Val.pairUnchecked
  rw [usizeMul_eq _ (by omega)]
  simp only [ok_bind]
  rw [h.coll.getUnchecked (by omega), h1]
  simp only [ok_bind]
  rw [h.coll.getUnchecked (by omega), h.val i hi]
  rfl

theorem le_of_lt (h : Pairs m v w fp ks u) {i j : Nat} {a b : Key} (hij : i < j) (ha : ks[i]? = some a)
    (hb : ks[j]? = some b) : Key.Lt a b ∨ a = b := by
  obtain ⟨hi, rfl⟩ := List.getElem?_eq_some_iff.mp ha
  obtain ⟨hj, rfl⟩ := List.getElem?_eq_some_iff.mp hb
  exact List.pairwise_iff_getElem.mp h.sorted i j hi hj hij

/-- The binary search. -/
theorem searchLoop (h : Pairs m v w fp ks u) (probe : Key) : ∀ fuel left right, right - left ≤ fuel → right ≤ ks.length →
    (∀ (i : Nat) (k : Key), i < left → ks[i]? = some k → Key.Lt k probe) → (∀ (i : Nat) (k : Key), right ≤ i → ks[i]? = some k → Key.Lt probe k) →
    (∃ i, ks[i]? = some probe ∧ v.searchLoop m probe fuel left right = .ok (some (u i))) ∨
      (probe ∉ ks ∧ v.searchLoop m probe fuel left right = .ok none) := by
  have stop : ∀ left right, ¬ left < right → (∀ (i : Nat) (k : Key), i < left → ks[i]? = some k → Key.Lt k probe) →
      (∀ (i : Nat) (k : Key), right ≤ i → ks[i]? = some k → Key.Lt probe k) → probe ∉ ks := by
    intro left right hlr hl hr hm
    obtain ⟨i, hi⟩ := mem_getElem?.mp hm
    by_cases hil : i < left
    · exact Key.lt_irrefl _ (hl i _ hil hi)
    · exact Key.lt_irrefl _ (hr i _ (by omega) hi)
  intro fuel
  induction fuel with
  | zero =>
    intro left right hf hr hl hg
    refine .inr ⟨stop left right (by omega) hl hg, ?_⟩
    unfold Val.searchLoop
    rw [if_neg (by omega)]
  | succ fuel ih =>
    intro left right hf hr hl hg
    unfold Val.searchLoop
    by_cases hlr : left < right
    · rw [if_pos hlr]
      have hmid : left + (right - left) / 2 < right := by omega
      generalize hmv : left + (right - left) / 2 = mid at *
      have hml : left ≤ mid := by omega
      have hk := List.getElem?_eq_getElem (l := ks) (i := mid) (by omega)
      obtain ⟨e, h1, _, h3⟩ := h.pair hk
      obtain ⟨o, h4, h5⟩ := dictKeyCmp_compares h3 probe
      dsimp only
      rw [h1]
      simp only [ok_bind, h.coll.wide, h4]
      cases o with
      | lt =>
        dsimp only
        refine ih left mid (by omega) (by omega) hl fun i k hi hki => ?_
        by_cases him : i = mid
        · subst him; rw [hk] at hki; cases hki; exact h5
        · rcases h.le_of_lt (show mid < i by omega) hk hki with hlt | heq
          · exact Key.lt_trans h5 hlt
          · rw [← heq]; exact h5
      | eq => exact .inl ⟨mid, by rw [hk, h5], rfl⟩
      | gt =>
        dsimp only
        refine ih (mid + 1) right (by omega) hr (fun i k hi hki => ?_) hg
        by_cases him : i = mid
        · subst him; rw [hk] at hki; cases hki; exact h5
        · rcases h.le_of_lt (show i < mid by omega) hki hk with hlt | heq
          · exact Key.lt_trans hlt h5
          · rw [heq]; exact h5
    · rw [if_neg hlr]
      exact .inr ⟨stop left right hlr hl hg, rfl⟩

theorem dictLen (h : Pairs m v w fp ks u) : v.dictLen m = .ok ks.length := by
  unfold Val.dictLen
  rw [h.coll.len]
  simp

theorem search (h : Pairs m v w fp ks u) (probe : Key) :
    (∃ i, ks[i]? = some probe ∧ v.search m probe = .ok (some (u i))) ∨ (probe ∉ ks ∧ v.search m probe = .ok none) := by
  unfold Val.search
  rw [h.dictLen]
  simp only [ok_bind]
  refine h.searchLoop probe _ _ _ (by omega) (Nat.le_refl _) (fun i k hi => by omega) fun i k hi hk => ?_
  have := (List.getElem?_eq_some_iff.mp hk).1
  omega

/-- `uses_shared_keys` looks at the first key; the sorting makes that enough. -/
theorem usesSharedKeys (h : Pairs m v w fp ks u) :
    ∃ b, v.usesSharedKeys m = .ok b ∧ (b = false → ∀ c, Key.shared c ∉ ks) := by
  unfold Val.usesSharedKeys
  rw [h.coll.len]
  simp only [ok_bind]
  by_cases hn : ks.length * 2 = 0
  · rw [if_pos hn]
    refine ⟨false, rfl, fun _ c hc => ?_⟩
    have : ks = [] := List.length_eq_zero_iff.mp (by omega)
    rw [this] at hc; cases hc
  · rw [if_neg hn]
    have hk := List.getElem?_eq_getElem (l := ks) (i := 0) (by omega)
    obtain ⟨e, h1, ⟨ty, h2, h2'⟩, h3⟩ := h.pair hk
    rw [h1]
    simp only [ok_bind, h2, pure_eq]
    refine ⟨_, rfl, fun hb c hc => ?_⟩
    have hty : ty ≠ .short := of_decide_eq_false hb
    have hfirst : ∃ s, ks[0]? = some (.string s) := by
      generalize ks[0] = k0 at hk h3
      cases h3 with
      | short h4 _ => rw [h2] at h4; cases h4; exact absurd rfl hty
      | inline h4 h5 => exact ⟨_, hk⟩
      | pointer h4 h5 h6 h7 => exact ⟨_, hk⟩
    obtain ⟨s, hs⟩ := hfirst
    obtain ⟨i, hi⟩ := mem_getElem?.mp hc
    by_cases h0 : i = 0
    · subst h0; rw [hs] at hi; cases hi
    · rcases h.le_of_lt (show 0 < i by omega) hs hi with hlt | heq
      · exact hlt
      · cases heq

end Pairs

/-- Shared keys under which texts and keys correspond: the codes are positions, the stored texts are what `zstr` keeps of
them, and no text of `P` is one of them. -/
structure Canon (P : List UInt8 → Prop) (sk : SharedKeys) : Prop where
  wf : sk.WF
  tidy : ∀ e ∈ sk.entries, zstr e.1 = e.1
  strs : ∀ s, P s → sk.encode s = none

/-- Texts whose lookup is not misled by `zstr`. -/
def Probe (scope : Option SharedKeys) (k : List UInt8) : Prop := ∀ sk, scope = some sk → zstr k = k ∨ sk.encode k = none

theorem SharedKeys.decode_mem {sk : SharedKeys} {c : Nat} {s : List UInt8} (h : sk.decode c = some s) :
    ∃ e ∈ sk.entries, e.1 = s := by
  unfold SharedKeys.decode at h
  rw [Option.map_eq_some_iff] at h
  obtain ⟨e, h1, h2⟩ := h
  exact ⟨e, List.mem_of_getElem? h1, h2⟩

theorem keyOf_text {scope : Option SharedKeys} (hc : ∀ sk, scope = some sk → Canon P sk) {k : Key} {s : List UInt8}
    (ht : k.Text scope s) (hs : ∀ x, k = .string x → P x) : keyOf scope s = k := by
  unfold keyOf
  cases k with
  | shared c =>
    obtain ⟨sk, h1, h2⟩ := ht
    have hcan := hc sk h1
    obtain ⟨e, he, hes⟩ := SharedKeys.decode_mem h2
    have hz := hcan.tidy e he
    rw [hes] at hz
    have : sk.encode s = some c := by
      unfold SharedKeys.encode
      rw [hz, hcan.wf.lookup_iff]; exact h2
    rw [h1]
    simp only [Option.bind_some, this]
  | string x =>
    cases ht
    cases scope with
    | none => rfl
    | some sk =>
      have := (hc sk rfl).strs s (hs s rfl)
      simp only [Option.bind_some, this]

theorem text_of_keyOf {scope : Option SharedKeys} (hc : ∀ sk, scope = some sk → Canon P sk) {k s : List UInt8}
    (hp : Probe scope k) (ht : (keyOf scope k).Text scope s) : s = k := by
  unfold keyOf at ht
  cases hb : scope.bind (·.encode k) with
  | none => rw [hb] at ht; exact ht.symm
  | some c =>
    rw [hb] at ht
    obtain ⟨sk, h1, h2⟩ := ht
    rw [h1] at hb
    simp only [Option.bind_some] at hb
    have hz : zstr k = k := by
      rcases hp sk h1 with h | h
      · exact h
      · rw [h] at hb; cases hb
    unfold SharedKeys.encode at hb
    rw [(hc sk h1).wf.lookup_iff, h2, hz] at hb
    cases hb; rfl

/-- All lookups in a dict. -/
theorem Pairs.lookup {w : Bool} {fp : Nat} {ks : List Key} {u : Nat → Val} (h : Pairs m v w fp ks u)
    {scope : Option SharedKeys} (hc : ∀ sk, scope = some sk → Canon P sk) {ss : List (List UInt8)}
    (hlen : ks.length = ss.length) (htext : ∀ (i : Nat) (k : Key) (s : List UInt8), ks[i]? = some k → ss[i]? = some s → k.Text scope s)
    (hstr : ∀ (i : Nat) (s : List UInt8), ks[i]? = some (.string s) → P s) {k : List UInt8} (hp : Probe scope k) :
    (k ∈ ss → ∃ i, ss[i]? = some k ∧ v.Lookup m scope k (some (u i))) ∧ (k ∉ ss → v.Lookup m scope k none) := by
  -- keys and texts correspond
  have key_text : ∀ (i : Nat), ks[i]? = some (keyOf scope k) ↔ ss[i]? = some k := by
    intro i
    constructor
    · intro hk
      have hi : i < ks.length := (List.getElem?_eq_some_iff.mp hk).1
      have hs := List.getElem?_eq_getElem (l := ss) (i := i) (by omega)
      rw [hs, text_of_keyOf hc hp (htext i _ _ hk hs)]
    · intro hs
      have hi : i < ss.length := (List.getElem?_eq_some_iff.mp hs).1
      have hk := List.getElem?_eq_getElem (l := ks) (i := i) (by omega)
      rw [hk, keyOf_text hc (htext i _ _ hk hs) fun x hx => hstr i x (by rw [hk, hx])]
  have str_text : (∀ c, Key.shared c ∉ ks) → ∀ (i : Nat), ks[i]? = some (.string k) ↔ ss[i]? = some k := by
    intro hno i
    constructor
    · intro hk
      have hi : i < ks.length := (List.getElem?_eq_some_iff.mp hk).1
      have hs := List.getElem?_eq_getElem (l := ss) (i := i) (by omega)
      have : k = ss[i] := htext i _ _ hk hs
      rw [hs, ← this]
    · intro hs
      have hi : i < ss.length := (List.getElem?_eq_some_iff.mp hs).1
      have hk := List.getElem?_eq_getElem (l := ks) (i := i) (by omega)
      have ht := htext i _ _ hk hs
      rw [hk]
      cases hki : ks[i] with
      | shared c => exact absurd (mem_getElem?.mpr ⟨i, by rw [hk, hki]⟩) (hno c)
      | string x => rw [hki] at ht; cases ht; rfl
  -- the outcome of searching for a key that corresponds to `k`
  have go : ∀ key : Key, (∀ (i : Nat), ks[i]? = some key ↔ ss[i]? = some k) →
      (∃ i, ss[i]? = some k ∧ v.search m key = .ok (some (u i))) ∨ (k ∉ ss ∧ v.search m key = .ok none) := by
    intro key hiff
    rcases h.search key with ⟨i, h1, h2⟩ | ⟨h1, h2⟩
    · exact .inl ⟨i, (hiff i).mp h1, h2⟩
    · refine .inr ⟨fun hm => h1 ?_, h2⟩
      obtain ⟨i, hi⟩ := mem_getElem?.mp hm
      exact mem_getElem?.mpr ⟨i, (hiff i).mpr hi⟩
  -- the key searched for
  have hwith : ∀ sk, scope = some sk → v.dictGetWith m sk k = v.search m (keyOf scope k) := by
    intro sk hsk
    unfold Val.dictGetWith Val.encodeKey keyOf
    rw [hsk]
    simp only [Option.bind_some]
    cases sk.encode k <;> rfl
  have hget : ∃ key, v.dictGet m scope k = v.search m key ∧
      (key = keyOf scope k ∨ (key = .string k ∧ ∀ c, Key.shared c ∉ ks)) := by
    obtain ⟨b, h1, h2⟩ := h.usesSharedKeys
    unfold Val.dictGet Val.encodeKey
    simp only [h1, ok_bind]
    cases b with
    | false => exact ⟨.string k, rfl, .inr ⟨rfl, h2 rfl⟩⟩
    | true =>
      refine ⟨keyOf scope k, ?_, .inl rfl⟩
      unfold keyOf
      cases scope.bind (·.encode k) <;> rfl
  have hcont : ∀ {r : Option Val}, v.dictGet m scope k = .ok r → v.containsKey m scope k = .ok r.isSome := by
    intro r hr
    unfold Val.containsKey
    rw [hr]; rfl
  obtain ⟨key, hg1, hg2⟩ := hget
  constructor
  · intro hm
    have hkey : key = keyOf scope k := by
      rcases hg2 with hg2 | ⟨rfl, hno⟩
      · exact hg2
      · obtain ⟨i, hi⟩ := mem_getElem?.mp hm
        have h1 := (str_text hno i).mpr hi
        rw [(key_text i).mpr hi] at h1
        exact (Option.some.inj h1).symm
    rcases go _ key_text with ⟨i, h1, h2⟩ | ⟨h1, _⟩
    · have hr : v.dictGet m scope k = .ok (some (u i)) := by rw [hg1, hkey, h2]
      exact ⟨i, h1, hr, hcont hr, fun sk hsk => by rw [hwith sk hsk, h2]⟩
    · exact absurd hm h1
  · intro hm
    have hr : v.dictGet m scope k = .ok none := by
      rw [hg1]
      rcases hg2 with rfl | ⟨rfl, hno⟩
      · rcases go _ key_text with ⟨i, h1, _⟩ | ⟨_, h2⟩
        · exact absurd (mem_getElem?.mpr ⟨i, h1⟩) hm
        · exact h2
      · rcases go _ (str_text hno) with ⟨i, h1, _⟩ | ⟨_, h2⟩
        · exact absurd (mem_getElem?.mpr ⟨i, h1⟩) hm
        · exact h2
    refine ⟨hr, hcont hr, fun sk hsk => ?_⟩
    rw [hwith sk hsk]
    rcases go _ key_text with ⟨i, h1, _⟩ | ⟨_, h2⟩
    · exact absurd (mem_getElem?.mpr ⟨i, h1⟩) hm
    · exact h2

theorem Key.Text.unique {scope : Option SharedKeys} {k : Key} {s s' : List UInt8} (h : k.Text scope s)
    (h' : k.Text scope s') : s = s' := by
  cases k with
  | shared c =>
    obtain ⟨sk, h1, h2⟩ := h
    obtain ⟨sk', h3, h4⟩ := h'
    rw [h1] at h3; cases h3
    rw [h2] at h4; cases h4; rfl
  | string k => cases h; cases h'; rfl

/-- What a slot resolves to. -/
def slotVal (m : Mem) (w : Bool) (s : Val) : Val :=
  match resolve m w s with
  | .ok e => e
  | _ => s

theorem slotVal_eq {m : Mem} {w : Bool} {s e : Val} (h : resolve m w s = .ok e) : slotVal m w s = e := by
  unfold slotVal; rw [h]

theorem asArray_of_type {v : Val} (h : v.type m = .ok .array) : v.asArray m = .ok (some v) := by
  unfold Val.asArray; rw [h]; rfl
theorem asDict_of_type {v : Val} (h : v.type m = .ok .dict) : v.asDict m = .ok (some v) := by
  unfold Val.asDict; rw [h]; rfl

/-- What `Rep` says is what a client sees. -/
theorem Rep.matches {m : Mem} (hbase : m.base + m.data.length < 2 ^ 64) {F : FloatOps} {scope : Option SharedKeys}
    (hc : ∀ sk, scope = some sk → Canon P sk) {k : Option Bool} {p e : Nat} {t : Tree} (h : Rep m.data F P scope k p e t) :
    match k with
    | none => ∀ v : Val, v.pos = p → v.In m → e ≤ p + v.len → Matches m F scope (Probe scope) v t
    | some w => ∃ x, resolve m w ⟨p, wof w⟩ = .ok x ∧ Matches m F scope (Probe scope) x t := by
  induction h with
  | @scalar p bs ty t hat hs =>
    intro v hp hin hl
    have hh := hat.holds hp hin (by omega)
    obtain ⟨_, h2, h3⟩ := scalar_not hs.scalar
    exact .leaf (hs.type m _ hh) h2 h3 (hs.read m v scope 0 hh)
  | @inline w q bs ty t hat len hs =>
    dsimp only
    obtain ⟨_, h2, h3⟩ := scalar_not hs.scalar
    exact (slot_scalar hat len hs (P := fun x => Matches m F scope (Probe scope) x t) fun hh =>
      .leaf (hs.type m _ hh) h2 h3 (hs.read m _ scope 0 hh)).res
  | @ptr w q p e t hat lt le even max tgt ih =>
    dsimp only at ih ⊢
    have hle := hat.le
    have hin : Val.In m ⟨p, q - p⟩ := by unfold Val.In; simp only; omega
    have hok := tgt.ok hbase
    dsimp only at hok
    have := hok ⟨p, q - p⟩ rfl hin (by simp only; omega)
    obtain ⟨ty, h1, h2⟩ := this.type
    exact (slot_ptr hat (by omega) even max h1 h2 (fun f hf => this.valid f w q (by omega) le)
      (ih ⟨p, q - p⟩ rfl hin (by simp only; omega))).res
  | @empty w q e t no le fits tgt ih =>
    dsimp only at ih ⊢
    obtain ⟨d, w', hat, _, _⟩ := tgt.empty_header no
    exact ⟨_, (slot_empty hbase (w := w) hat fits).2.1, ih _ rfl (by unfold Val.In; simp only; omega) le⟩
  | @arr p w xs hat small fits each ih =>
    dsimp only at ih ⊢
    intro v hp hin hl
    have hhl := headerBytes_length 0x60 (n := xs.length) (by omega) w
    have hge := hdrLen_ge xs.length
    have hhd : headerSize xs.length ≤ hdrLen xs.length := by unfold hdrLen; omega
    have hh : Holds m v (headerBytes 0x60 xs.length w) := hat.holds hp hin (by omega)
    obtain ⟨h1, h2, h3, h4⟩ := header_read false (n := xs.length) (by omega) hh
    simp only [Bool.false_eq_true, if_false] at h1 h3
    have hcoll : Coll m v w xs.length (hdrLen xs.length) := ⟨hin, h2, h3, h4, by omega, by omega⟩
    have hslot : ∀ (i : Nat) (t : Tree), xs[i]? = some t → ∃ x,
        resolve m w (slotAt (v.pos + hdrLen xs.length) (wof w) i) = .ok x ∧ Matches m F scope (Probe scope) x t := by
      intro i t ht
      obtain ⟨x, h5, h6⟩ := ih i t ht
      exact ⟨x, by unfold slotAt; rw [hp]; exact h5, h6⟩
    refine .arr (fun i => slotVal m w (slotAt (v.pos + hdrLen xs.length) (wof w) i)) (asArray_of_type h1) h3 ?_ ?_ ?_
    · intro i hi
      obtain ⟨x, h5, _⟩ := hslot i _ (List.getElem?_eq_getElem hi)
      rw [slotVal_eq h5]
      unfold Val.get
      rw [h3]
      simp only [ok_bind]
      rw [if_neg (by omega), hcoll.getUnchecked hi, h5]
      rfl
    · refine ⟨_, hcoll.iter, ?_⟩
      have hlen : (xs.mapIdx fun i _ => slotVal m w (slotAt (v.pos + hdrLen xs.length) (wof w) i)).length = xs.length :=
        List.length_mapIdx
      have := Coll.collect_list (m := m) (v := v) (w := w) (fp := hdrLen xs.length) (fun x => .ok x)
        (xs := xs.mapIdx fun i _ => slotVal m w (slotAt (v.pos + hdrLen xs.length) (wof w) i))
        (by rw [hlen]; exact hcoll) ?_ 0 (xs.length + 1) (by omega)
      · rw [hlen] at this
        simpa using this
      · intro j x hx
        rw [List.getElem?_mapIdx, Option.map_eq_some_iff] at hx
        obtain ⟨t, ht, heq⟩ := hx
        subst heq
        obtain ⟨x, h5, _⟩ := hslot j t ht
        rw [slotVal_eq h5]
        exact ⟨x, h5, rfl⟩
    · intro i t ht
      obtain ⟨x, h5, h6⟩ := hslot i t ht
      rw [slotVal_eq h5]
      exact h6
  | @dict p w ks kvs hat small fits len keys text sorted strs vals ih =>
    dsimp only at ih ⊢
    intro v hp hin hl
    have hhl := headerBytes_length 0x70 (n := kvs.length) (by omega) w
    have hge := hdrLen_ge kvs.length
    have hhd : headerSize kvs.length ≤ hdrLen kvs.length := by unfold hdrLen; omega
    have hh : Holds m v (headerBytes 0x70 kvs.length w) := hat.holds hp hin (by omega)
    obtain ⟨h1, h2, h3, h4⟩ := header_read true (n := kvs.length) (by omega) hh
    simp only [if_true] at h1 h3
    have hcoll : Coll m v w (kvs.length * 2) (hdrLen kvs.length) := ⟨hin, h2, h3, h4, by omega, by omega⟩
    have hslot : ∀ (i : Nat) (s : List UInt8) (t : Tree), kvs[i]? = some (s, t) → ∃ x,
        resolve m w (slotAt (v.pos + hdrLen kvs.length) (wof w) (2 * i + 1)) = .ok x ∧
          Matches m F scope (Probe scope) x t := by
      intro i s t ht
      obtain ⟨x, h5, h6⟩ := ih i s t ht
      exact ⟨x, by unfold slotAt; rw [hp]; exact h5, h6⟩
    have hpairs : Pairs m v w (hdrLen kvs.length) ks
        (fun i => slotVal m w (slotAt (v.pos + hdrLen kvs.length) (wof w) (2 * i + 1))) := by
      refine ⟨by rw [len]; exact hcoll, ?_, ?_, sorted⟩
      · intro i k hk
        obtain ⟨y, hy, hty, hkv⟩ := (keys i _ hk).ok.res
        exact ⟨y, by unfold slotAt; rw [hp]; exact hy, hty, hkv⟩
      · intro i hi
        obtain ⟨x, h5, _⟩ := hslot i _ _ (List.getElem?_eq_getElem (show i < kvs.length by omega))
        rw [slotVal_eq h5]; exact h5
    have htext : ∀ (i : Nat) (k : Key) (s : List UInt8), ks[i]? = some k → (kvs.map Prod.fst)[i]? = some s → k.Text scope s := by
      intro i k s hk hs
      rw [List.getElem?_map, Option.map_eq_some_iff] at hs
      obtain ⟨⟨s', t⟩, hs, rfl⟩ := hs
      exact text i k _ t hk hs
    have hlook := fun {k : List UInt8} (hp : Probe scope k) =>
      hpairs.lookup hc (ss := kvs.map Prod.fst) (by simp [len]) htext strs hp
    refine .dict (fun i => slotVal m w (slotAt (v.pos + hdrLen kvs.length) (wof w) (2 * i + 1))) (asDict_of_type h1) ?_ ?_ ?_
      ?_ ?_ ?_
    · rw [hpairs.dictLen, len]
    · refine ⟨_, hcoll.iter, ?_⟩
      have hlen : (kvs.mapIdx fun i kv => (kv.1, slotVal m w (slotAt (v.pos + hdrLen kvs.length) (wof w) (2 * i + 1)))).length =
          kvs.length := List.length_mapIdx
      have := Coll.collectDict_list (m := m) (v := v) (w := w) (fp := hdrLen kvs.length) (scope := scope) (fun x => .ok x)
        (kvs := kvs.mapIdx fun i kv => (kv.1, slotVal m w (slotAt (v.pos + hdrLen kvs.length) (wof w) (2 * i + 1))))
        (by rw [hlen]; exact hcoll) ?_ 0 (kvs.length + 1) (by omega)
      · rw [hlen] at this
        simpa using this
      · intro j s x hx
        rw [List.getElem?_mapIdx, Option.map_eq_some_iff] at hx
        obtain ⟨⟨s', t⟩, hs, heq⟩ := hx
        cases heq
        have hj : j < kvs.length := (List.getElem?_eq_some_iff.mp hs).1
        have hk := List.getElem?_eq_getElem (show j < ks.length by omega)
        obtain ⟨y, hy, hty, hkv⟩ := hpairs.key j _ hk
        exact ⟨y, _, hy, hkv.read hty (text j _ _ t hk hs), hpairs.val j (by omega), rfl⟩
    · rw [List.pairwise_iff_getElem] at sorted ⊢
      intro i j hi hj hij
      have hki := List.getElem?_eq_getElem (show i < ks.length by omega)
      have hkj := List.getElem?_eq_getElem (show j < ks.length by omega)
      have hti := text i _ kvs[i].1 kvs[i].2 hki (List.getElem?_eq_getElem hi)
      have htj := text j _ kvs[j].1 kvs[j].2 hkj (List.getElem?_eq_getElem hj)
      have hei := keyOf_text hc hti fun x hx => strs i x (by rw [hki, hx])
      have hej := keyOf_text hc htj fun x hx => strs j x (by rw [hkj, hx])
      rw [hei, hej]
      rcases sorted i j (by omega) (by omega) hij with hlt | heq
      · exact .inl hlt
      · refine .inr ?_
        rw [heq] at hti
        exact hti.unique htj
    · intro k hk hm
      obtain ⟨i, h5, h6⟩ := (hlook hk).1 hm
      rw [List.getElem?_map, Option.map_eq_some_iff] at h5
      obtain ⟨⟨s', t⟩, hs, rfl⟩ := h5
      exact ⟨i, t, hs, h6⟩
    · intro k hk hm
      exact (hlook hk).2 hm
    · intro i k t ht
      obtain ⟨x, h5, h6⟩ := hslot i k t ht
      rw [slotVal_eq h5]
      exact h6

end Fleece
