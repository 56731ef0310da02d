import Verif.Proofs.DebugText
import Verif.Proofs.Lookup
import Verif.Props.C56

/-!
# C72 Lookup and iteration show the same dict

`from_bytes` does not look at the keys of a dict: neither their type nor their order. Full claim: for every dict of every accepted
document, `get(k)` returns `x` exactly if iterating over the dict yields `(k, x)`.

* A lookup never makes anything up (`C72_hit`): whatever the bytes, a value that is found is the value of an entry whose key is the
  key that was asked for. If iteration gets to the end of the dict, it shows the entry too (`C72_shown_partial`).
* If the keys are in order, the shared ones known and the others not in the table, the claim holds (`C72_agrees_partial`).
* It is false without the order (`C72_refuted_order`), of dicts in which codes and texts are mixed (`C72_refuted_mixed`), and of
  texts that are in the table (`C72_refuted_table`).
-/

namespace Fleece.Props
open Fleece Res

/-- The value `kv`, as the key of an entry, is the key `k`. -/
def HoldsKey (m : Mem) (kv : Val) : Key → Prop
  | .shared c => kv.type m = .ok .short ∧ kv.getShort m = .ok c
  | .string s => kv.type m = .ok .string ∧ kv.toStr m = .ok s

/-- Value `kv` is the key and `x` the value of the `i`-th of `n` entries. -/
def Entry (m : Mem) (v : Val) (i : Nat) (kv x : Val) : Prop :=
  v.getUnchecked m (2 * i) = .ok kv ∧ v.getUnchecked m (2 * i + 1) = .ok x

theorem pairUnchecked_entry {m : Mem} {v kv x : Val} {i : Nat} (hi : 2 * i < 2 ^ 64) (h : v.pairUnchecked m i = .ok (kv, x)) :
    Entry m v i kv x := by
  unfold Val.pairUnchecked at h
  rw [usizeMul_eq _ hi] at h
  simp only [ok_bind] at h
  obtain ⟨k, h1, h⟩ := bind_eq_ok.mp h
  obtain ⟨y, h2, h⟩ := bind_eq_ok.mp h
  cases h
  exact ⟨h1, h2⟩

theorem dict_arrayLen_lt {m : Mem} {v : Val} {n : Nat} (ht : v.type m = .ok .dict) (h : v.arrayLen m = .ok n) : n < 2 ^ 64 := by
  have hmul : ∀ {s : Nat}, usizeMul (ε := DecodeError) m.dbg s 2 = .ok n → n < 2 ^ 64 := by
    intro s h
    unfold usizeMul at h
    split at h
    · cases h; assumption
    · split at h
      · cases h
      · cases h; exact Nat.mod_lt _ (by decide)
  unfold Val.arrayLen at h
  obtain ⟨s, _, h⟩ := bind_eq_ok.mp h
  dsimp only at h
  split at h
  · obtain ⟨rest, _, h⟩ := bind_eq_ok.mp h
    obtain ⟨⟨a, b⟩, _, h⟩ := bind_eq_ok.mp h
    dsimp only at h
    split at h
    · cases h; decide
    · rw [ht] at h; simp only [ok_bind, if_true] at h; exact hmul h
  · rw [ht] at h; simp only [ok_bind, if_true] at h; exact hmul h

/-- What is fetched from a collection is not a pointer. -/
theorem getUnchecked_type {m : Mem} {v x : Val} {i : Nat} (h : v.getUnchecked m i = .ok x) : x.type m ≠ .ok .pointer := by
  unfold Val.getUnchecked at h
  obtain ⟨_, _, h⟩ := bind_eq_ok.mp h
  obtain ⟨_, _, h⟩ := bind_eq_ok.mp h
  obtain ⟨_, _, h⟩ := bind_eq_ok.mp h
  obtain ⟨_, _, h⟩ := bind_eq_ok.mp h
  obtain ⟨y, _, h⟩ := bind_eq_ok.mp h
  obtain ⟨t, ht, h⟩ := bind_eq_ok.mp h
  split at h
  · obtain ⟨w, _, h⟩ := bind_eq_ok.mp h
    exact derefUncheckedGo_type h
  · cases h
    rw [ht]
    intro e
    injection e with e
    contradiction

theorem cmpBytes_eq {a b : List UInt8} (h : cmpBytes a b = .eq) : a = b := by
  have := cmpBytes_compares a b
  rw [h] at this
  cases this; rfl

theorem cmp_eq {m : Mem} {key : Key} {v : Val} {w : Bool} (hv : v.type m ≠ .ok .pointer) (h : dictKeyCmp m key v w = .ok .eq) :
    HoldsKey m v key := by
  unfold dictKeyCmp at h
  obtain ⟨t, ht, h⟩ := bind_eq_ok.mp h
  rw [ht] at hv
  split at h
  · cases h
  · cases key with
    | shared c =>
      cases t <;> first
        | (dsimp only at h; cases h; done)
        | skip
      obtain ⟨n, h1, h⟩ := bind_eq_ok.mp h
      have hc : cmpNat c n = .eq := Res.ok.inj h
      have := cmpNat_compares c n
      rw [hc] at this
      cases this
      exact ⟨ht, h1⟩
    | string s =>
      cases t <;> first
        | (dsimp only at h; cases h; done)
        | exact absurd rfl hv
        | skip
      obtain ⟨n, h1, h⟩ := bind_eq_ok.mp h
      have hc : cmpBytes s n = .eq := Res.ok.inj h
      cases cmpBytes_eq hc
      exact ⟨ht, h1⟩

theorem searchLoop_hit {m : Mem} {v : Val} {key : Key} : ∀ {fuel left right : Nat} {x : Val},
    v.searchLoop m key fuel left right = .ok (some x) →
    ∃ i kv, left ≤ i ∧ i < right ∧ v.pairUnchecked m i = .ok (kv, x) ∧ ∃ w, dictKeyCmp m key kv w = .ok .eq
  | 0, left, right, x => fun h => by unfold Val.searchLoop at h; split at h <;> cases h
  | fuel + 1, left, right, x => fun h => by
    unfold Val.searchLoop at h
    split at h
    · rename_i hlr
      dsimp only at h
      obtain ⟨⟨kv, y⟩, h1, h⟩ := bind_eq_ok.mp h
      obtain ⟨w, h2, h⟩ := bind_eq_ok.mp h
      obtain ⟨o, h3, h⟩ := bind_eq_ok.mp h
      cases o with
      | eq => cases h; exact ⟨_, kv, by omega, by omega, h1, w, h3⟩
      | lt =>
        obtain ⟨i, kv, h4, h5, h6⟩ := searchLoop_hit h
        exact ⟨i, kv, h4, by omega, h6⟩
      | gt =>
        obtain ⟨i, kv, h4, h5, h6⟩ := searchLoop_hit h
        exact ⟨i, kv, by omega, h5, h6⟩
    · cases h

theorem search_hit {m : Mem} {v : Val} (hd : v.asDict m = .ok (some v)) {key : Key} {x : Val}
    (h : v.search m key = .ok (some x)) :
    ∃ n i kv, v.dictLen m = .ok n ∧ i < n ∧ Entry m v i kv x ∧ HoldsKey m kv key := by
  unfold Val.search at h
  obtain ⟨n, hn, h⟩ := bind_eq_ok.mp h
  obtain ⟨i, kv, _, h1, h2, w, h3⟩ := searchLoop_hit h
  have hlt : 2 * i < 2 ^ 64 := by
    have hn' := hn
    unfold Val.dictLen at hn'
    obtain ⟨l, hl, hn'⟩ := bind_eq_ok.mp hn'
    cases hn'
    have := dict_arrayLen_lt (asDict_type hd) hl
    omega
  have he := pairUnchecked_entry hlt h2
  exact ⟨n, i, kv, hn, h1, he, cmp_eq (getUnchecked_type he.1) h3⟩

/-- The key `k` stands for the text `key`: the text itself, or its code in the table. -/
def StandsFor (scope : Option SharedKeys) (key : List UInt8) : Key → Prop
  | .string s => s = key
  | .shared c => ∃ sk, scope = some sk ∧ sk.encode key = some c

theorem encodeKey_stands {m : Mem} {v : Val} {key : List UInt8} {given scope : Option SharedKeys} {k : Key}
    (h : v.encodeKey m key given scope = .ok k) : StandsFor (given.or scope) key k := by
  unfold Val.encodeKey at h
  cases given with
  | some sk =>
    dsimp only at h
    cases he : sk.encode key with
    | none => rw [he] at h; cases h; rfl
    | some c => rw [he] at h; cases h; exact ⟨sk, rfl, he⟩
  | none =>
    dsimp only at h
    obtain ⟨b, _, h⟩ := bind_eq_ok.mp h
    split at h
    · cases scope with
      | none => cases h; rfl
      | some sk =>
        simp only [Option.bind_some] at h
        cases he : sk.encode key with
        | none => rw [he] at h; cases h; rfl
        | some c => rw [he] at h; cases h; exact ⟨sk, rfl, he⟩
    · cases h; rfl

/-- **C72, nothing is made up.** Any bytes, any dict, accepted or not, in either build: what `get` returns is the value of one of
the `len` entries, whose key is a string that reads as the key asked for, or the code that the table of the scope has for it. -/
theorem C72_hit (m : Mem) (scope : Option SharedKeys) (v : Val) (hd : v.asDict m = .ok (some v)) (key : List UInt8) (x : Val)
    (h : v.dictGet m scope key = .ok (some x)) :
    ∃ n i kv k, v.dictLen m = .ok n ∧ i < n ∧ Entry m v i kv x ∧ HoldsKey m kv k ∧ StandsFor scope key k := by
  unfold Val.dictGet at h
  obtain ⟨k, hk, h⟩ := bind_eq_ok.mp h
  obtain ⟨n, i, kv, h1, h2, h3, h4⟩ := search_hit hd h
  exact ⟨n, i, kv, k, h1, h2, h3, h4, encodeKey_stands hk⟩

/-- The same of `get_with_shared_keys`, with the table that is passed. -/
theorem C72_hit_with (m : Mem) (sk : SharedKeys) (v : Val) (hd : v.asDict m = .ok (some v)) (key : List UInt8) (x : Val)
    (h : v.dictGetWith m sk key = .ok (some x)) :
    ∃ n i kv k, v.dictLen m = .ok n ∧ i < n ∧ Entry m v i kv x ∧ HoldsKey m kv k ∧ StandsFor (some sk) key k := by
  unfold Val.dictGetWith at h
  obtain ⟨k, hk, h⟩ := bind_eq_ok.mp h
  obtain ⟨n, i, kv, h1, h2, h3, h4⟩ := search_hit hd h
  exact ⟨n, i, kv, k, h1, h2, h3, h4, encodeKey_stands hk⟩

/-- The text under which iteration shows an entry with the key `kv`. -/
def ShownAs (m : Mem) (scope : Option SharedKeys) (kv : Val) (s : List UInt8) : Prop :=
  ∃ t, kv.type m = .ok t ∧
    if t = .short then ∃ sk c, scope = some sk ∧ kv.getShort m = .ok c ∧ sk.decode c = some s else kv.toStr m = .ok s

theorem dictStep_some {m : Mem} {v : Val} {scope : Option SharedKeys} {w : Bool} {n fp i : Nat} (hc : Coll m v w n fp)
    (he : Elems m v w n fp) {s : List UInt8} {x : Val} {it' : Iter}
    (h : (iterAt (v.pos + fp) (wof w) n i).dictStep m scope = .ok (some (s, x), it')) :
    it' = iterAt (v.pos + fp) (wof w) n (i + 2) ∧ ∃ kv, v.getUnchecked m i = .ok kv ∧ v.getUnchecked m (i + 1) = .ok x ∧
      ShownAs m scope kv s := by
  unfold Iter.dictStep at h
  by_cases hi : i < n
  · obtain ⟨kv, h1, hdeep⟩ := he i hi
    rw [hc.step hi h1] at h
    simp only [ok_bind] at h
    obtain ⟨t, ht, h⟩ := bind_eq_ok.mp h
    have fin : ∀ key : List UInt8, (do
          let (x, it2) ← (iterAt (v.pos + fp) (wof w) n (i + 1)).step m
          match x with
          | none => pure (none, it2)
          | some x => pure (some (key, x), it2) : R (Option (List UInt8 × Val) × Iter)) = .ok (some (s, x), it') →
        key = s ∧ it' = iterAt (v.pos + fp) (wof w) n (i + 2) ∧ v.getUnchecked m (i + 1) = .ok x := by
      intro key h
      by_cases hi' : i + 1 < n
      · obtain ⟨y, h2, _⟩ := he (i + 1) hi'
        rw [hc.step hi' h2] at h
        simp only [ok_bind] at h
        cases h
        exact ⟨rfl, rfl, by rw [hc.getUnchecked hi', h2]⟩
      · rw [iterAt_step_end hi'] at h
        cases h
    have hg : v.getUnchecked m i = .ok kv := by rw [hc.getUnchecked hi, h1]
    by_cases hs : t = .short
    · rw [if_pos hs] at h
      cases scope with
      | none => simp only [pure_eq, ok_bind] at h; cases h
      | some sk =>
        dsimp only at h
        obtain ⟨c, hcode, h⟩ := bind_eq_ok.mp h
        simp only [pure_eq, ok_bind] at h
        cases hdec : sk.decode c with
        | none => rw [hdec] at h; cases h
        | some k =>
          rw [hdec] at h
          obtain ⟨h2, h3, h4⟩ := fin k h
          subst h2
          exact ⟨h3, kv, hg, h4, t, ht, by rw [if_pos hs]; exact ⟨sk, c, rfl, hcode, hdec⟩⟩
    · rw [if_neg hs] at h
      obtain ⟨s', hstr, h⟩ := bind_eq_ok.mp h
      simp only [pure_eq, ok_bind] at h
      obtain ⟨h2, h3, h4⟩ := fin s' h
      subst h2
      exact ⟨h3, kv, hg, h4, t, ht, by rw [if_neg hs]; exact hstr⟩
  · rw [iterAt_step_end hi] at h
    cases h

theorem collectDict_shown {m : Mem} {v : Val} {scope : Option SharedKeys} {w : Bool} {n fp : Nat} (hc : Coll m v w n fp)
    (he : Elems m v w n fp) : ∀ {fuel i : Nat} {L : List (List UInt8 × Val)},
    collectDict m scope .ok fuel (iterAt (v.pos + fp) (wof w) n (2 * i)) = .ok L →
    ∀ (j : Nat) (s : List UInt8) (x : Val), L[j]? = some (s, x) → ∃ kv, Entry m v (i + j) kv x ∧ ShownAs m scope kv s
  | 0, i, L => fun h => by cases h
  | fuel + 1, i, L => fun h j s x hj => by
    unfold collectDict at h
    obtain ⟨⟨r, it'⟩, hs, h⟩ := bind_eq_ok.mp h
    cases r with
    | none => cases h; cases hj
    | some kx =>
      obtain ⟨k, y⟩ := kx
      obtain ⟨a, ha, h⟩ := bind_eq_ok.mp h
      obtain ⟨rest, hr, h⟩ := bind_eq_ok.mp h
      cases ha; cases h
      obtain ⟨h1, kv, h2, h3, h4⟩ := dictStep_some hc he hs
      cases j with
      | zero => cases hj; exact ⟨kv, ⟨h2, h3⟩, h4⟩
      | succ j =>
        rw [h1] at hr
        obtain ⟨kv, h5, h6⟩ := collectDict_shown (i := i + 1) hc he hr j s x hj
        exact ⟨kv, by rw [show i + (j + 1) = i + 1 + j by omega]; exact h5, h6⟩

/-- The dict `v`, in the scope with the table `scope`, is iterated over as `L`. -/
def Iterates (m : Mem) (scope : Option SharedKeys) (v : Val) (L : List (List UInt8 × Val)) : Prop :=
  ∃ it fuel, v.dictIter m = .ok it ∧ collectDict m scope .ok fuel it = .ok L

/-- **C72, what is found is shown.** Any dict of an accepted document, whatever the order and kinds of its keys: if iteration
yields as many entries as the dict has, then what `get(key)` returns is among them under this key. Keys that the table keeps cut
short (`Probe`) are excluded, see C30. -/
theorem C72_shown_partial (m : Mem) (hdbg : m.dbg = true) (root : Val) (hok : fromBytes m = .ok root)
    (m' : Mem) (hm : m' = m ∨ m' = { m with dbg := false }) (scope : Option SharedKeys) (hwf : ∀ sk, scope = some sk → sk.WF)
    (v : Val) (hv : Reach m' scope root v) (hd : v.asDict m' = .ok (some v)) (L : List (List UInt8 × Val))
    (hL : Iterates m' scope v L) (hlen : v.dictLen m' = .ok L.length) (key : List UInt8) (hp : Probe scope key) (x : Val)
    (h : v.dictGet m' scope key = .ok (some x)) : (key, x) ∈ L := by
  have hdeep : DeepOK m root := fromBytesGo_deep hdbg _ _ hok
  have hdeep' : DeepOK m' root := by
    rcases hm with rfl | rfl
    · exact hdeep
    · exact hdeep.rel hdbg
  obtain ⟨w, n, fp, hc, he⟩ := (hdeep'.reach hv).coll_of (asDict_type hd) (Or.inr rfl)
  obtain ⟨l, i, kv, k, h1, h2, h3, h4, h5⟩ := C72_hit m' scope v hd key x h
  rw [h1] at hlen; cases hlen
  obtain ⟨it, fuel, h6, h7⟩ := hL
  unfold Val.dictIter at h6
  rw [hc.iter] at h6; cases h6
  obtain ⟨⟨s, y⟩, hi⟩ : ∃ a, L[i]? = some a := ⟨_, List.getElem?_eq_getElem h2⟩
  obtain ⟨kv', h8, t, h9, h10⟩ := collectDict_shown (i := 0) hc he h7 i s y hi
  rw [Nat.zero_add] at h8
  have e1 := h8.1; rw [h3.1] at e1; cases e1
  have e2 := h8.2; rw [h3.2] at e2; cases e2
  suffices s = key by rw [← this]; exact List.mem_of_getElem? hi
  cases k with
  | string s' =>
    obtain ⟨h11, h12⟩ := h4
    rw [h9] at h11; cases h11
    rw [if_neg (by decide), h12] at h10
    cases h10
    exact h5
  | shared c =>
    obtain ⟨h11, h12⟩ := h4
    rw [h9] at h11; cases h11
    rw [if_pos rfl] at h10
    obtain ⟨sk, c', h13, h14, h15⟩ := h10
    rw [h12] at h14; cases h14
    obtain ⟨sk', h16, h17⟩ := h5
    rw [h13] at h16; cases h16
    have hz : zstr key = key := by
      rcases hp sk h13 with hz | hz
      · exact hz
      · rw [hz] at h17; cases h17
    unfold SharedKeys.encode at h17
    rw [hz, (hwf sk h13).lookup_iff, h15] at h17
    cases h17; rfl

/-- The keys of the dict are `ks`. -/
def KeysAre (m : Mem) (v : Val) (ks : List Key) : Prop :=
  v.dictLen m = .ok ks.length ∧ ∀ (i : Nat) (k : Key), ks[i]? = some k → ∃ kv x, Entry m v i kv x ∧ HoldsKey m kv k

/-- **C72, dicts in order.** Any dict of an accepted document, in either build, whose keys are texts that are not in the table and
codes that are, in strictly ascending order: it is iterated over completely, `get(key)` returns `x` exactly if iteration yields
`(key, x)`, and returns nothing exactly if iteration does not yield the key; `contains_key` and `get_with_shared_keys` agree. -/
theorem C72_agrees_partial (m : Mem) (hdbg : m.dbg = true) (root : Val) (hok : fromBytes m = .ok root)
    (m' : Mem) (hm : m' = m ∨ m' = { m with dbg := false }) (scope : Option SharedKeys)
    (hwf : ∀ sk, scope = some sk → sk.WF ∧ ∀ e ∈ sk.entries, zstr e.1 = e.1)
    (v : Val) (hv : Reach m' scope root v) (hd : v.asDict m' = .ok (some v)) (ks : List Key) (hks : KeysAre m' v ks)
    (hcodes : ∀ c, Key.shared c ∈ ks → ∃ sk s, scope = some sk ∧ sk.decode c = some s)
    (htexts : ∀ s, Key.string s ∈ ks → ∀ sk, scope = some sk → sk.encode s = none) (hord : ks.Pairwise Key.Lt) :
    ∃ L : List (List UInt8 × Val), Iterates m' scope v L ∧ L.length = ks.length ∧ (L.map Prod.fst).Nodup ∧
      ∀ key, Probe scope key →
        (∀ x, (key, x) ∈ L → v.Lookup m' scope key (some x)) ∧ (key ∉ L.map Prod.fst → v.Lookup m' scope key none) := by
  have hdeep : DeepOK m root := fromBytesGo_deep hdbg _ _ hok
  have hdeep' : DeepOK m' root := by
    rcases hm with rfl | rfl
    · exact hdeep
    · exact hdeep.rel hdbg
  obtain ⟨w, n, fp, hc, he⟩ := (hdeep'.reach hv).coll_of (asDict_type hd) (Or.inr rfl)
  have hev := arrayLen_even (asDict_type hd) hc.len
  have hn : n = ks.length * 2 := by
    have := hks.1
    unfold Val.dictLen at this
    rw [hc.len] at this
    simp only [ok_bind, pure_eq] at this
    have := Res.ok.inj this
    omega
  subst hn
  let u : Nat → Val := fun i => slotVal m' w (slotAt (v.pos + fp) (wof w) (2 * i + 1))
  have hu : ∀ i, i < ks.length → resolve m' w (slotAt (v.pos + fp) (wof w) (2 * i + 1)) = .ok (u i) := by
    intro i hi
    obtain ⟨e, h1, _⟩ := he (2 * i + 1) (by omega)
    show _ = Res.ok (slotVal _ _ _)
    rw [slotVal_eq h1]; exact h1
  have hpairs : Pairs m' v w fp ks u := by
    refine ⟨hc, ?_, hu, hord.imp fun h => .inl h⟩
    intro i k hk
    have hi : i < ks.length := (List.getElem?_eq_some_iff.mp hk).1
    obtain ⟨kv, x, ⟨h1, _⟩, h2⟩ := hks.2 i k hk
    rw [hc.getUnchecked (by omega)] at h1
    refine ⟨kv, h1, ?_⟩
    cases k with
    | shared c => exact ⟨⟨_, h2.1, .inl rfl⟩, .short h2.1 h2.2⟩
    | string s => exact ⟨⟨_, h2.1, .inr rfl⟩, .inline h2.1 h2.2⟩
  let text : Key → List UInt8 := fun k => match k with
    | .string s => s
    | .shared c => ((scope.bind fun sk => sk.decode c).getD [])
  have htext : ∀ k ∈ ks, k.Text scope (text k) := by
    intro k hk
    cases k with
    | string s => rfl
    | shared c =>
      obtain ⟨sk, s, h1, h2⟩ := hcodes c hk
      refine ⟨sk, h1, ?_⟩
      show _ = some ((scope.bind fun sk => sk.decode c).getD [])
      rw [h1]
      simp [h2]
  have hcan : ∀ sk, scope = some sk → Canon (fun s => Key.string s ∈ ks) sk := fun sk hsk =>
    ⟨(hwf sk hsk).1, (hwf sk hsk).2, fun s hs => htexts s hs sk hsk⟩
  have hinj : ∀ a ∈ ks, ∀ b ∈ ks, text a = text b → a = b := by
    intro a ha b hb hab
    have e1 := keyOf_text hcan (htext a ha) fun x hx => by rw [← hx]; exact ha
    have e2 := keyOf_text hcan (htext b hb) fun x hx => by rw [← hx]; exact hb
    rw [← e1, ← e2, hab]
  let L : List (List UInt8 × Val) := ks.mapIdx fun i k => (text k, u i)
  have hLlen : L.length = ks.length := List.length_mapIdx
  have hfst : L.map Prod.fst = ks.map text := by
    apply List.ext_getElem?
    intro i
    rw [List.getElem?_map, List.getElem?_map, List.getElem?_mapIdx]
    cases ks[i]? <;> rfl
  refine ⟨L, ?_, hLlen, ?_, ?_⟩
  · refine ⟨_, ks.length + 1, hc.iter, ?_⟩
    have := Coll.collectDict_list (m := m') (v := v) (w := w) (fp := fp) (scope := scope) (fun x => .ok x) (kvs := L)
      (by rw [hLlen]; exact hc) ?_ 0 (ks.length + 1) (by omega)
    · rw [hLlen] at this
      simpa using this
    · intro j s x hx
      rw [List.getElem?_mapIdx, Option.map_eq_some_iff] at hx
      obtain ⟨k, hk, heq⟩ := hx
      cases heq
      obtain ⟨y, hy, hty, hkv⟩ := hpairs.key j _ hk
      exact ⟨y, _, hy, hkv.read hty (htext k (List.mem_of_getElem? hk)), hu j (List.getElem?_eq_some_iff.mp hk).1, rfl⟩
  · rw [hfst]
    rw [List.Nodup, List.pairwise_map]
    refine List.Pairwise.imp_of_mem ?_ hord
    intro a b ha hb hlt heq
    rw [hinj a ha b hb heq] at hlt
    exact Key.lt_irrefl _ hlt
  · intro key hp
    obtain ⟨h1, h2⟩ := hpairs.lookup hcan (ss := L.map Prod.fst) (by rw [hfst]; simp) (by
      intro i k s hk hs
      rw [hfst, List.getElem?_map, hk] at hs
      cases hs
      exact htext k (List.mem_of_getElem? hk)) (fun i s hs => List.mem_of_getElem? hs) hp
    refine ⟨fun x hx => ?_, h2⟩
    obtain ⟨i, hi, hlook⟩ := h1 (List.mem_map.mpr ⟨_, hx, rfl⟩)
    obtain ⟨j, hj⟩ := List.mem_iff_getElem?.mp hx
    rw [List.getElem?_mapIdx, Option.map_eq_some_iff] at hj
    obtain ⟨k, hk, heq⟩ := hj
    cases heq
    rw [hfst, List.getElem?_map, Option.map_eq_some_iff] at hi
    obtain ⟨k', hk', heq⟩ := hi
    cases hinj k' (List.mem_of_getElem? hk') k (List.mem_of_getElem? hk) heq
    have : i = j := by
      rcases Nat.lt_trichotomy i j with h | h | h
      · obtain ⟨hi', e1⟩ := List.getElem?_eq_some_iff.mp hk'
        obtain ⟨hj', e2⟩ := List.getElem?_eq_some_iff.mp hk
        have := List.pairwise_iff_getElem.mp hord i j hi' hj' h
        rw [e1, e2] at this
        exact absurd this (Key.lt_irrefl _)
      · exact h
      · obtain ⟨hi', e1⟩ := List.getElem?_eq_some_iff.mp hk'
        obtain ⟨hj', e2⟩ := List.getElem?_eq_some_iff.mp hk
        have := List.pairwise_iff_getElem.mp hord j i hj' hi' h
        rw [e1, e2] at this
        exact absurd this (Key.lt_irrefl _)
    rw [← this]
    exact hlook

/-! ## Examples and counterexamples -/

/-- `{"aa": true, "bb": false}`, keys in order. -/
def inOrder : Mem := { data := [0x42, 0x61, 0x61, 0, 0x42, 0x62, 0x62, 0, 0x70, 2, 0x80, 5, 0x38, 0, 0x80, 5, 0x34, 0, 0x80, 5] }

/-- `C72_agrees_partial` applies to `inOrder`, and `C72_shown_partial` and `C72_hit` to a lookup in it. -/
example : fromBytes inOrder = .ok ⟨8, 10⟩ ∧ KeysAre inOrder ⟨8, 10⟩ [.string [0x61, 0x61], .string [0x62, 0x62]] ∧
    [Key.string [0x61, 0x61], .string [0x62, 0x62]].Pairwise Key.Lt ∧
    Iterates inOrder none ⟨8, 10⟩ [([0x61, 0x61], ⟨12, 2⟩), ([0x62, 0x62], ⟨16, 2⟩)] ∧
    (⟨8, 10⟩ : Val).dictGet inOrder none [0x62, 0x62] = .ok (some ⟨16, 2⟩) ∧ Probe none [0x62, 0x62] := by
  refine ⟨by decide +kernel, ⟨by decide +kernel, ?_⟩, ?_, ⟨_, 3, rfl, by decide +kernel⟩, by decide +kernel, ?_⟩
  rotate_left
  · simp only [List.pairwise_cons, List.mem_singleton, forall_eq, List.not_mem_nil, false_imp_iff, implies_true, and_true,
      List.Pairwise.nil]
    show ([0x61, 0x61] : List UInt8) < [0x62, 0x62]
    decide
  rotate_left
  · intro i k hk
    match i, hk with
    | 0, hk => cases hk; exact ⟨⟨0, 10⟩, ⟨12, 2⟩, ⟨by decide +kernel, by decide +kernel⟩, by decide +kernel, by decide +kernel⟩
    | 1, hk => cases hk; exact ⟨⟨4, 10⟩, ⟨16, 2⟩, ⟨by decide +kernel, by decide +kernel⟩, by decide +kernel, by decide +kernel⟩
  · intro sk h; cases h

/-- `{"bb": true, "aa": false}`, in this order. -/
def outOfOrder : Mem := { data := [0x42, 0x62, 0x62, 0, 0x42, 0x61, 0x61, 0, 0x70, 2, 0x80, 5, 0x38, 0, 0x80, 5, 0x34, 0, 0x80, 5] }

/-- **C72 is false of the code**: keys out of order are accepted; iteration shows `"bb"`, `get("bb")` is `None`. -/
theorem C72_refuted_order : ∃ (m : Mem) (v x : Val) (L : List (List UInt8 × Val)), fromBytes m = .ok v ∧
    v.asDict m = .ok (some v) ∧ Iterates m none v L ∧ v.dictLen m = .ok L.length ∧ ([0x62, 0x62], x) ∈ L ∧
    v.dictGet m none [0x62, 0x62] = .ok none :=
  ⟨outOfOrder, ⟨8, 10⟩, ⟨12, 2⟩, [([0x62, 0x62], ⟨12, 2⟩), ([0x61, 0x61], ⟨16, 2⟩)], by decide +kernel, by decide +kernel,
    ⟨_, 3, rfl, by decide +kernel⟩, by decide +kernel, by decide, by decide +kernel⟩

/-- `{"aa": true, 5: false, "bb": true}`, in this order. -/
def mixed : Mem := { data := [0x42, 0x61, 0x61, 0, 0x42, 0x62, 0x62, 0, 0x70, 3, 0x80, 5, 0x38, 0, 0, 5, 0x34, 0, 0x80, 7, 0x38, 0,
  0x80, 7] }

/-- **C72 is false of the code**, the other way round: iteration without a table ends at the code, `len` says 3, one entry is
shown, and `get("bb")` finds one that is not. -/
theorem C72_refuted_mixed : ∃ (m : Mem) (v x : Val) (L : List (List UInt8 × Val)), fromBytes m = .ok v ∧
    v.asDict m = .ok (some v) ∧ Iterates m none v L ∧ v.dictLen m = .ok 3 ∧ L.length = 1 ∧ [0x62, 0x62] ∉ L.map Prod.fst ∧
    v.dictGet m none [0x62, 0x62] = .ok (some x) :=
  ⟨mixed, ⟨8, 14⟩, ⟨20, 2⟩, [([0x61, 0x61], ⟨12, 2⟩)], by decide +kernel, by decide +kernel, ⟨_, 3, rfl, by decide +kernel⟩,
    by decide +kernel, rfl, by decide, by decide +kernel⟩

/-- `{1: true, "aa": false}`: in order. -/
def inTable : Mem := { data := [0x42, 0x61, 0x61, 0, 0x70, 2, 0, 1, 0x38, 0, 0x80, 5, 0x34, 0, 0x80, 5] }

/-- **C72 is false of the code** even of dicts in order, if a text is in the table: iteration shows both entries, `get("aa")`
looks for its code and returns `None`. (The encoder writes such dicts when the table is full, see C30.) -/
theorem C72_refuted_table : ∃ (m : Mem) (sk : SharedKeys) (v x : Val) (L : List (List UInt8 × Val)), fromBytes m = .ok v ∧
    sk.WF ∧ v.asDict m = .ok (some v) ∧ KeysAre m v [.shared 1, .string [0x61, 0x61]] ∧ Iterates m (some sk) v L ∧
    v.dictLen m = .ok L.length ∧ ([0x61, 0x61], x) ∈ L ∧ v.dictGet m (some sk) [0x61, 0x61] = .ok none := by
  refine ⟨inTable, ⟨[([0x61, 0x61], 0), ([0x62, 0x62], 1)]⟩, ⟨4, 10⟩, ⟨12, 2⟩, [([0x62, 0x62], ⟨8, 2⟩), ([0x61, 0x61], ⟨12, 2⟩)],
    by decide +kernel, ⟨?_, ?_, ?_⟩, by decide +kernel, ⟨by decide +kernel, ?_⟩, ⟨_, 3, rfl, by decide +kernel⟩, by decide +kernel,
    by decide, by decide +kernel⟩
  · intro i k c h
    match i, h with
    | 0, h => cases h; rfl
    | 1, h => cases h; rfl
  · decide
  · decide
  · intro i k hk
    match i, hk with
    | 0, hk => cases hk; exact ⟨⟨6, 2⟩, ⟨8, 2⟩, ⟨by decide +kernel, by decide +kernel⟩, by decide +kernel, by decide +kernel⟩
    | 1, hk => cases hk; exact ⟨⟨0, 10⟩, ⟨12, 2⟩, ⟨by decide +kernel, by decide +kernel⟩, by decide +kernel, by decide +kernel⟩

end Fleece.Props
