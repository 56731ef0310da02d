import Verif.Model.Index
import Verif.Props.C10
import Verif.Props.C24

/-!
# C56 get_with_shared_keys gives what get gives

Full claim, from the documentation ("The same as `Dict::get`, but may be more efficient"): whatever the dict and the table,
`get_with_shared_keys(k, sk)` gives what `get(k)` gives when the dict is in a scope with the table `sk`; and
`contains_key_with_shared_keys` likewise. For documents written with the table this is part of `C30`. It is false of dicts
without shared keys: there `get` looks for the text and `get_with_shared_keys` for the code (`C56_blind`,
`C56_refuted_document`, `C56_refuted`).
-/

namespace Fleece.Props
open Fleece Res

/-- **C56**, as far as it holds: any dict of an accepted document, in either profile. If the dict is empty, or its first
key is a shared key, or the key is not in the table, then both give the same, panics included. -/
theorem C56_agrees_partial (m : Mem) (hdbg : m.dbg = true) (root : Val) (hok : fromBytes m = .ok root)
    (m' : Mem) (hm : m' = m ∨ m' = { m with dbg := false }) (sk : SharedKeys)
    (v : Val) (hv : Reach m' (some sk) root v) (hd : v.asDict m' = .ok (some v)) (k : List UInt8)
    (h : v.dictLen m' = .ok 0 ∨ (∃ key x, v.dictFirst m' = .ok (some (key, x)) ∧ key.type m' = .ok .short) ∨
      sk.encode k = none) :
    v.dictGetWith m' sk k = v.dictGet m' (some sk) k ∧ v.containsKeyWith m' sk k = v.containsKey m' (some sk) k := by
  have hdeep : DeepOK m root := fromBytesGo_deep hdbg _ _ hok
  have hdeep' : DeepOK m' root := by
    rcases hm with rfl | rfl
    · exact hdeep
    · exact hdeep.rel hdbg
  obtain ⟨w, n, fp, hc, he⟩ := (hdeep'.reach hv).coll_of (asDict_type hd) (Or.inr rfl)
  have hev := arrayLen_even (asDict_type hd) hc.len
  have hmain : v.dictGetWith m' sk k = v.dictGet m' (some sk) k := by
    rcases h with h | ⟨key, x, h1, h2⟩ | h
    · have hn : n / 2 = 0 := by
        unfold Val.dictLen at h
        rw [hc.len] at h
        simp only [ok_bind, pure_eq] at h
        exact Res.ok.inj h
      have hs : ∀ key, v.search m' key = .ok none := by
        intro key
        unfold Val.search Val.dictLen
        simp only [hc.len, ok_bind, pure_eq, hn]
        rfl
      unfold Val.dictGetWith Val.dictGet
      obtain ⟨k1, hk1⟩ := hc.encodeKey_ok he hev k (some sk) none
      obtain ⟨k2, hk2⟩ := hc.encodeKey_ok he hev k none (some sk)
      rw [hk1, hk2]
      simp only [ok_bind, hs]
    · have hu : v.usesSharedKeys m' = .ok true := by
        unfold Val.dictFirst at h1
        unfold Val.usesSharedKeys
        rw [hc.len] at h1 ⊢
        simp only [ok_bind] at h1 ⊢
        by_cases hn : n = 0
        · rw [if_pos hn] at h1; cases h1
        · rw [if_neg hn] at h1 ⊢
          obtain ⟨p, h3, h4⟩ := bind_eq_ok.mp h1
          cases h4
          rw [h3]
          simp only [ok_bind, h2]
          rfl
      unfold Val.dictGetWith Val.dictGet Val.encodeKey
      rw [hu]
      simp only [ok_bind, Option.bind_some, if_true]
    · unfold Val.dictGetWith Val.dictGet
      have h1 : v.encodeKey m' k (some sk) none = .ok (.string k) := by
        unfold Val.encodeKey
        simp only [h, pure_eq]
      have h2 : v.encodeKey m' k none (some sk) = .ok (.string k) := by
        obtain ⟨k2, hk2⟩ := hc.encodeKey_ok he hev k none (some sk)
        have hk2' := hk2
        unfold Val.encodeKey at hk2'
        dsimp only at hk2'
        obtain ⟨b, _, h4⟩ := bind_eq_ok.mp hk2'
        rw [hk2]
        simp only [Option.bind_some, h, pure_eq] at h4
        split at h4 <;> cases h4 <;> rfl
      rw [h1, h2]
  exact ⟨hmain, by unfold Val.containsKeyWith Val.containsKey; rw [hmain]⟩

/-- Searching for a code among texts finds nothing, whatever their order. -/
theorem search_shared {m : Mem} {v : Val} {w : Bool} {n fp : Nat} (hc : Coll m v w n fp) (he : Elems m v w n fp)
    (hk : ∀ i k, 2 * i + 1 < n → v.getUnchecked m (2 * i) = .ok k → k.type m = .ok .string) (c : Nat) :
    ∀ fuel l r, r - l ≤ fuel → 2 * r ≤ n → v.searchLoop m (.shared c) fuel l r = .ok none := by
  intro fuel
  induction fuel with
  | zero => intro l r h _; unfold Val.searchLoop; rw [if_neg (by omega)]
  | succ f ih =>
    intro l r h hr
    unfold Val.searchLoop
    split
    · obtain ⟨a, b, hp, hg, _, _, _⟩ := hc.pair he (i := l + (r - l) / 2) (by omega)
      have hcmp : dictKeyCmp m (.shared c) a w = .ok .lt := by
        unfold dictKeyCmp
        rw [hk _ a (by omega) hg]
        simp
      simp only [hp, ok_bind, hc.wide, hcmp]
      exact ih _ _ (by omega) (by omega)
    · rfl

/-- **Blind.** Any dict of an accepted document, in either profile, all of whose keys are texts: with *every* table,
`get_with_shared_keys` returns `None` for *every* key in the table, whether the dict has it or not; `get` does not look at
the table. -/
theorem C56_blind (m : Mem) (hdbg : m.dbg = true) (root : Val) (hok : fromBytes m = .ok root)
    (m' : Mem) (hm : m' = m ∨ m' = { m with dbg := false }) (scope : Option SharedKeys)
    (v : Val) (hv : Reach m' scope root v) (hd : v.asDict m' = .ok (some v)) (n : Nat) (hn : v.dictLen m' = .ok n)
    (htext : ∀ i k, i < n → v.getUnchecked m' (2 * i) = .ok k → k.type m' = .ok .string) (sk : SharedKeys)
    (k : List UInt8) (c : Nat) (hk : sk.encode k = some c) :
    v.dictGetWith m' sk k = .ok none ∧ v.containsKeyWith m' sk k = .ok false ∧
      v.dictGet m' (some sk) k = v.dictGet m' none k := by
  have hdeep : DeepOK m root := fromBytesGo_deep hdbg _ _ hok
  have hdeep' : DeepOK m' root := by
    rcases hm with rfl | rfl
    · exact hdeep
    · exact hdeep.rel hdbg
  obtain ⟨w, l, fp, hc, he⟩ := (hdeep'.reach hv).coll_of (asDict_type hd) (Or.inr rfl)
  have hl : l / 2 = n := by
    unfold Val.dictLen at hn
    rw [hc.len] at hn
    simp only [ok_bind, pure_eq] at hn
    exact Res.ok.inj hn
  have hs : v.dictGetWith m' sk k = .ok none := by
    unfold Val.dictGetWith Val.encodeKey
    simp only [hk, pure_eq, ok_bind]
    unfold Val.search
    rw [hn]
    simp only [ok_bind]
    exact search_shared hc he (fun i x hi hg => htext i x (by omega) hg) c _ _ _ (by omega) (by omega)
  refine ⟨hs, by unfold Val.containsKeyWith; rw [hs]; rfl, ?_⟩
  have hu : v.usesSharedKeys m' = .ok false := by
    unfold Val.usesSharedKeys
    rw [hc.len]
    simp only [ok_bind]
    have hev := arrayLen_even (asDict_type hd) hc.len
    by_cases h0 : l = 0
    · rw [if_pos h0]; rfl
    · rw [if_neg h0]
      obtain ⟨a, b, hp, hg, _⟩ := hc.pair he (i := 0) (by omega)
      rw [hp]
      simp only [ok_bind, htext 0 a (by omega) hg]
      rfl
  unfold Val.dictGet Val.encodeKey
  rw [hu]
  rfl

/-- The root dict of a document written without shared keys. -/
theorem Rep.blind {P : List UInt8 → Prop} {m : Mem} (hbase : m.base + m.data.length < 2 ^ 64) {F : FloatOps} {p e : Nat}
    {kvs : List (List UInt8 × Tree)} (h : Rep m.data F P none none p e (.dict kvs)) (v : Val) (hp : v.pos = p) (hin : v.In m)
    (hl : e ≤ p + v.len) (sk : SharedKeys) (k : List UInt8) (c : Nat) (hk : sk.encode k = some c) :
    v.dictGetWith m sk k = .ok none ∧ v.dictGet m (some sk) k = v.dictGet m none k := by
  cases h with
  | scalar hat hs =>
    have h1 := hs.read m v none 0 (hat.holds hp hin (by omega))
    have h2 := hs.type m v (hat.holds hp hin (by omega))
    obtain ⟨_, h3, h4⟩ := scalar_not hs.scalar
    exact absurd rfl ((leaf_read h2 h3 h4 h1).2 _)
  | @dict _ w ks _ hat small fits len keys text sorted strs vals =>
    have hhl := headerBytes_length 0x70 (n := kvs.length) (by omega) w
    have hge := hdrLen_ge kvs.length
    have hhd : headerSize kvs.length ≤ hdrLen kvs.length := by unfold hdrLen; omega
    have hh : Holds m v (headerBytes 0x70 kvs.length w) := hat.holds hp hin (by omega)
    obtain ⟨h1, h2, h3, h4⟩ := header_read true (n := kvs.length) (by omega) hh
    simp only [if_true] at h1 h3
    have hcoll : Coll m v w (kvs.length * 2) (hdrLen kvs.length) := ⟨hin, h2, h3, h4, by omega, by omega⟩
    have hpairs : Pairs m v w (hdrLen kvs.length) ks
        (fun i => slotVal m w (slotAt (v.pos + hdrLen kvs.length) (wof w) (2 * i + 1))) := by
      refine ⟨by rw [len]; exact hcoll, ?_, ?_, sorted⟩
      · intro i k hk
        obtain ⟨y, hy, hty, hkv⟩ := (keys i _ hk).ok.res
        exact ⟨y, by unfold slotAt; rw [hp]; exact hy, hty, hkv⟩
      · intro i hi
        have hv := (vals i _ _ (List.getElem?_eq_getElem (show i < kvs.length by omega))).ok hbase
        dsimp only at hv
        obtain ⟨x, h5, _⟩ := hv.res
        have h5' : resolve m w (slotAt (v.pos + hdrLen kvs.length) (wof w) (2 * i + 1)) = .ok x := by
          unfold slotAt; rw [hp]; exact h5
        rw [slotVal_eq h5']; exact h5'
    have hno : ∀ c, Key.shared c ∉ ks := by
      intro c hm
      obtain ⟨i, hi⟩ := mem_getElem?.mp hm
      have hlt := (List.getElem?_eq_some_iff.mp hi).1
      obtain ⟨sk, h5, _⟩ := text i _ _ _ hi (List.getElem?_eq_getElem (show i < kvs.length by omega))
      cases h5
    refine ⟨?_, ?_⟩
    · unfold Val.dictGetWith Val.encodeKey
      simp only [hk, pure_eq, ok_bind]
      rcases hpairs.search (.shared c) with ⟨i, h5, _⟩ | ⟨_, h5⟩
      · exact absurd (mem_getElem?.mpr ⟨i, h5⟩) (hno c)
      · exact h5
    · obtain ⟨b, h5, h6⟩ := hpairs.usesSharedKeys
      have hb : b = false := by
        cases b with
        | false => rfl
        | true =>
          exfalso
          unfold Val.usesSharedKeys at h5
          rw [h3] at h5
          simp only [ok_bind] at h5
          split at h5
          · cases h5
          · have hk0 := List.getElem?_eq_getElem (l := ks) (i := 0) (by omega)
            obtain ⟨y, h7, _, h8⟩ := hpairs.pair hk0
            rw [h7] at h5
            simp only [ok_bind] at h5
            obtain ⟨ty, h9, h10⟩ := bind_eq_ok.mp h5
            simp only [pure_eq, Res.ok.injEq, decide_eq_true_eq] at h10
            subst h10
            generalize hg : ks[0] = k0 at hk0 h8
            cases h8 with
            | short _ _ => exact hno _ (mem_getElem?.mpr ⟨0, hk0⟩)
            | inline h11 _ => rw [h9] at h11; cases h11
            | pointer h11 _ _ _ => rw [h9] at h11; cases h11
      subst hb
      unfold Val.dictGet Val.encodeKey
      rw [h5]
      rfl

/-- **The full claim is false of every document written without shared keys.** Take any such document of the kind `C24` is
about (all calls documented to succeed, at most 16383 bytes, scalars this version can write, no string, data or key of
fewer than two bytes) whose root is a dict with distinct keys, any key in it and any table that has that key: `get` finds
the value, in a scope with the table and without; `get_with_shared_keys` gives `None`. -/
theorem C56_refuted_document (c : Cfg) (F : FloatOps) (ops : List Op) (hsize : Op.total ops ≤ SizedValue.maxNarrow)
    (hplain : ∀ op ∈ ops, op.Plain false) (hcap : ∀ n, Op.beginArray n ∈ ops → n * 4 < 2 ^ 63) (hall : AllOk F {} ops)
    (kvs : List (List UInt8 × Tree)) (ht : (Build.run F {} ops).1.finish = some (.dict kvs))
    (hd : (kvs.map Prod.fst).Nodup) (k : List UInt8) (t : Tree) (hk : (k, t) ∈ kvs) (sk : SharedKeys)
    (hsk : sk.encode k ≠ none) :
    ∃ e rs out, Enc.new.run c ops = .ok (e, rs) ∧ e.finish c = .ok out ∧
      ∀ m : Mem, m.data = out → m.base + out.length < 2 ^ 64 → ∃ v x t1, fromBytes m = .ok v ∧
        Tree.Same t t1 ∧ Matches m F none (fun _ => True) x t1 ∧
        v.dictGet m none k = .ok (some x) ∧ v.dictGet m (some sk) k = .ok (some x) ∧ v.dictGetWith m sk k = .ok none := by
  have hmn : SizedValue.maxNarrow ≤ SizedValue.maxWide := by decide
  obtain ⟨e, rs, out, h1, h2, h3⟩ := C24_small_partial c F ops hsize hplain hcap hall _ ht
  refine ⟨e, rs, out, h1, h2, fun m hm hbase => ?_⟩
  obtain ⟨v, t', h4, h5, h6⟩ := h3 m hm hbase
  obtain ⟨_, h7, _⟩ := C24_get m F none _ v t' h6 kvs h5 hd
  obtain ⟨x, t1, h8, h9, h10⟩ := h7 k t trivial hk
  obtain ⟨c', hc'⟩ := Option.ne_none_iff_exists'.mp hsk
  have hphi := newWith_phi none
  obtain ⟨hw, hp, _, hskl⟩ := Enc.run_inv ops (newWith_wf (sk := none) (by simp)) (by omega) h1
  obtain ⟨hok, hcl⟩ := plain_run ops (newWith_wf (sk := none) (by simp)) (by omega) ⟨rfl, rfl⟩ (newWith_clean none) hplain
    (hall.orderly ops (by simp)) h1
  obtain ⟨hs, hn⟩ := Sim.run (F := F) (P := fun _ => True) ops (newWith_wf (sk := none) (by simp)) (newWith_nested none)
    (by omega) (Sim.new F none) hok (RunKeys.trivial _ _ _) h1
  have hnone : e.sk = none := by
    cases he : e.sk with
    | none => rfl
    | some sk => rw [he] at hskl; exact hskl.elim
  obtain ⟨out', pre, p, en, t2, g1, g2, g3, g4, g5, g6, g7⟩ := hs.finish hw hn (by omega) (clean_finish _ hw hcl (by omega)) ht
  rw [h2] at g1; cases g1
  rw [hnone] at g4
  have hle := g4.le
  have hlen : pre.length ≤ out.length := by rw [g3]; simp
  obtain ⟨g8, g9, _⟩ := Rep.document (m := m) (by rw [hm]; exact hbase) g4 (by rw [hm]; exact g3) g5 g6 g7
  rw [h4] at g8; cases g8
  obtain ⟨_, lvs, rfl, _⟩ := Same.entries g2
  obtain ⟨g10, g11⟩ := Rep.blind (by rw [hm]; exact hbase) g9 ⟨p, pre.length - p⟩ rfl
    (by unfold Val.In; simp only; rw [hm]; omega) (by simp only; omega) sk k c' hc'
  exact ⟨_, x, t1, h4, h9, h10, h8.1, by rw [g11]; exact h8.1, g10⟩

/-- `C56_refuted_document` for `{"cd": [1, "ab", {}], "ab": true}` and a table with "ab". -/
example (F : FloatOps) : ∃ e rs out, Enc.new.run exampleCfg exampleOps = .ok (e, rs) ∧ e.finish exampleCfg = .ok out ∧
      ∀ m : Mem, m.data = out → m.base + out.length < 2 ^ 64 → ∃ v x t1, fromBytes m = .ok v ∧
        Tree.Same (.bool true) t1 ∧ Matches m F none (fun _ => True) x t1 ∧ v.dictGet m none [0x61, 0x62] = .ok (some x) ∧
        v.dictGet m (some ⟨[([0x61, 0x62], 0)]⟩) [0x61, 0x62] = .ok (some x) ∧
        v.dictGetWith m ⟨[([0x61, 0x62], 0)]⟩ [0x61, 0x62] = .ok none := by
  refine C56_refuted_document exampleCfg F exampleOps (by decide) ?_ ?_ ?_ _ rfl (by simp [sab, scd])
    [0x61, 0x62] (.bool true) (by simp [sab, scd, Scalar.tree]) _ (by decide)
  · intro op hop
    simp only [exampleOps, List.mem_cons, List.not_mem_nil, or_false] at hop
    rcases hop with rfl | rfl | rfl | rfl | rfl | rfl | rfl | rfl | rfl | rfl <;>
      simp [Op.Plain, Scalar.Survives, Scalar.Tiny, sab, scd, ShortRange] <;> decide
  · intro n hn
    simp [exampleOps] at hn
    omega
  · intro r hr
    simp [exampleOps, Build.run, Build.next, Build.step, Build.open, Build.put, Build.close] at hr
    exact hr

/-- `{"a": 7}`, and a table with "a". -/
theorem C56_refuted :
    fromBytes { data := [0x70, 0x01, 0x41, 0x61, 0, 7, 0x80, 0x03] } = .ok ⟨0, 6⟩ ∧
    (⟨[([0x61], 0)]⟩ : SharedKeys).encode [0x61] = some 0 ∧
    (⟨0, 6⟩ : Val).dictGet { data := [0x70, 0x01, 0x41, 0x61, 0, 7, 0x80, 0x03] } (some ⟨[([0x61], 0)]⟩) [0x61] = .ok (some ⟨4, 2⟩) ∧
    (⟨0, 6⟩ : Val).dictGetWith { data := [0x70, 0x01, 0x41, 0x61, 0, 7, 0x80, 0x03] } ⟨[([0x61], 0)]⟩ [0x61] = .ok none ∧
    (⟨0, 6⟩ : Val).containsKeyWith { data := [0x70, 0x01, 0x41, 0x61, 0, 7, 0x80, 0x03] } ⟨[([0x61], 0)]⟩ [0x61] = .ok false := by
  decide +kernel

/-- With a shared key in the dict (`{0: 7}`, code 0 being "a") both find it; the hypotheses of `C56_agrees_partial`. -/
example :
    fromBytes { data := [0x70, 0x01, 0x00, 0x00, 0, 7, 0x80, 0x03] } = .ok ⟨0, 6⟩ ∧
    (⟨0, 6⟩ : Val).dictFirst { data := [0x70, 0x01, 0x00, 0x00, 0, 7, 0x80, 0x03] } = .ok (some (⟨2, 2⟩, ⟨4, 2⟩)) ∧
    (⟨2, 2⟩ : Val).type { data := [0x70, 0x01, 0x00, 0x00, 0, 7, 0x80, 0x03] } = .ok .short ∧
    (⟨0, 6⟩ : Val).dictGetWith { data := [0x70, 0x01, 0x00, 0x00, 0, 7, 0x80, 0x03] } ⟨[([0x61], 0)]⟩ [0x61] = .ok (some ⟨4, 2⟩) := by
  decide +kernel

end Fleece.Props
