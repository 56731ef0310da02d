import Verif.Props.C25
import Verif.Props.C28

/-!
# C30 Lookup through shared keys finds what was written

Full claim: a document encoded with shared keys, read with the same (or a grown) table, is found by lookup. It is false
(`C30_refuted_long`, `C30_refuted_absent`, `C30_refuted_full`). `Sound` (Proofs.LookupDoc) are the keys for which it
holds: those of at most 15 bytes without a NUL, and those whose first 15 bytes, up to a NUL, cannot be a shared key.
-/

namespace Fleece.Props
open Fleece Res

/-- Keys of at most 15 bytes without NUL are sound. -/
theorem sound_short (U : CharTable) {k : List UInt8} (hl : k.length ≤ 15) (h0 : (0 : UInt8) ∉ k) : Sound U k :=
  .inl (SharedKeys.zstr_eq hl h0)

/-- **C30, exact.** As `C24_exact_partial`, with a table of shared keys (well-formed, made of such keys); the document's
keys are sound, have at least two and not exactly 16 bytes, and the table is not full in the end. The document is found
by lookup under every later table `sk'`. -/
theorem C30_exact_partial (c : Cfg) (F : FloatOps) (sk : SharedKeys) (hsk : sk.WF) (ops : List Op) (hsize : Op.total ops ≤ SizedValue.maxWide) (hgood : ∀ op ∈ ops, op.GoodKey c.chars) (e : Enc)
    (rs : List (Except EncodeError Unit)) (h : ({ Enc.new with sk := some sk } : Enc).run c ops = .ok (e, rs))
    (hok : RunOK c { Enc.new with sk := some sk } ops) (hfin : FinishOK c e.stack.length e) (last sk' : SharedKeys)
    (hlast : e.sk = some last) (hroom : last.entries.length < 2048) (hle : last.Le sk') (hsk' : sk'.WF)
    (htidy' : sk'.Tidy c.chars) (t : Tree) (ht : (Build.run F {} ops).1.finish = some t) :
    ∃ out, e.finish c = .ok out ∧ Shows F (some sk') (Sound c.chars) out t := by
  have hphi := newWith_phi (some sk)
  have hwf := newWith_wf (sk := some sk) (by rintro s ⟨⟩; exact hsk)
  obtain ⟨hw, hp, _⟩ := Enc.run_inv ops hwf (by omega) h
  have hkeys := run_keys htidy' ops hwf (by omega) hgood h hlast hroom
  obtain ⟨hs, hn⟩ := Sim.run (F := F) ops hwf (newWith_nested _) (by omega) (Sim.new F _) hok hkeys h
  obtain ⟨out, h1, h2⟩ := hs.shows hw hn (by omega) hfin ht (scope := some sk')
    (by rw [hlast]; rintro s ⟨⟩; exact ⟨sk', rfl, hle⟩)
    (by rintro s ⟨⟩; exact ⟨hsk', fun x hx => (htidy' x hx).1, fun _ h => h⟩)
  exact ⟨out, h1, h2.weaken fun k hk => hk.probe htidy'⟩

/-- **C30, small documents.** All calls documented to succeed, at most 16383 bytes, scalars this version can write, no
string or data of fewer than two bytes; keys as above. -/
theorem C30_small_partial (c : Cfg) (F : FloatOps) (sk : SharedKeys) (hsk : sk.WF) (htidy : sk.Tidy c.chars)
    (ops : List Op) (hsize : Op.total ops ≤ SizedValue.maxNarrow) (hgood : ∀ op ∈ ops, op.GoodKey c.chars)
    (hplain : ∀ op ∈ ops, op.Plain true) (hcap : ∀ n, Op.beginArray n ∈ ops → n * 4 < 2 ^ 63) (hall : AllOk F {} ops)
    (t : Tree) (ht : (Build.run F {} ops).1.finish = some t) :
    ∃ e rs out last, ({ Enc.new with sk := some sk } : Enc).run c ops = .ok (e, rs) ∧ e.finish c = .ok out ∧
      e.sk = some last ∧ last.WF ∧ last.Tidy c.chars ∧ sk.Le last ∧
      (last.entries.length < 2048 → ∀ sk', last.Le sk' → sk'.WF → sk'.Tidy c.chars →
        Shows F (some sk') (Sound c.chars) out t) := by
  have hmn : SizedValue.maxNarrow ≤ SizedValue.maxWide := by decide
  have hsk0 : ∀ s, (some sk : Option SharedKeys) = some s → s.WF := by rintro s ⟨⟩; exact hsk
  obtain ⟨e, rs, out, h1, _, h3, _⟩ := C20_small_partial c F (some sk) hsk0 ops hsize hplain hcap hall t ht
  have hphi := newWith_phi (some sk)
  have hwf := newWith_wf hsk0
  obtain ⟨hw, hp, _, hskle⟩ := Enc.run_inv ops hwf (by omega) h1
  obtain ⟨hok, hc⟩ := plain_run ops hwf (by omega) ⟨rfl, rfl⟩ (newWith_clean _) hplain (hall.orderly ops (by simp)) h1
  cases hl : e.sk with
  | none => rw [hl] at hskle; exact hskle.elim
  | some last =>
    rw [hl] at hskle
    refine ⟨e, rs, out, last, h1, h3, hl, hw.sk last hl,
      run_tidy ops hwf (by omega) hgood (by rintro s ⟨⟩; exact htidy) h1 last hl, hskle, ?_⟩
    intro hroom sk' hle hsk' htidy'
    obtain ⟨out', h4, h5⟩ := C30_exact_partial c F sk hsk ops (by omega) hgood e rs h1 hok
      (clean_finish _ hw hc (by omega)) last sk' hl hroom hle hsk' htidy' t ht
    rw [h3] at h4; cases h4
    exact h5

/-- `{"cd": [1, "ab", {}], "ab": true}` with a new table: "cd" gets code 0, "ab" code 1. -/
example (F : FloatOps) : ∃ e rs out last, ({ Enc.new with sk := some .new } : Enc).run exampleCfg exampleOps = .ok (e, rs) ∧
    e.finish exampleCfg = .ok out ∧ e.sk = some last ∧ last.entries = [([0x63, 0x64], 0), ([0x61, 0x62], 1)] ∧
    Shows F (some last) (Sound exampleCfg.chars) out
      (.dict [([0x63, 0x64], .arr [.int 1, .str [0x61, 0x62], .dict []]), ([0x61, 0x62], .bool true)]) := by
  have hs1 : Sound exampleCfg.chars sab.bytes := sound_short _ (by decide) (by decide)
  have hs2 : Sound exampleCfg.chars scd.bytes := sound_short _ (by decide) (by decide)
  obtain ⟨e, rs, out, last, h1, h2, h3, h4, h5, _, h6⟩ := C30_small_partial exampleCfg F .new SharedKeys.new_wf
    (SharedKeys.new_tidy _) exampleOps (by decide) (by
      intro op hop
      simp only [exampleOps, List.mem_cons, List.not_mem_nil, or_false] at hop
      rcases hop with rfl | rfl | rfl | rfl | rfl | rfl | rfl | rfl | rfl | rfl <;>
        first | trivial | exact ⟨by decide, by decide, by assumption⟩) (by
      intro op hop
      simp only [exampleOps, List.mem_cons, List.not_mem_nil, or_false] at hop
      rcases hop with rfl | rfl | rfl | rfl | rfl | rfl | rfl | rfl | rfl | rfl <;>
        simp [Op.Plain, Scalar.Survives, Scalar.Tiny, sab, scd, ShortRange] <;> decide) (by
      intro n hn
      simp [exampleOps] at hn
      omega) (by
      intro r hr
      simp [exampleOps, Build.run, Build.next, Build.step, Build.open, Build.put, Build.close] at hr
      exact hr) _ rfl
  have hlast : last.entries = [([0x63, 0x64], 0), ([0x61, 0x62], 1)] := by
    cases h1
    cases h3
    rfl
  refine ⟨e, rs, out, last, h1, h2, h3, hlast, h6 (by rw [hlast]; decide) last (.refl _) h4 h5⟩

/-! ## The full claim is false -/

/-- 15 and 17 bytes with the same beginning. -/
def key15 : RStr := ⟨List.replicate 15 0x61, by decide⟩
def key17 : RStr := ⟨List.replicate 15 0x61 ++ [0x62, 0x63], by decide +kernel⟩

/-- **C30 is false of the code: wrong value.** `{key15: true, key17: false}`, starting with an empty table: looking up
`key17` gives `true`, the value of `key15`. -/
theorem C30_refuted_long : ∃ (c : Cfg) (ops : List Op) (e : Enc) (rs : List (Except EncodeError Unit)) (out : List UInt8)
    (last : SharedKeys) (v x : Val), ({ Enc.new with sk := some .new } : Enc).run c ops = .ok (e, rs) ∧
    e.finish c = .ok out ∧ e.sk = some last ∧ fromBytes ⟨out, 0, true⟩ = .ok v ∧
    v.dictGet ⟨out, 0, true⟩ (some last) key17.bytes = .ok (some x) ∧ x.type ⟨out, 0, true⟩ = .ok .true ∧
    ∀ F, AllOk F {} ops ∧
      (Build.run F {} ops).1.finish = some (.dict [(key15.bytes, .bool true), (key17.bytes, .bool false)]) := by
  refine ⟨exampleCfg, [.beginDict, .key key15, .value (.bool true), .key key17, .value (.bool false), .endDict], _, _,
    [79, 17, 97, 97, 97, 97, 97, 97, 97, 97, 97, 97, 97, 97, 97, 97, 97, 98, 99, 0, 112, 2, 0, 0, 56, 0, 128, 13, 52, 0,
      128, 5], ⟨[(List.replicate 15 0x61, 0)]⟩, ⟨20, 10⟩, ⟨24, 2⟩, rfl, by decide +kernel, by rfl, by decide +kernel,
    by decide +kernel, by decide +kernel, ?_⟩
  intro F
  refine ⟨?_, rfl⟩
  intro r hr
  simp [Build.run, Build.next, Build.step, Build.open, Build.put, Build.close] at hr
  exact hr

/-- **C30 is false of the code: absent key.** In `{key15: true}`, looking up `key17` gives `true`. -/
theorem C30_refuted_absent : ∃ (c : Cfg) (ops : List Op) (e : Enc) (rs : List (Except EncodeError Unit)) (out : List UInt8)
    (last : SharedKeys) (v x : Val), ({ Enc.new with sk := some .new } : Enc).run c ops = .ok (e, rs) ∧
    e.finish c = .ok out ∧ e.sk = some last ∧ fromBytes ⟨out, 0, true⟩ = .ok v ∧
    v.dictGet ⟨out, 0, true⟩ (some last) key17.bytes = .ok (some x) ∧
    ∀ F, AllOk F {} ops ∧ (Build.run F {} ops).1.finish = some (.dict [(key15.bytes, .bool true)]) := by
  refine ⟨exampleCfg, [.beginDict, .key key15, .value (.bool true), .endDict], _, _,
    [112, 1, 0, 0, 56, 0, 128, 3], ⟨[(List.replicate 15 0x61, 0)]⟩, ⟨0, 6⟩, ⟨4, 2⟩, rfl, by decide +kernel, by rfl,
    by decide +kernel, by decide +kernel, ?_⟩
  intro F
  refine ⟨?_, rfl⟩
  intro r hr
  simp [Build.run, Build.next, Build.step, Build.open, Build.put, Build.close] at hr
  exact hr

/-! ### The table becomes full -/

/-- Three letters, different for different numbers below 4096. -/
def name (i : Nat) : List UInt8 := [UInt8.ofNat (97 + i / 256), UInt8.ofNat (97 + i / 16 % 16), UInt8.ofNat (97 + i % 16)]

theorem name_inj {i j : Nat} (hi : i < 2048) (hj : j < 2048) (h : name i = name j) : i = j := by
  simp only [name, List.cons.injEq, and_true] at h
  obtain ⟨h1, h2, h3⟩ := h
  have h1 := congrArg UInt8.toNat h1
  have h2 := congrArg UInt8.toNat h2
  have h3 := congrArg UInt8.toNat h3
  simp only [ofNat_toNat] at h1 h2 h3
  omega

theorem name_canEncode (U : CharTable) {i : Nat} (hi : i < 2048) : SharedKeys.canEncode U (name i) = true := by
  have hb : ∀ b : UInt8, 97 ≤ b.toNat → b.toNat ≤ 112 → ∀ cs, utf8Decode? (b :: cs) = (utf8Decode? cs).map (b.toNat :: ·) := by
    intro b h1 h2 cs
    have : b < 0x80 := UInt8.lt_iff_toNat_lt.mpr (by simp only [UInt8.reduceToNat]; omega)
    rw [utf8Decode?.eq_def]
    simp [this]
  have hk : ∀ n, 97 ≤ n → n ≤ 112 → U.keyChar n = true := by
    intro n h1 h2
    have h3 : decide (97 ≤ n) = true := decide_eq_true h1
    have h4 : decide (n ≤ 122) = true := decide_eq_true (by omega)
    unfold CharTable.keyChar
    rw [h3, h4]
    simp
  have h0 : utf8Decode? [] = some [] := by rw [utf8Decode?.eq_def]
  unfold SharedKeys.canEncode name
  rw [hb _ (by rw [ofNat_toNat]; omega) (by rw [ofNat_toNat]; omega), hb _ (by rw [ofNat_toNat]; omega) (by rw [ofNat_toNat]; omega),
    hb _ (by rw [ofNat_toNat]; omega) (by rw [ofNat_toNat]; omega), h0]
  simp only [Option.map_some, List.all_cons, List.all_nil, Bool.and_true, ofNat_toNat]
  rw [hk _ (by omega) (by omega), hk _ (by omega) (by omega), hk _ (by omega) (by omega)]
  rfl

/-- The first `n` names. -/
def named (n : Nat) : SharedKeys := ⟨(List.range n).map fun i => (name i, i)⟩

theorem named_length (n : Nat) : (named n).entries.length = n := by simp [named]

theorem name_zstr {i : Nat} (hi : i < 2048) : zstr (name i) = name i :=
  SharedKeys.zstr_eq (by simp [name]) (SharedKeys.canEncode_no_nul (name_canEncode ⟨fun _ => false⟩ hi))

theorem named_lookup {n : Nat} {k : List UInt8} (h : ∀ i, i < n → name i ≠ k) : (named n).lookup k = none := by
  rw [SharedKeys.lookup_none]
  intro e he
  simp only [named, List.mem_map, List.mem_range] at he
  obtain ⟨i, hi, rfl⟩ := he
  exact h i hi

theorem named_inserted (U : CharTable) (n : Nat) (hn : n ≤ 2047) : Inserted U .new (named n) := by
  induction n with
  | zero => exact .refl
  | succ n ih =>
    have := (ih (by omega)).insert (name n)
    have heq : ((named n).encodeAndInsert U (name n)).1 = named (n + 1) := by
      unfold SharedKeys.encodeAndInsert SharedKeys.canAdd SharedKeys.len
      have hl : (named n).lookup (name n) = none :=
        named_lookup fun i hi h => by have := name_inj (by omega) (by omega) h; omega
      dsimp only
      rw [named_length, name_canEncode U (by omega), name_zstr (by omega), hl]
      have h1 : decide (n % 2 ^ 16 < SharedKeys.maxKeys) = true := decide_eq_true (by unfold SharedKeys.maxKeys; omega)
      have h2 : decide ((name n).length ≤ SharedKeys.maxKeyLen) = true := by simp [name, SharedKeys.maxKeyLen]
      rw [h1, h2]
      simp only [Bool.and_self, Bool.not_true, Bool.false_eq_true, if_false, named, List.range_succ, List.map_append,
        List.map_cons, List.map_nil, Nat.mod_eq_of_lt (show n < 2 ^ 16 by omega)]
    rw [← heq]
    exact this

/-- Keys for the witness. -/
def szz : RStr := ⟨[0x7a, 0x7a], by decide⟩
def saaa : RStr := ⟨[0x61, 0x61, 0x61], by decide⟩

/-- The state after a run. -/
def stateOf (x : Exec (Enc × List (Except EncodeError Unit))) : Enc :=
  match x with
  | .ok (e, _) => e
  | _ => Enc.new

theorem stateOf_eq {x : Exec (Enc × List (Except EncodeError Unit))} (h : (results x).isSome = true) :
    ∃ rs, x = .ok (stateOf x, rs) := by
  cases x with
  | ok p => exact ⟨p.2, rfl⟩
  | _ => cases h

/-- A table of 2047 names, and `{"zz": true, "aaa": false}`. -/
def fullRun : Exec (Enc × List (Except EncodeError Unit)) :=
  ({ Enc.new with sk := some (named 2047) } : Enc).run exampleCfg
    [.beginDict, .key szz, .value (.bool true), .key saaa, .value (.bool false), .endDict]

/-- **C30 is false of the code: full table.** A table of 2047 keys, among them "aaa". Then `{"zz": true, "aaa": false}` is
written: "zz" gets the last code, the table is full, and "aaa", although it has a code, is written as a string. Looking
it up gives nothing. -/
theorem C30_refuted_full : ∃ (c : Cfg) (sk : SharedKeys) (ops : List Op) (e : Enc)
    (rs : List (Except EncodeError Unit)) (out : List UInt8) (last : SharedKeys) (v : Val), Inserted c.chars .new sk ∧
    ({ Enc.new with sk := some sk } : Enc).run c ops = .ok (e, rs) ∧
    e.finish c = .ok out ∧ e.sk = some last ∧ fromBytes ⟨out, 0, true⟩ = .ok v ∧
    v.dictGet ⟨out, 0, true⟩ (some last) saaa.bytes = .ok none ∧
    ∀ F, AllOk F {} ops ∧
      (Build.run F {} ops).1.finish = some (.dict [(szz.bytes, .bool true), (saaa.bytes, .bool false)]) := by
  obtain ⟨rs, hrs⟩ := stateOf_eq (x := fullRun) (by decide +kernel)
  refine ⟨exampleCfg, named 2047, [.beginDict, .key szz, .value (.bool true), .key saaa, .value (.bool false), .endDict],
    stateOf fullRun, rs,
    [0x43, 0x61, 0x61, 0x61, 0x70, 0x02, 0x07, 0xff, 0x38, 0, 0x80, 5, 0x34, 0, 0x80, 5],
    ⟨(named 2047).entries ++ [(szz.bytes, 2047)]⟩, ⟨4, 10⟩, named_inserted _ 2047 (Nat.le_refl _), hrs, by decide +kernel,
    by decide +kernel, by decide +kernel, by decide +kernel, ?_⟩
  intro F
  refine ⟨?_, rfl⟩
  intro r hr
  simp [Build.run, Build.next, Build.step, Build.open, Build.put, Build.close] at hr
  exact hr

end Fleece.Props
