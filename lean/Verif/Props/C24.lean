import Verif.Proofs.LookupDoc
import Verif.Props.C20

/-!
# C24 Dict lookup finds exactly the keys that were written

Documents without shared keys (C30 is about those with). `Shows` (Spec.Lookup) covers all dicts of the document, at any
depth, and all reading functions; `C24_get` spells out what it says of one dict.
-/

namespace Fleece.Props
open Fleece Res

/-- **C24, exact.** Under the conditions of `C20_exact_partial` (documents below 1 GiB whose collections fit the width the
encoder chose) the whole document is found by lookup. -/
theorem C24_exact_partial (c : Cfg) (F : FloatOps) (ops : List Op) (hsize : Op.total ops ≤ SizedValue.maxWide) (e : Enc)
    (rs : List (Except EncodeError Unit)) (h : Enc.new.run c ops = .ok (e, rs)) (hok : RunOK c Enc.new ops)
    (hfin : FinishOK c e.stack.length e) (t : Tree) (ht : (Build.run F {} ops).1.finish = some t) :
    ∃ out, e.finish c = .ok out ∧ Shows F none (fun _ => True) out t := by
  have hphi := newWith_phi none
  obtain ⟨hw, hp, _, hsk⟩ := Enc.run_inv ops (newWith_wf (sk := none) (by simp)) (by omega) h
  obtain ⟨hs, hn⟩ := Sim.run (F := F) (P := fun _ => True) ops (newWith_wf (sk := none) (by simp)) (newWith_nested none)
    (by omega) (Sim.new F none) hok (RunKeys.trivial _ _ _) h
  have hnone : e.sk = none := by
    cases he : e.sk with
    | none => rfl
    | some sk => rw [he] at hsk; exact hsk.elim
  obtain ⟨out, h1, h2⟩ := hs.shows hw hn (by omega) hfin ht (scope := none) (by rw [hnone]; exact .refl _) (by simp)
  exact ⟨out, h1, h2.weaken fun k _ sk hsk => by cases hsk⟩

/-- **C24, small documents.** As `C20_small_partial`: all calls documented to succeed, at most 16383 bytes, scalars this
version can write, no string, data or key of fewer than two bytes. -/
theorem C24_small_partial (c : Cfg) (F : FloatOps) (ops : List Op) (hsize : Op.total ops ≤ SizedValue.maxNarrow)
    (hplain : ∀ op ∈ ops, op.Plain false) (hcap : ∀ n, Op.beginArray n ∈ ops → n * 4 < 2 ^ 63) (hall : AllOk F {} ops)
    (t : Tree) (ht : (Build.run F {} ops).1.finish = some t) :
    ∃ e rs out, Enc.new.run c ops = .ok (e, rs) ∧ e.finish c = .ok out ∧ Shows F none (fun _ => True) out t := by
  have hmn : SizedValue.maxNarrow ≤ SizedValue.maxWide := by decide
  obtain ⟨e, rs, out, h1, _, h3, _⟩ := C20_small_partial c F none (by simp) ops hsize hplain hcap hall t ht
  have hphi := newWith_phi none
  obtain ⟨hw, hp, _⟩ := Enc.run_inv ops (newWith_wf (sk := none) (by simp)) (by omega) h1
  obtain ⟨hok, hc⟩ := plain_run ops (newWith_wf (sk := none) (by simp)) (by omega) ⟨rfl, rfl⟩ (newWith_clean none) hplain
    (hall.orderly ops (by simp)) h1
  obtain ⟨out', h4, h5⟩ := C24_exact_partial c F ops (by omega) e rs h1 hok (clean_finish _ hw hc (by omega)) t ht
  exact ⟨e, rs, out', h1, h4, h5⟩

/-! ## What it says of a dict -/

theorem find_unique {kvs : List (List UInt8 × Tree)} (hd : (kvs.map Prod.fst).Nodup) {k : List UInt8} {t t' : Tree}
    (h : (k, t) ∈ kvs) (h' : (k, t') ∈ kvs) : t = t' := by
  induction kvs with
  | nil => cases h
  | cons a kvs ih =>
    simp only [List.map_cons, List.nodup_cons] at hd
    have key : ∀ t, (k, t) ∈ kvs → a.1 ≠ k := fun t hm heq => hd.1 (heq ▸ List.mem_map_of_mem (f := Prod.fst) hm)
    rcases List.mem_cons.mp h with ha | h
    · rcases List.mem_cons.mp h' with ha' | h'
      · rw [← ha] at ha'; cases ha'; rfl
      · exact absurd (by rw [← ha]) (key _ h')
    · rcases List.mem_cons.mp h' with ha' | h'
      · exact absurd (by rw [← ha']) (key _ h)
      · exact ih hd.2 h h'

/-- What is neither an array nor a dict is not read as one. -/
theorem leaf_read {m : Mem} {F : FloatOps} {scope : Option SharedKeys} {v : Val} {ty : ValueType} {t : Tree}
    (type : v.type m = .ok ty) (na : ty ≠ .array) (nd : ty ≠ .dict) (read : readTree m F scope 1 v = .ok t) :
    (∀ xs, t ≠ .arr xs) ∧ ∀ kvs, t ≠ .dict kvs := by
  unfold readTree at read
  rw [type] at read
  simp only [ok_bind] at read
  split at read
  case h_13 => exact absurd rfl na
  case h_14 => exact absurd rfl nd
  case h_15 => cases read
  all_goals first
    | (cases read; exact ⟨by simp, by simp⟩)
    | (obtain ⟨_, _, h⟩ := bind_eq_ok.mp read; cases h; exact ⟨by simp, by simp⟩)

/-- The entries of a dict and of what was read of it. -/
theorem Same.entries {kvs : List (List UInt8 × Tree)} {t' : Tree} (h : Tree.Same (.dict kvs) t') :
    ∃ mid lvs, t' = .dict lvs ∧ kvs.Perm mid ∧ mid.map Prod.fst = lvs.map Prod.fst ∧
      ∀ (i : Nat) (x y : List UInt8 × Tree), mid[i]? = some x → lvs[i]? = some y → Tree.Same x.2 y.2 := by
  cases h with
  | refl t => exact ⟨kvs, kvs, rfl, .refl _, rfl, fun i x y h1 h2 => by rw [h1] at h2; cases h2; exact .refl _⟩
  | dict perm keys each => exact ⟨_, _, rfl, perm, keys, each⟩

/-- **C24, one dict.** A value that shows the dict `kvs`, with distinct keys: looking up a key (`get`, `contains_key` and
`get_with_shared_keys`) gives the value written for it, which in turn shows what was written; any other key gives
nothing. -/
theorem C24_get (m : Mem) (F : FloatOps) (scope : Option SharedKeys) (probe : List UInt8 → Prop) (v : Val) (t' : Tree)
    (hm : Matches m F scope probe v t') (kvs : List (List UInt8 × Tree)) (hs : Tree.Same (.dict kvs) t')
    (hd : (kvs.map Prod.fst).Nodup) :
    v.asDict m = .ok (some v) ∧
    (∀ k t, probe k → (k, t) ∈ kvs → ∃ x t1, v.Lookup m scope k (some x) ∧ Tree.Same t t1 ∧ Matches m F scope probe x t1) ∧
    (∀ k, probe k → k ∉ kvs.map Prod.fst → v.Lookup m scope k none) := by
  obtain ⟨mid, lvs, rfl, hperm, hkeys, heach⟩ := Same.entries hs
  cases hm with
  | leaf type na nd read =>
    exact absurd rfl ((leaf_read type na nd read).2 _)
  | dict u type len iter order found absent each =>
    have hmem : ∀ k, k ∈ lvs.map Prod.fst ↔ k ∈ kvs.map Prod.fst := by
      intro k
      rw [← hkeys]
      exact (hperm.map Prod.fst).mem_iff.symm
    refine ⟨type, ?_, fun k hp hk => absent k hp (by rw [hmem]; exact hk)⟩
    intro k t hp hk
    obtain ⟨i, t1, h1, h2⟩ := found k hp (by rw [hmem]; exact List.mem_map_of_mem (f := Prod.fst) hk)
    refine ⟨u i, t1, h2, ?_, each i k t1 h1⟩
    have hi : i < lvs.length := (List.getElem?_eq_some_iff.mp h1).1
    have hlen : mid.length = lvs.length := by simpa using congrArg List.length hkeys
    have hmi := List.getElem?_eq_getElem (show i < mid.length by omega)
    have hsame := heach i _ _ hmi h1
    have hfst : mid[i].1 = k := by
      have := congrArg (fun l => l[i]?) hkeys
      simp only [List.getElem?_map, hmi, h1, Option.map_some] at this
      exact Option.some.inj this
    have : mid[i] ∈ kvs := hperm.mem_iff.mpr (List.mem_of_getElem? hmi)
    rw [show mid[i] = (k, mid[i].2) from Prod.ext hfst rfl] at this
    rw [find_unique hd hk this]
    exact hsame

/-! ## A document -/

example (F : FloatOps) : ∃ e rs out, Enc.new.run exampleCfg exampleOps = .ok (e, rs) ∧ e.finish exampleCfg = .ok out ∧
    Shows F none (fun _ => True) out
      (.dict [([0x63, 0x64], .arr [.int 1, .str [0x61, 0x62], .dict []]), ([0x61, 0x62], .bool true)]) := by
  refine C24_small_partial exampleCfg F exampleOps (by decide) ?_ ?_ ?_ _ rfl
  · intro op hop
    simp only [exampleOps, List.mem_cons, List.not_mem_nil, or_false] at hop
    rcases hop with rfl | rfl | rfl | rfl | rfl | rfl | rfl | rfl | rfl | rfl <;>
      simp [Op.Plain, Scalar.Survives, Scalar.Tiny, sab, scd, ShortRange] <;> decide
  · intro n hn
    simp [exampleOps] at hn
    omega
  · intro r hr
    simp [exampleOps, Build.run, Build.next, Build.step, Build.open, Build.put, Build.close] at hr
    exact hr

/-- **C24 is false of the code** for keys of one byte: `{"a": true}` is written and accepted, but `get("a")` is `None`. -/
theorem C24_refuted : ∃ (c : Cfg) (ops : List Op) (e : Enc) (rs : List (Except EncodeError Unit)) (out : List UInt8) (v : Val),
    Enc.new.run c ops = .ok (e, rs) ∧ e.finish c = .ok out ∧ fromBytes ⟨out, 0, true⟩ = .ok v ∧
    v.dictGet ⟨out, 0, true⟩ none [0x61] = .ok none ∧
    ∀ F, AllOk F {} ops ∧ (Build.run F {} ops).1.finish = some (.dict [([0x61], .bool true)]) := by
  refine ⟨exampleCfg, [.beginDict, .key ⟨[0x61], by decide⟩, .value (.bool true), .endDict], _, _,
    [0x70, 0x01, 0x01, 0x61, 0x38, 0x00, 0x80, 0x03], ⟨0, 6⟩, rfl, by decide +kernel, by decide +kernel, by decide +kernel, ?_⟩
  intro F
  refine ⟨?_, rfl⟩
  intro r hr
  simp [Build.run, Build.next, Build.step, Build.open, Build.put, Build.close] at hr
  exact hr

end Fleece.Props
