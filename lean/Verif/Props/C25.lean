import Verif.Props.C24

/-!
# C25 Dict iteration yields every pair once in key order

`C24_small_partial`, `C24_exact_partial` and, with shared keys, `C30_small_partial` say which documents are shown by the
bytes; the theorems here spell out what that means for iteration.
-/

namespace Fleece.Props
open Fleece Res

/-- **C25.** A value that shows the dict `kvs`: `len` is the number of pairs; iterating yields `len` items, each pair of
`kvs` exactly once, in the order of the keys (shared keys first, by code; then strings, by bytes), with values that show
what was written. -/
theorem C25_iter (m : Mem) (F : FloatOps) (scope : Option SharedKeys) (probe : List UInt8 → Prop) (v : Val) (t' : Tree)
    (hm : Matches m F scope probe v t') (kvs : List (List UInt8 × Tree)) (hs : Tree.Same (.dict kvs) t') :
    ∃ (items : List (List UInt8 × Val)) (it : Iter) (mid : List (List UInt8 × Tree)), v.dictIter m = .ok it ∧
      collectDict m scope (fun x => .ok x) (items.length + 1) it = .ok items ∧ v.dictLen m = .ok kvs.length ∧
      kvs.Perm mid ∧ items.map Prod.fst = mid.map Prod.fst ∧
      items.Pairwise (fun a b => Key.Lt (keyOf scope a.1) (keyOf scope b.1) ∨ a.1 = b.1) ∧
      ∀ (i : Nat) (x : Val) (t : Tree) (k k' : List UInt8), items[i]? = some (k, x) → mid[i]? = some (k', t) →
        ∃ t1, Tree.Same t t1 ∧ Matches m F scope probe x t1 := by
  obtain ⟨mid, lvs, rfl, hperm, hkeys, heach⟩ := Same.entries hs
  have hlen : mid.length = lvs.length := by simpa using congrArg List.length hkeys
  cases hm with
  | leaf type na nd read => exact absurd rfl ((leaf_read type na nd read).2 _)
  | dict u type len iter order found absent each =>
    obtain ⟨it, h1, h2⟩ := iter
    have hfst : (lvs.mapIdx fun i kv => (kv.1, u i)).map Prod.fst = lvs.map Prod.fst := by
      apply List.ext_getElem?
      intro i
      simp only [List.getElem?_map, List.getElem?_mapIdx, Option.map_map]
      cases lvs[i]? <;> rfl
    refine ⟨_, it, mid, h1, by rw [List.length_mapIdx]; exact h2, by rw [len, hperm.length_eq, hlen], hperm, ?_, ?_, ?_⟩
    · rw [hfst, hkeys]
    · have : ∀ l : List (List UInt8 × Val), l.Pairwise (fun a b => Key.Lt (keyOf scope a.1) (keyOf scope b.1) ∨ a.1 = b.1) ↔
          (l.map Prod.fst).Pairwise (fun a b => Key.Lt (keyOf scope a) (keyOf scope b) ∨ a = b) := by
        intro l; rw [List.pairwise_map]
      rw [this, hfst, List.pairwise_map]
      exact order
    · intro i x t k k' hi hmi
      rw [List.getElem?_mapIdx, Option.map_eq_some_iff] at hi
      obtain ⟨⟨k1, t1⟩, h3, heq⟩ := hi
      cases heq
      exact ⟨t1, heach i _ _ hmi h3, each i _ _ h3⟩

/-- **C25, byte order.** Without shared keys and with distinct keys, the keys come strictly increasing in the
lexicographic order of their bytes. -/
theorem C25_byte_order (m : Mem) (F : FloatOps) (probe : List UInt8 → Prop) (v : Val) (t' : Tree)
    (hm : Matches m F none probe v t') (kvs : List (List UInt8 × Tree)) (hs : Tree.Same (.dict kvs) t')
    (hd : (kvs.map Prod.fst).Nodup) :
    ∃ (items : List (List UInt8 × Val)) (it : Iter), v.dictIter m = .ok it ∧
      collectDict m none (fun x => .ok x) (items.length + 1) it = .ok items ∧ items.length = kvs.length ∧
      (items.map Prod.fst).Perm (kvs.map Prod.fst) ∧ (items.map Prod.fst).Pairwise (· < ·) := by
  obtain ⟨items, it, mid, h1, h2, h3, h4, h5, h6, h7⟩ := C25_iter m F none probe v t' hm kvs hs
  have hl : items.length = mid.length := by simpa using congrArg List.length h5
  have hperm : (items.map Prod.fst).Perm (kvs.map Prod.fst) := by rw [h5]; exact (h4.map _).symm
  refine ⟨items, it, h1, h2, by rw [hl, h4.length_eq], hperm, ?_⟩
  have hnd : (items.map Prod.fst).Nodup := hperm.nodup_iff.mpr hd
  have h8 : (items.map Prod.fst).Pairwise (fun a b => Key.Lt (keyOf none a) (keyOf none b) ∨ a = b) := by
    rw [List.pairwise_map]; exact h6
  refine (h8.and hnd).imp ?_
  intro a b hab
  rcases hab.1 with h | h
  · exact h
  · exact absurd h hab.2

/-- The document of `exampleOps` is written with its keys in the other order. -/
example (F : FloatOps) (m : Mem) (out : List UInt8) (hm : m.data = out) (hb : m.base + out.length < 2 ^ 64)
    (h : Shows F none (fun _ => True) out
      (.dict [([0x63, 0x64], .arr [.int 1, .str [0x61, 0x62], .dict []]), ([0x61, 0x62], .bool true)])) :
    ∃ v items it, fromBytes m = .ok v ∧ v.dictIter m = .ok it ∧
      collectDict m none (fun x => .ok x) 3 it = .ok items ∧ items.map Prod.fst = [[0x61, 0x62], [0x63, 0x64]] := by
  obtain ⟨v, t', h1, h2, h3⟩ := h m hm hb
  obtain ⟨items, it, h4, h5, h6, h7, h8⟩ := C25_byte_order m F _ v t' h3 _ h2 (by decide)
  rw [h6] at h5
  refine ⟨v, items, it, h1, h4, h5, ?_⟩
  generalize items.map Prod.fst = ks at h7 h8
  refine List.Perm.eq_of_pairwise (le := (· < ·)) ?_ h8 (by decide) (h7.trans (.swap _ _ _))
  intro a b _ _ hab hba
  exact absurd (u8_list_trans hab hba) (u8_list_irrefl a)

/-- **C25 is false of the code** for keys of one byte: `{"a": true}` has `len` 1 and iterates over nothing. -/
theorem C25_refuted : ∃ (c : Cfg) (ops : List Op) (e : Enc) (rs : List (Except EncodeError Unit)) (out : List UInt8) (v : Val)
    (it : Iter), Enc.new.run c ops = .ok (e, rs) ∧ e.finish c = .ok out ∧ fromBytes ⟨out, 0, true⟩ = .ok v ∧
    v.dictLen ⟨out, 0, true⟩ = .ok 1 ∧ v.dictIter ⟨out, 0, true⟩ = .ok it ∧
    collectDict ⟨out, 0, true⟩ none (fun x => .ok x) 2 it = .ok [] ∧
    ∀ F, AllOk F {} ops ∧ (Build.run F {} ops).1.finish = some (.dict [([0x61], .bool true)]) := by
  refine ⟨exampleCfg, [.beginDict, .key ⟨[0x61], by decide⟩, .value (.bool true), .endDict], _, _,
    [0x70, 0x01, 0x01, 0x61, 0x38, 0x00, 0x80, 0x03], ⟨0, 6⟩, ⟨some ⟨2, 2⟩, 2, 0, 2⟩, rfl, by decide +kernel, by decide +kernel,
    by decide +kernel, by decide +kernel, by decide +kernel, ?_⟩
  intro F
  refine ⟨?_, rfl⟩
  intro r hr
  simp [Build.run, Build.next, Build.step, Build.open, Build.put, Build.close] at hr
  exact hr

/-- **C25 is false of the code with shared keys**, if the order meant is that of the key texts: `{"cd": true, "ab": false}`
is iterated as "cd", "ab", the order of the codes. -/
theorem C25_refuted_shared : ∃ (c : Cfg) (ops : List Op) (e : Enc) (rs : List (Except EncodeError Unit)) (out : List UInt8)
    (last : SharedKeys) (v x y : Val) (it : Iter), ({ Enc.new with sk := some .new } : Enc).run c ops = .ok (e, rs) ∧
    e.finish c = .ok out ∧ e.sk = some last ∧ fromBytes ⟨out, 0, true⟩ = .ok v ∧ v.dictIter ⟨out, 0, true⟩ = .ok it ∧
    collectDict ⟨out, 0, true⟩ (some last) (fun x => .ok x) 3 it = .ok [(scd.bytes, x), (sab.bytes, y)] ∧
    ∀ F, AllOk F {} ops ∧
      (Build.run F {} ops).1.finish = some (.dict [(scd.bytes, .bool true), (sab.bytes, .bool false)]) := by
  refine ⟨exampleCfg, [.beginDict, .key scd, .value (.bool true), .key sab, .value (.bool false), .endDict], _, _,
    [0x70, 0x02, 0, 0, 0x38, 0, 0, 1, 0x34, 0, 0x80, 5], ⟨[(scd.bytes, 0), (sab.bytes, 1)]⟩, ⟨0, 10⟩, ⟨4, 2⟩, ⟨8, 2⟩,
    ⟨some ⟨2, 2⟩, 2, 0, 4⟩, rfl, by decide +kernel, by rfl, by decide +kernel, by decide +kernel, by decide +kernel, ?_⟩
  intro F
  refine ⟨?_, rfl⟩
  intro r hr
  simp [Build.run, Build.next, Build.step, Build.open, Build.put, Build.close] at hr
  exact hr

end Fleece.Props
