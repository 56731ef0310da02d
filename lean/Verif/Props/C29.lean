import Verif.Proofs.State
import Verif.Props.C21
import Verif.Props.C26
import Verif.Props.C27

/-!
# C29 A table of shared keys survives saving and loading

Full claim: `from_state_bytes(get_state_bytes(sk))` is `sk` again, for every table reachable by insertions. It is false
(`C29_refuted_short`, `C29_refuted_width`); `C29_exact_partial` is what holds.
-/

namespace Fleece.Props
open Fleece Res

theorem tidy_len {U : CharTable} {sk : SharedKeys} (ht : sk.Tidy U) : ∀ k ∈ sk.entries.map (·.1), k.length ≤ 15 := by
  intro k hk
  obtain ⟨e, he, rfl⟩ := List.mem_map.mp hk
  rw [← (ht e he).1]; unfold zstr
  refine Nat.le_trans (List.IsPrefix.length_le (List.takeWhile_prefix _)) ?_
  simp only [List.length_take]; omega

/-- The names as Rust strings, and the loop of `write_state` as a sequence of calls. -/
theorem save_run {U : CharTable} (c : Cfg) (l : List (List UInt8 × Nat)) (h : ∀ e ∈ l, SharedKeys.canEncode U e.1 = true) :
    ∃ ss : List RStr, ss.map (·.bytes) = l.map (·.1) ∧ ∀ (e e' : Enc) (rs : List (Except EncodeError Unit)),
      e.run c (ss.map (.value <| .str ·) ++ [.endArray]) = .ok (e', rs) → (∀ r ∈ rs, r = .ok ()) →
        SharedKeys.saveLoop c l e = .ok (e', some ()) := by
  induction l with
  | nil =>
    refine ⟨[], rfl, ?_⟩
    intro e e' rs hr hok
    simp only [List.map_nil, List.nil_append, Enc.run] at hr
    obtain ⟨⟨e1, r⟩, h1, hr⟩ := bind_eq_ok.mp hr
    cases hr
    cases hok r (by simp)
    simp only [Enc.step] at h1
    unfold SharedKeys.saveLoop
    rw [h1]; rfl
  | cons a l ih =>
    obtain ⟨k, code⟩ := a
    have hv : validUtf8 k = true := by
      have := h (k, code) (by simp)
      unfold SharedKeys.canEncode at this
      unfold validUtf8
      split at this
      · next hx => rw [hx]; rfl
      · cases this
    obtain ⟨ss, h1, h2⟩ := ih (fun e he => h e (by simp [he]))
    refine ⟨⟨k, hv⟩ :: ss, by simp [h1], ?_⟩
    intro e e' rs hr hok
    simp only [List.map_cons, List.cons_append, Enc.run] at hr
    obtain ⟨⟨e1, r⟩, g1, hr⟩ := bind_eq_ok.mp hr
    obtain ⟨⟨e2, rs2⟩, g2, hr⟩ := bind_eq_ok.mp hr
    cases hr
    cases hok r (by simp)
    simp only [Enc.step] at g1
    unfold SharedKeys.saveLoop
    rw [dif_pos hv, g1]
    exact h2 _ _ _ g2 (fun r hr => hok r (by simp [hr]))

/-- Saving is a sequence of calls, all of which succeed, and `finish`. -/
theorem save_ok {U : CharTable} (c : Cfg) (F : FloatOps) {sk : SharedKeys} (hw : sk.WF) (ht : sk.Tidy U) :
    ∃ (ss : List RStr) (e : Enc) (rs : List (Except EncodeError Unit)), ss.map (·.bytes) = sk.entries.map (·.1) ∧
      Op.total (.beginArray sk.entries.length :: (ss.map (.value <| .str ·) ++ [.endArray])) ≤ 100000 ∧
      Enc.new.run c (.beginArray sk.entries.length :: (ss.map (.value <| .str ·) ++ [.endArray])) = .ok (e, rs) ∧
      Build.run F {} (.beginArray sk.entries.length :: (ss.map (.value <| .str ·) ++ [.endArray])) =
        ({ stack := [], root := some (.arr (sk.entries.map (.str ·.1))) }, List.replicate (ss.length + 2) (.ok ())) ∧
      SharedKeys.getStateBytes c sk = e.finish c := by
  have hmw : SizedValue.maxWide = 0x3fffffff := rfl
  obtain ⟨ss, hss, hsave⟩ := save_run (U := U) c sk.entries (fun e he => (ht e he).2)
  have hl : ss.length = sk.entries.length := by
    have := congrArg List.length hss
    simpa using this
  have hle := hw.le
  have h15 : ∀ s ∈ ss, s.bytes.length ≤ 15 := by
    intro s hs
    refine tidy_len ht s.bytes ?_
    rw [← hss]; exact List.mem_map_of_mem hs
  have hmap : (ss.map fun s => Op.value (.str s)) = (ss.map Scalar.str).map .value := by simp
  have hb : Build.run F {} (.beginArray sk.entries.length :: (ss.map (.value <| .str ·) ++ [.endArray])) =
        ({ stack := [], root := some (.arr (sk.entries.map (.str ·.1))) }, List.replicate (ss.length + 2) (.ok ())) := by
    have := flat_build F (ss.map Scalar.str) []
    rw [hmap]
    simp only [Build.run, Build.next, Build.step, Build.open, Option.isSome_none, Bool.false_eq_true, if_false, this]
    have hx : (ss.map Scalar.str).map (Scalar.tree F) = sk.entries.map (fun x => Tree.str x.1) := by
      have := congrArg (List.map Tree.str) hss
      simp only [List.map_map] at this ⊢
      exact this
    rw [hx]
    simp [List.replicate_succ]
  have htot : Op.total (.beginArray sk.entries.length :: (ss.map (.value <| .str ·) ++ [.endArray])) ≤ 100000 := by
    have : ∀ ss : List RStr, (∀ s ∈ ss, s.bytes.length ≤ 15) → Op.total (ss.map (.value <| .str ·) ++ [.endArray]) ≤ 39 * ss.length + 24 := by
      intro ss
      induction ss with
      | nil => intro _; decide
      | cons s ss ih =>
        intro h
        simp only [List.map_cons, List.cons_append, Op.total_cons, List.length_cons]
        have h1 := ih (fun t ht => h t (by simp [ht]))
        have h2 := h s (by simp)
        have h3 : (Op.value (.str s)).weight = 24 + s.bytes.length := rfl
        omega
    have h1 := this ss h15
    rw [Op.total_cons]
    have : (Op.beginArray sk.entries.length).weight = 24 := rfl
    omega
  have hacc : ∀ op ∈ (Op.beginArray sk.entries.length :: (ss.map (.value <| .str ·) ++ [.endArray]) : List Op), op.Accepted := by
    intro op hop
    simp only [List.mem_cons, List.mem_append, List.mem_map, List.not_mem_nil, or_false] at hop
    rcases hop with rfl | ⟨x, hxm, rfl⟩ | rfl
    · show _ * 4 < _; omega
    · show x.bytes.length < _; have := h15 x hxm; omega
    · trivial
  obtain ⟨e, rs, h⟩ := Enc.run_ok (c := c) _ (newWith_wf (sk := none) (by simp)) (by have := newWith_phi none; omega) hacc
  have hrs : ∀ r ∈ rs, r = .ok () := by
    have hall : AllOk F {} (.beginArray sk.entries.length :: (ss.map (.value <| .str ·) ++ [.endArray])) := by
      intro r hr; rw [hb] at hr; exact List.eq_of_mem_replicate hr
    have hor := hall.orderly _ (by simp)
    have hnd : ∀ (ops : List Op) (b : Build), Orderly F b ops → NoDiscard F b ops := by
      intro ops
      induction ops with
      | nil => intros; trivial
      | cons op ops ih => intro b hb; exact ⟨hb.1, ih _ hb.2.2⟩
    rw [C18_results_documented_partial c F none (by simp) _ (by omega) (hnd _ _ hor) e rs h]
    exact hall
  refine ⟨ss, e, rs, hss, htot, h, hb, ?_⟩
  have h' : Enc.new.run c (.beginArray sk.entries.length :: (ss.map (.value <| .str ·) ++ [.endArray])) = .ok (e, rs) := h
  simp only [Enc.run] at h'
  obtain ⟨⟨e1, r⟩, g1, h'⟩ := bind_eq_ok.mp h'
  obtain ⟨⟨e2, rs2⟩, g2, h'⟩ := bind_eq_ok.mp h'
  cases h'
  cases hrs r (by simp)
  simp only [Enc.step] at g1
  unfold SharedKeys.getStateBytes SharedKeys.writeState
  rw [g1]
  simp only [ok_bind]
  rw [hsave _ _ _ g2 (fun r hr => hrs r (by simp [hr]))]
  rfl

/-- **C29, exact.** Every table `sk` (distinct names with codes `0, 1, …`, as insertions of keys of up to 15 bytes leave
it, see `C29_partial`) whose names fit the width the encoder chooses (`StateFits`: their encodings take at least 16384 bytes,
or at most 16381 (16379 from 2047 names on) and no name has fewer than two bytes): saving succeeds, and loading what was
saved, wherever it lies in memory, gives the very same table. -/
theorem C29_exact_partial (c : Cfg) (U : CharTable) (sk : SharedKeys) (hw : sk.WF) (ht : sk.Tidy U)
    (hfit : StateFits (sk.entries.map (·.1))) :
    ∃ out, sk.getStateBytes c = .ok out ∧ ∀ m : Mem, m.data = out → m.base + out.length < 2 ^ 64 →
      SharedKeys.fromStateBytes m U = .ok (some sk) := by
  have hmw : SizedValue.maxWide = 0x3fffffff := rfl
  let F : FloatOps := ⟨fun _ => 0, fun _ => 0, fun _ => 0, fun _ => 0, fun _ => 0, fun _ => 0⟩
  obtain ⟨ss, e, rs, hss, htot, h, hb, hsave⟩ := save_ok c F hw ht
  have hl : ss.length = sk.entries.length := by
    have := congrArg List.length hss
    simpa using this
  have hle := hw.le
  have h15 := tidy_len ht
  have hsz : stateSize (sk.entries.map (·.1)) ≤ 18 * sk.entries.length := by
    have : ∀ l : List (List UInt8), (∀ k ∈ l, k.length ≤ 15) → stateSize l ≤ 18 * l.length := by
      intro l
      induction l with
      | nil => intro _; exact Nat.le_refl _
      | cons k l ih =>
        intro h
        rw [stateSize_cons]
        have h1 := ih (fun t ht => h t (by simp [ht]))
        have h2 := h k (by simp)
        have h3 : storedSize k.length ≤ 18 := by
          unfold storedSize; split
          · omega
          · split <;> omega
        simp only [List.length_cons]; omega
    have := this _ h15
    simpa using this
  have hrun : RunOK c Enc.new (.beginArray sk.entries.length :: (ss.map (.value <| .str ·) ++ [.endArray])) := by
    refine ⟨trivial, fun e' r he => ?_⟩
    simp only [Enc.step, Enc.beginArray, Enc.new, Enc.waitingForKey, Bool.false_eq_true, if_false] at he
    rw [if_neg (by omega)] at he
    cases he
    refine state_run (sk.entries.map (·.1)) hfit (by omega) ss rfl rfl ?_ ?_ ?_ ?_ (.inl rfl) ?_
    · intro s hs; refine h15 s.bytes ?_; rw [← hss]; exact List.mem_map_of_mem hs
    · rw [hss]; exact Nat.zero_add _
    · simp [hl]
    · intro s hs; rw [← hss]; exact List.mem_map_of_mem hs
    · intro _; exact ⟨Nat.le_refl 0, fun i v hi => by simp at hi⟩
  have hfin : FinishOK c e.stack.length e := by
    obtain ⟨hs, _⟩ := Sim.run (F := F) (P := fun _ => True) _ (newWith_wf (sk := none) (by simp)) (newWith_nested none)
      (by have := newWith_phi none; omega) (Sim.new F none) hrun (RunKeys.trivial _ _ _) h
    have := hs.shape.length
    rw [hb] at this
    simp only [List.length_nil] at this
    rw [this]; trivial
  have hskn : e.sk = none := by
    have := (Enc.run_inv _ (newWith_wf (sk := none) (by simp)) (by have := newWith_phi none; omega) h).2.2
    cases hx : e.sk with
    | none => rfl
    | some s => rw [hx] at this; exact this.2.elim
  obtain ⟨out, h1, h2⟩ := C20_exact_partial c F none none (by simp) _ (by omega) e rs h hrun hfin
    (by rw [hskn]; exact .refl _) (.arr (sk.entries.map (.str ·.1))) (by rw [hb]; rfl)
  refine ⟨out, by rw [hsave]; exact h1, fun m hm hbase => ?_⟩
  obtain ⟨v, t', h3, h4, h5⟩ := h2 m hm hbase
  have ht' : t' = .arr (sk.entries.map (.str ·.1)) := by
    cases h4 with
    | refl => rfl
    | @arr _ ys len each =>
      congr 1
      apply List.ext_getElem? ; intro i
      by_cases hi : i < ys.length
      · have hi' : i < (sk.entries.map (fun x => Tree.str x.1)).length := by omega
        have e1 := List.getElem?_eq_getElem hi
        have e2 := List.getElem?_eq_getElem hi'
        rw [e1, e2]
        have := each i _ _ e2 e1
        congr 1
        rw [List.getElem_map] at this ⊢
        generalize ys[i] = y at this ⊢
        cases this; rfl
      · rw [List.getElem?_eq_none (by omega), List.getElem?_eq_none (by omega)]
  subst ht'
  have hread := h5 (out.length + 1) (by omega)
  unfold SharedKeys.fromStateBytes
  rw [h3]
  simp only
  unfold readTree at hread
  obtain ⟨ty, g1, hread⟩ := bind_eq_ok.mp hread
  cases ty <;> dsimp only at hread
  case array =>
    obtain ⟨it, g2, hread⟩ := bind_eq_ok.mp hread
    obtain ⟨xs, g3, hread⟩ := bind_eq_ok.mp hread
    cases hread
    unfold SharedKeys.fromStateValue Val.asArray
    rw [g1]
    simp only [ok_bind, pure_eq, if_true, g2]
    exact load_loop hw ht sk.entries (pre := []) (by simp) g3
  all_goals first
    | (cases hread; done)
    | (obtain ⟨_, _, hread⟩ := bind_eq_ok.mp hread; cases hread; done)
    | (obtain ⟨_, _, hread⟩ := bind_eq_ok.mp hread; obtain ⟨_, _, hread⟩ := bind_eq_ok.mp hread; cases hread)

/-- `Inserted` with keys of at most 15 bytes only (any others that the table refuses). -/
inductive InsertedShort (U : CharTable) : SharedKeys → Prop where
  | new : InsertedShort U .new
  | insert {sk : SharedKeys} (key : List UInt8) (h : key.length ≠ 16) : InsertedShort U sk →
      InsertedShort U (sk.encodeAndInsert U key).1

theorem InsertedShort.inv {U : CharTable} {sk : SharedKeys} (h : InsertedShort U sk) : sk.WF ∧ sk.Tidy U := by
  induction h with
  | new => exact ⟨SharedKeys.new_wf, SharedKeys.new_tidy U⟩
  | insert key h _ ih => exact ⟨(ih.1.insert U key).1, ih.2.insert h⟩

theorem InsertedShort.of_tidy {U : CharTable} {sk : SharedKeys} (hw : sk.WF) (ht : sk.Tidy U) : InsertedShort U sk := by
  have : ∀ n, n ≤ sk.entries.length → InsertedShort U ⟨sk.entries.take n⟩ := by
    intro n
    induction n with
    | zero => intro _; exact .new
    | succ n ih =>
      intro hn
      have hlt : n < sk.entries.length := by omega
      obtain ⟨⟨k, code⟩, hk⟩ : ∃ x, sk.entries[n]? = some x := ⟨_, List.getElem?_eq_getElem hlt⟩
      have hc := hw.code n k code hk
      subst hc
      have hpl : (sk.entries.take code).length = code := by simp; omega
      have he : sk.entries = sk.entries.take code ++ (k, (sk.entries.take code).length) :: sk.entries.drop (code + 1) := by
        rw [hpl]
        rw [List.getElem?_eq_some_iff] at hk
        obtain ⟨_, hk⟩ := hk
        rw [← hk, ← List.drop_eq_getElem_cons hlt, List.take_append_drop]
      have hi := insert_next hw ht he
      have hk15 := tidy_len ht k (by rw [he]; simp)
      have := InsertedShort.insert k (by omega) (ih (by omega))
      rw [hi] at this
      rw [hpl] at this
      have htk : sk.entries.take (code + 1) = sk.entries.take code ++ [(k, code)] := by
        rw [List.take_add_one, hk]; rfl
      rw [htk]; exact this
  have := this sk.entries.length (Nat.le_refl _)
  rwa [List.take_length] at this

/-- **C29, histories.** The same for every table reached by insertions, none of them of a key of exactly 16 bytes. -/
theorem C29_partial (c : Cfg) (U : CharTable) (sk : SharedKeys) (h : InsertedShort U sk)
    (hfit : StateFits (sk.entries.map (·.1))) :
    ∃ out, sk.getStateBytes c = .ok out ∧ ∀ m : Mem, m.data = out → m.base + out.length < 2 ^ 64 →
      SharedKeys.fromStateBytes m U = .ok (some sk) :=
  C29_exact_partial c U sk h.inv.1 h.inv.2 hfit

/-- The table with the keys `foo` and `bar_1`. -/
def stateTable : SharedKeys := ⟨[([0x66, 0x6f, 0x6f], 0), ([0x62, 0x61, 0x72, 0x5f, 0x31], 1)]⟩

example (U : CharTable) : InsertedShort U stateTable ∧ StateFits (stateTable.entries.map (·.1)) := by
  refine ⟨?_, .inr ⟨by decide, by decide⟩⟩
  have h1 : (SharedKeys.new.encodeAndInsert U [0x66, 0x6f, 0x6f]).1 = ⟨[([0x66, 0x6f, 0x6f], 0)]⟩ := rfl
  have h2 : (SharedKeys.encodeAndInsert U ⟨[([0x66, 0x6f, 0x6f], 0)]⟩ [0x62, 0x61, 0x72, 0x5f, 0x31]).1 = stateTable := rfl
  rw [← h2]
  refine .insert _ (by decide) ?_
  rw [← h1]
  exact .insert _ (by decide) .new

set_option maxRecDepth 20000 in
/-- **C29 is false of the code: short names.** The table with the one key `a` is saved as an array with the integer 353:
loading it panics with debug assertions, and otherwise gives a table with the empty name. -/
theorem C29_refuted_short (U : CharTable) : ∃ (c : Cfg) (sk : SharedKeys) (out : List UInt8), InsertedShort U sk ∧
    sk.decode 0 = some [0x61] ∧ sk.getStateBytes c = .ok out ∧ SharedKeys.fromStateBytes ⟨out, 0, true⟩ U = .panic ∧
    ∃ sk', SharedKeys.fromStateBytes ⟨out, 0, false⟩ U = .ok (some sk') ∧ sk'.decode 0 = some [] := by
  refine ⟨exampleCfg, ⟨[([0x61], 0)]⟩, [0x60, 0x01, 0x01, 0x61, 0x80, 0x02], ?_, rfl, by decide +kernel, ?_, ⟨[([], 0)]⟩, ?_, rfl⟩
  · exact .insert (sk := .new) [0x61] (by decide) .new
  · unfold SharedKeys.fromStateBytes
    rw [show fromBytes ⟨[0x60, 0x01, 0x01, 0x61, 0x80, 0x02], 0, true⟩ = .ok ⟨0, 4⟩ by decide +kernel]
    rfl
  · unfold SharedKeys.fromStateBytes
    rw [show fromBytes ⟨[0x60, 0x01, 0x01, 0x61, 0x80, 0x02], 0, false⟩ = .ok ⟨0, 4⟩ by decide +kernel]
    rfl

/-! ## Names of 16380 or 16382 bytes in total -/

/-- What the names leave behind before the array is closed. -/
theorem names_run {c : Cfg} (ss : List RStr) : ∀ {e e' : Enc} {vs : List SizedValue} {rs : List (Except EncodeError Unit)},
    e.stack = [.arr vs] → e.out.length % 2 = 0 → (∀ s ∈ ss, s.bytes.length ≤ 15 ∧ 2 ≤ s.bytes.length) →
    e.out.length + stateSize (ss.map (·.bytes)) ≤ SizedValue.maxWide →
    (∀ v ∈ vs, v.type = .pointer ∧ v.pointerOffset ≤ e.out.length) →
    e.run c (ss.map (.value <| .str ·) ++ [.endArray]) = .ok (e', rs) →
    ∃ (e2 : Enc) (xs : List SizedValue) (r : Except EncodeError Unit), e2.stack = [.arr (vs ++ xs)] ∧ e2.out.length % 2 = 0 ∧
      e2.closed = e.closed ∧ e2.out.length = e.out.length + stateSize (ss.map (·.bytes)) ∧ xs.length = ss.length ∧
      (∀ v ∈ vs ++ xs, v.type = .pointer ∧ v.pointerOffset ≤ e2.out.length) ∧
      (∀ x, xs[0]? = some x → x.pointerOffset = e.out.length) ∧ e2.step c .endArray = .ok (e', r) := by
  induction ss with
  | nil =>
    intro e e' vs rs hs he _ hm hv h
    simp only [List.map_nil, List.nil_append, Enc.run] at h
    obtain ⟨⟨e1, r⟩, h1, h⟩ := bind_eq_ok.mp h
    cases h
    exact ⟨e, [], r, by simpa using hs, he, rfl, rfl, rfl, by simpa using hv, by simp, h1⟩
  | cons s ss ih =>
    intro e e' vs rs hs he h15 hm hv h
    simp only [List.map_cons, stateSize_cons] at hm
    simp only [List.map_cons, List.cons_append, Enc.run] at h
    obtain ⟨⟨e1, r⟩, h1, h⟩ := bind_eq_ok.mp h
    obtain ⟨⟨e2, rs2⟩, h2, h⟩ := bind_eq_ok.mp h
    cases h
    obtain ⟨hs1, hs2⟩ := h15 s (by simp)
    obtain ⟨g1, g2, _, x, g3, g4, g5⟩ := name_step hs he (by omega) hs1 h1
    obtain ⟨g6, g7⟩ := g5 hs2
    obtain ⟨e3, xs, r, k1, k2, k3, k4, k5, k6, k7, k8⟩ := ih g3 g1 (fun t ht => h15 t (by simp [ht])) (by omega) (by
      intro v hv'
      rcases List.mem_append.mp hv' with hv' | hv'
      · obtain ⟨a, b⟩ := hv v hv'; exact ⟨a, by omega⟩
      · simp only [List.mem_singleton] at hv'; subst hv'; exact ⟨g6, by omega⟩) h2
    refine ⟨e3, x :: xs, r, by simpa using k1, k2, by rw [k3, g4], ?_, by simp [k5], by simpa using k6, ?_, k8⟩
    · simp only [List.map_cons, stateSize_cons]; omega
    · intro y hy; simp at hy; subst hy; exact g7

/-- A slot too far from its target for 2 bytes, in an array of 2-byte slots. -/
theorem far_slot {x : SizedValue} {q : Nat} (hxt : x.type = .pointer) (hx : x.pointerOffset = 0) (hq : SizedValue.maxNarrow < q)
    (hq2 : q < 2 ^ 17) : slotBytes false (Enc.relSlot x q) = [0x80, 0x00] ++ [UInt8.ofNat (q / 2 / 2 ^ 8), UInt8.ofNat (q / 2)] := by
  have hmw : SizedValue.maxWide = 0x3fffffff := rfl
  unfold Enc.relSlot
  rw [if_pos hxt, hx, Nat.sub_zero, (ptrSlot_spec (by omega)).1, Option.getD_some, slotBytes_ptr (by omega)]
  have : decide (q > SizedValue.maxNarrow) = true := by rw [decide_eq_true_eq]; omega
  rw [this]
  simp only [Bool.or_true, ptrBytes, if_true]
  have e1 : q / 2 / 2 ^ 24 = 0 := by omega
  have e2 : q / 2 / 2 ^ 16 = 0 := by omega
  rw [e1, e2]; rfl

theorem narrow_slots_length (ys : List SizedValue) : ∀ (n : Nat),
    let l := (((Enc.relArray false n ys).map (slotBytes false)).flatten).length
    2 * ys.length ≤ l ∧ l ≤ 4 * ys.length ∧ l % 2 = 0 := by
  induction ys with
  | nil => intro n; simp [Enc.relArray]
  | cons y ys ih =>
    intro n
    have := ih (n + Enc.slotWidth false)
    have hy : ∀ s, (slotBytes false s).length = 2 ∨ (slotBytes false s).length = 4 := by
      intro s
      rw [slotBytes_length]
      simp only [Bool.false_eq_true, if_false, SizedValue.size]
      split <;> (try split) <;> simp
    simp only [Enc.relArray, List.map_cons, List.flatten_cons, List.length_append, List.length_cons] at this ⊢
    rcases hy (Enc.relSlot y n) with hy | hy <;> rw [hy] <;> omega

/-- The output of an array of 2-byte slots whose first pointer does not fit. -/
theorem far_array {out : List UInt8} {x : SizedValue} {xs : List SizedValue} (ho : out.length % 2 = 0) (hxt : x.type = .pointer)
    (hx : x.pointerOffset = 0) (hn : xs.length < 10000) (hlo : SizedValue.maxNarrow < out.length + hdrLen (xs.length + 1))
    (hhi : out.length < 20000) (hfar : (x :: xs).any (Enc.slotFar out.length) = false) :
    ∃ tail, Enc.arrOut out (x :: xs) = padEven (out ++ headerBytes 0x60 (xs.length + 1) false) ++ [0x80, 0x00] ++ tail ∧
      tail.length % 2 = 0 ∧ 2 * xs.length ≤ tail.length ∧ tail.length ≤ 2 + 4 * xs.length := by
  have hhl := hdrLen_le (n := xs.length + 1) (by omega)
  have hpl := padHeader_length ho 0x60 (n := xs.length + 1) (by omega) false
  obtain ⟨t1, t2, t3⟩ := narrow_slots_length xs (out.length + hdrLen (xs.length + 1) + 2)
  refine ⟨[UInt8.ofNat ((out.length + hdrLen (xs.length + 1)) / 2 / 2 ^ 8), UInt8.ofNat ((out.length + hdrLen (xs.length + 1)) / 2)] ++
      ((Enc.relArray false (out.length + hdrLen (xs.length + 1) + 2) xs).map (slotBytes false)).flatten, ?_, ?_, ?_, ?_⟩
  · unfold Enc.arrOut
    rw [hfar]
    dsimp only
    rw [List.length_cons, hpl]
    simp only [Enc.relArray, List.map_cons, List.flatten_cons]
    rw [far_slot hxt hx hlo (by omega)]
    simp only [List.append_assoc]
    rfl
  all_goals rw [List.length_append]; simp only [List.length_cons, List.length_nil]; omega

/-- **C29 is false of the code: width.** *Every* table whose names have at least two bytes, and take between 16382 (16380
from 2047 names on) and 16383 bytes when encoded, is lost: saving returns bytes, and loading them gives `None`. (The
encoder decides for 2-byte slots before it writes the header of the array; the first slot then needs a 4-byte pointer.) -/
theorem C29_refuted_width (c : Cfg) (U : CharTable) (sk : SharedKeys) (hreach : InsertedShort U sk)
    (h2 : ∀ k ∈ sk.entries.map (·.1), 2 ≤ k.length) (hlo : 16383 < stateSize (sk.entries.map (·.1)) + hdrLen sk.entries.length)
    (hhi : stateSize (sk.entries.map (·.1)) ≤ 16383) :
    ∃ out, sk.getStateBytes c = .ok out ∧ ∀ m : Mem, m.data = out → m.base + out.length < 2 ^ 64 →
      SharedKeys.fromStateBytes m U = .ok none := by
  obtain ⟨hw, ht⟩ := hreach.inv
  have hmw : SizedValue.maxWide = 0x3fffffff := rfl
  have hmn : SizedValue.maxNarrow = 0x3fff := rfl
  let F : FloatOps := ⟨fun _ => 0, fun _ => 0, fun _ => 0, fun _ => 0, fun _ => 0, fun _ => 0⟩
  obtain ⟨ss, e, rs, hss, htot, h, hb, hsave⟩ := save_ok c F hw ht
  have hl : ss.length = sk.entries.length := by
    have := congrArg List.length hss
    simpa using this
  have hle := hw.le
  have hn1 : 1 ≤ sk.entries.length := by
    cases hx : sk.entries with
    | nil => rw [hx] at hlo; revert hlo; decide
    | cons a l => simp
  simp only [Enc.run] at h
  obtain ⟨⟨e1, r⟩, g1, h⟩ := bind_eq_ok.mp h
  obtain ⟨⟨e2', rs2⟩, g2, h⟩ := bind_eq_ok.mp h
  cases h
  simp only [Enc.step, Enc.beginArray, Enc.new, Enc.waitingForKey, Bool.false_eq_true, if_false] at g1
  rw [if_neg (by omega)] at g1
  cases g1
  obtain ⟨e2, xs, r, k1, k2, k3, k4, k5, k6, k7, k8⟩ := names_run ss (vs := []) rfl rfl (by
      intro s hs
      have : s.bytes ∈ sk.entries.map (·.1) := by rw [← hss]; exact List.mem_map_of_mem hs
      exact ⟨tidy_len ht _ this, h2 _ this⟩) (by rw [hss]; simp only [List.length_nil]; omega) (by simp) g2
  rw [hss] at k4
  simp only [List.length_nil, Nat.zero_add] at k4
  rw [List.nil_append] at k1 k6
  rw [hl] at k5
  have hev : hdrLen sk.entries.length % 2 = 0 := by unfold hdrLen; omega
  have hhl := hdrLen_le (n := sk.entries.length) (by omega)
  cases xs with
  | nil => simp at k5; omega
  | cons x xs =>
    simp only [List.length_cons] at k5
    have hx := k7 x rfl
    simp only [List.length_nil] at hx
    obtain ⟨hxt, _⟩ := k6 x (by simp)
    have hfar : (x :: xs).any (Enc.slotFar e2.out.length) = false := by
      rw [List.any_eq_false]
      intro v hv
      unfold Enc.slotFar
      simp only [Bool.and_eq_true, decide_eq_true_eq, not_and]
      intro _
      omega
    have hbd : ∀ v ∈ x :: xs, v.Bounded e2.out.length := fun v hv _ => (k6 v hv).2
    simp only [Enc.step] at k8
    rw [Enc.endArray_eq c e2 (rest := []) k1 k2 hbd (by simp only [List.length_cons]; omega)] at k8
    rw [← k5] at hlo hhl hle hev
    obtain ⟨tail, harr, t1, t2, t3⟩ := far_array k2 hxt hx (by omega) (by omega) (by omega) hfar
    have hhdr : padEven (e2.out ++ headerBytes 0x60 (xs.length + 1) false) =
        e2.out ++ (padEven (e2.out ++ headerBytes 0x60 (xs.length + 1) false)).drop e2.out.length := by
      obtain ⟨t, ht⟩ := List.IsPrefix.trans ⟨headerBytes 0x60 (xs.length + 1) false, rfl⟩
        (padEven_prefix (e2.out ++ headerBytes 0x60 (xs.length + 1) false))
      rw [← ht]; simp
    have hpl := padHeader_length k2 0x60 (n := xs.length + 1) (by omega) false
    have hal : (Enc.arrOut e2.out (x :: xs)).length = e2.out.length + hdrLen (xs.length + 1) + 2 + tail.length := by
      rw [harr, List.length_append, List.length_append, hpl]; rfl
    rw [Enc.finishedCollection_eq c _ (by simp only; omega) (by simp only; omega) (by simp only; omega)] at k8
    unfold Enc.done at k8
    injection k8 with k8
    injection k8 with k8 _
    refine ⟨Enc.arrOut e2.out (x :: xs) ++ rootBytes (hdrLen (xs.length + 1) + 2 + tail.length), ?_, ?_⟩
    · rw [hsave, ← k8]
      unfold Enc.finish Enc.closeEnc
      simp only
      have : (Enc.arrOut e2.out (x :: xs)).length - e2.out.length = hdrLen (xs.length + 1) + 2 + tail.length := by omega
      rw [this]
      rfl
    · intro m hm hbase
      unfold SharedKeys.fromStateBytes
      rw [zero_pointer_rejected' false (n := xs.length + 1) (by omega) (m := m) (by rw [hm]; exact hbase) (pre := e2.out) (tail := tail)
        hhdr k2 (by omega) (by simp only [Bool.false_eq_true, if_false]; omega) (by omega) (by rw [← hhdr, hm, harr])]

/-! Such a table: 909 names of 15 letters (18 bytes each), one of 14 (16), one of 2 (4). -/

/-- The digits of `n` in base 26, as `k` letters. -/
def digits26 : Nat → Nat → List UInt8
  | 0, _ => []
  | k + 1, n => UInt8.ofNat (0x61 + n % 26) :: digits26 k (n / 26)

theorem digits26_inj (k : Nat) : ∀ {a b : Nat}, a < 26 ^ k → b < 26 ^ k → digits26 k a = digits26 k b → a = b := by
  induction k with
  | zero => intro a b ha hb _; simp at ha hb; omega
  | succ k ih =>
    intro a b ha hb h
    simp only [digits26, List.cons.injEq] at h
    have h1 : (0x61 + a % 26) % 256 = (0x61 + b % 26) % 256 := congrArg UInt8.toNat h.1
    have h2 := ih (a := a / 26) (b := b / 26) (by rw [Nat.pow_succ] at ha; omega) (by rw [Nat.pow_succ] at hb; omega) h.2
    omega

theorem digits26_length (k n : Nat) : (digits26 k n).length = k := by
  induction k generalizing n with
  | zero => rfl
  | succ k ih => simp [digits26, ih]

theorem digits26_letter (k n : Nat) : ∀ b ∈ digits26 k n, 0x61 ≤ b.toNat ∧ b.toNat ≤ 0x7a := by
  induction k generalizing n with
  | zero => simp [digits26]
  | succ k ih =>
    intro b hb
    simp only [digits26, List.mem_cons] at hb
    rcases hb with rfl | hb
    · have : (UInt8.ofNat (0x61 + n % 26)).toNat = (0x61 + n % 26) % 256 := rfl
      omega
    · exact ih _ b hb

theorem letters_encode (U : CharTable) : ∀ k : List UInt8, (∀ b ∈ k, 0x61 ≤ b.toNat ∧ b.toNat ≤ 0x7a) →
    SharedKeys.canEncode U k = true := by
  intro k hk
  have : ∃ cs, utf8Decode? k = some cs ∧ cs.all U.keyChar = true := by
    induction k with
    | nil => exact ⟨[], rfl, rfl⟩
    | cons b k ih =>
      obtain ⟨cs, h1, h2⟩ := ih (fun x hx => hk x (by simp [hx]))
      obtain ⟨hb1, hb2⟩ := hk b (by simp)
      refine ⟨b.toNat :: cs, ?_, ?_⟩
      · unfold utf8Decode?
        rw [if_pos (by rw [UInt8.lt_iff_toNat_lt]; show b.toNat < 128; omega), h1]; rfl
      · simp only [List.all_cons, h2, Bool.and_true]
        unfold CharTable.keyChar
        simp only [Bool.or_eq_true, Bool.and_eq_true, decide_eq_true_eq]
        omega
  obtain ⟨cs, h1, h2⟩ := this
  unfold SharedKeys.canEncode
  rw [h1]; exact h2

/-- The `i`-th name. -/
def lostName (i : Nat) : List UInt8 := digits26 (if i < 909 then 15 else if i = 909 then 14 else 2) i

/-- The table. -/
def lostTable : SharedKeys := ⟨(List.range 911).map fun i => (lostName i, i)⟩

theorem lostTable_lost (U : CharTable) : lostTable.WF ∧ lostTable.Tidy U ∧
    (∀ k ∈ lostTable.entries.map (·.1), 2 ≤ k.length) ∧ stateSize (lostTable.entries.map (·.1)) = 16382 ∧
    hdrLen lostTable.entries.length = 2 := by
  have hlen : ∀ i, (lostName i).length = if i < 909 then 15 else if i = 909 then 14 else 2 := fun i => digits26_length _ _
  have hmap : lostTable.entries.map (·.1) = (List.range 911).map lostName := by simp [lostTable]
  have hlet : ∀ i, ∀ b ∈ lostName i, 0x61 ≤ b.toNat ∧ b.toNat ≤ 0x7a := fun i => digits26_letter _ _
  refine ⟨⟨?_, ?_, ?_⟩, ?_, ?_, ?_, ?_⟩
  · intro i k c h
    simp only [lostTable, List.getElem?_map] at h
    cases hr : (List.range 911)[i]? with
    | none => rw [hr] at h; cases h
    | some j =>
      rw [hr] at h
      cases h
      rw [List.getElem?_eq_some_iff] at hr
      obtain ⟨_, hr⟩ := hr
      rw [← hr, List.getElem_range]
  · simp [lostTable]
  · simp only [lostTable, List.pairwise_map]
    refine List.Pairwise.imp_of_mem ?_ List.nodup_range
    intro a b ha hb hne heq
    have hab := congrArg List.length heq
    rw [hlen, hlen] at hab
    rw [List.mem_range] at ha hb
    by_cases h1 : a < 909
    · by_cases h2 : b < 909
      · unfold lostName at heq
        rw [if_pos h1, if_pos h2] at heq
        exact hne (digits26_inj 15 (Nat.lt_of_lt_of_le h1 (by decide)) (Nat.lt_of_lt_of_le h2 (by decide)) heq)
      · rw [if_pos h1, if_neg h2] at hab; split at hab <;> omega
    · by_cases h2 : b < 909
      · rw [if_neg h1, if_pos h2] at hab; split at hab <;> omega
      · rw [if_neg h1, if_neg h2] at hab
        split at hab <;> split at hab <;> omega
  · intro e he
    simp only [lostTable, List.mem_map] at he
    obtain ⟨i, _, rfl⟩ := he
    refine ⟨?_, letters_encode U _ (hlet i)⟩
    refine SharedKeys.zstr_eq ?_ ?_
    · show (lostName i).length ≤ 15
      rw [hlen]; split <;> (try split) <;> omega
    · intro h0
      have := hlet i 0 h0
      revert this; decide
  · intro k hk
    rw [hmap] at hk
    obtain ⟨i, _, rfl⟩ := List.mem_map.mp hk
    rw [hlen]; split <;> (try split) <;> omega
  · rw [hmap]
    unfold stateSize
    rw [List.map_map]
    have : (fun k : List UInt8 => storedSize k.length) ∘ lostName = fun i => storedSize (if i < 909 then 15 else if i = 909 then 14 else 2) := by
      funext i; simp [hlen]
    rw [this]
    decide +kernel
  · have : lostTable.entries.length = 911 := by simp [lostTable]
    rw [this]; decide

example (U : CharTable) (c : Cfg) : ∃ out, lostTable.getStateBytes c = .ok out ∧
    ∀ m : Mem, m.data = out → m.base + out.length < 2 ^ 64 → SharedKeys.fromStateBytes m U = .ok none := by
  obtain ⟨h1, h2, h3, h4, h5⟩ := lostTable_lost U
  exact C29_refuted_width c U _ (.of_tidy h1 h2) h3 (by omega) (by omega)

/-! ## Loading any state -/

/-- What loading a list of names means: insert them in order into an empty table; one refused name (too long, a character that
is not allowed, table full) and there is no table. -/
def ofNames (U : CharTable) : List (List UInt8) → SharedKeys → Option SharedKeys
  | [], sk => some sk
  | k :: ks, sk => if (sk.encodeAndInsert U k).2 = none then none else ofNames U ks (sk.encodeAndInsert U k).1

theorem load_names {m : Mem} {F : FloatOps} {U : CharTable} {n : Nat} (names : List (List UInt8)) :
    ∀ {fuel : Nat} {it : Iter} {sk : SharedKeys}, collect m (readTree m F none n) fuel it = .ok (names.map .str) →
    Fleece.SharedKeys.loadLoop m U fuel it sk = .ok (ofNames U names sk) := by
  induction names with
  | nil =>
    intro fuel it sk h
    cases fuel with
    | zero => cases h
    | succ fuel =>
      unfold collect at h
      obtain ⟨⟨x, it'⟩, h1, h⟩ := bind_eq_ok.mp h
      cases x with
      | some x =>
        dsimp only at h
        obtain ⟨_, _, h⟩ := bind_eq_ok.mp h
        obtain ⟨_, _, h⟩ := bind_eq_ok.mp h
        cases h
      | none =>
        unfold SharedKeys.loadLoop
        rw [h1]
        rfl
  | cons k names ih =>
    intro fuel it sk h
    cases fuel with
    | zero => cases h
    | succ fuel =>
      unfold collect at h
      obtain ⟨⟨x, it'⟩, h1, h⟩ := bind_eq_ok.mp h
      cases x with
      | none => cases h
      | some x =>
        dsimp only at h
        obtain ⟨t, h2, h⟩ := bind_eq_ok.mp h
        obtain ⟨ts, h3, h⟩ := bind_eq_ok.mp h
        simp only [List.map_cons, pure_eq] at h
        cases h
        obtain ⟨g1, g2⟩ := readTree_str h2
        unfold SharedKeys.loadLoop
        rw [h1]
        simp only [ok_bind, g1, g2]
        rw [if_neg (by simp)]
        cases hx : sk.encodeAndInsert U k with
        | mk sk' r =>
          cases r with
          | none => simp [ofNames, hx]
          | some c =>
            simp only [ofNames, hx, reduceCtorEq, if_false]
            exact ih h3

/-- **C29, loading.** Whatever array of names a state holds, `from_state_value` inserts the names in order, and returns
`None` if one of them is refused. -/
theorem C29_load (m : Mem) (F : FloatOps) (U : CharTable) (v : Val) (n : Nat) (names : List (List UInt8))
    (h : readTree m F none n v = .ok (.arr (names.map .str))) :
    Fleece.SharedKeys.fromStateValue m U v = .ok (ofNames U names .new) := by
  cases n with
  | zero => cases h
  | succ n =>
  unfold readTree at h
  obtain ⟨ty, g1, h⟩ := bind_eq_ok.mp h
  cases ty <;> dsimp only at h
  case array =>
    obtain ⟨it, g2, h⟩ := bind_eq_ok.mp h
    obtain ⟨xs, g3, h⟩ := bind_eq_ok.mp h
    cases h
    unfold Fleece.SharedKeys.fromStateValue Val.asArray
    rw [g1]
    simp only [ok_bind, pure_eq, if_true, g2]
    exact load_names names g3
  all_goals first
    | (cases h; done)
    | (obtain ⟨_, _, h⟩ := bind_eq_ok.mp h; cases h; done)
    | (obtain ⟨_, _, h⟩ := bind_eq_ok.mp h; obtain ⟨_, _, h⟩ := bind_eq_ok.mp h; cases h)

/-- **C29, loading a state with a bad name.** A name of more than 16 bytes, or with a character that is not allowed, anywhere
in the state: `None`. -/
theorem C29_load_refused (m : Mem) (F : FloatOps) (U : CharTable) (v : Val) (n : Nat) (names : List (List UInt8))
    (h : readTree m F none n v = .ok (.arr (names.map .str)))
    (hbad : ∃ k ∈ names, 16 < k.length ∨ SharedKeys.canEncode U k = false) :
    Fleece.SharedKeys.fromStateValue m U v = .ok none := by
  rw [C29_load m F U v n names h]
  congr 1
  have : ∀ (names : List (List UInt8)) (sk : SharedKeys), (∃ k ∈ names, 16 < k.length ∨ SharedKeys.canEncode U k = false) →
      ofNames U names sk = none := by
    intro names
    induction names with
    | nil => rintro sk ⟨k, hk, -⟩; cases hk
    | cons k names ih =>
      rintro sk ⟨k', hk, hb⟩
      unfold ofNames
      split
      · rfl
      · next hne =>
        rcases List.mem_cons.mp hk with rfl | hk
        · refine absurd ((C27_refused U sk k').mpr ?_) hne
          rintro ⟨-, h1, h2⟩
          rcases hb with hb | hb
          · omega
          · rw [hb] at h2; cases h2
        · exact ih _ ⟨k', hk, hb⟩
  exact this _ _ hbad

/-- **C29, loading something that is not a state.** A value that is not an array, whatever it holds: `None`. -/
theorem C29_load_not_array (m : Mem) (F : FloatOps) (scope : Option SharedKeys) (U : CharTable) (v : Val) (n : Nat) (t : Tree)
    (h : readTree m F scope n v = .ok t) (ht : ∀ xs, t ≠ .arr xs) : Fleece.SharedKeys.fromStateValue m U v = .ok none := by
  cases n with
  | zero => cases h
  | succ n =>
  unfold readTree at h
  obtain ⟨ty, g1, h⟩ := bind_eq_ok.mp h
  have hty : ty ≠ .array := by
    rintro rfl
    dsimp only at h
    obtain ⟨it, g2, h⟩ := bind_eq_ok.mp h
    obtain ⟨xs, g3, h⟩ := bind_eq_ok.mp h
    cases h
    exact ht _ rfl
  unfold Fleece.SharedKeys.fromStateValue Val.asArray
  simp only [g1, ok_bind, pure_eq, if_neg hty]

set_option maxRecDepth 20000 in
/-- The dict `{"ab": 1}`: not a state. -/
example (F : FloatOps) : ∃ v, readTree ⟨[0x42, 0x61, 0x62, 0x00, 0x70, 0x01, 0x80, 0x03, 0x00, 0x01, 0x80, 0x03], 0, true⟩ F none 9 v =
    .ok (.dict [([0x61, 0x62], .int 1)]) :=
  ⟨⟨4, 6⟩, rfl⟩

set_option maxRecDepth 20000 in
/-- The array `["no!", "ok"]`: a state with a bad name. -/
example (F : FloatOps) (U : CharTable) : ∃ v, readTree ⟨[0x43, 0x6e, 0x6f, 0x21, 0x42, 0x6f, 0x6b, 0x00, 0x60, 0x02, 0x80, 0x05, 0x80, 0x04], 0, true⟩
    F none 9 v = .ok (.arr ([[0x6e, 0x6f, 0x21], [0x6f, 0x6b]].map .str)) ∧
    SharedKeys.canEncode U [0x6e, 0x6f, 0x21] = false :=
  ⟨⟨8, 6⟩, rfl, rfl⟩

end Fleece.Props
