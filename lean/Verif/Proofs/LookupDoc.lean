import Verif.Proofs.Lookup
import Verif.Proofs.SmallDoc

/-! # Lookup in encoded documents -/

namespace Fleece
open Res

variable {P : List UInt8 → Prop}

theorem Sim.shows {c : Cfg} {F : FloatOps} {e : Enc} {b : Build} (hw : e.WF) (hn : e.Nested)
    (hphi : e.phi ≤ SizedValue.maxWide) (hs : Sim F P e b) (hok : FinishOK c e.stack.length e) {t : Tree}
    (ht : b.finish = some t) {scope : Option SharedKeys} (hsc : ScopeLe e.sk scope)
    (hc : ∀ sk, scope = some sk → Canon P sk) :
    ∃ out, e.finish c = .ok out ∧ Shows F scope (Probe scope) out t := by
  obtain ⟨out, pre, p, en, t', h1, h2, h3, h4, h5, h6, h7⟩ := hs.finish hw hn hphi hok ht
  refine ⟨out, h1, fun m hm hbase => ?_⟩
  have hle := h4.le
  have hlen : pre.length ≤ out.length := by rw [h3]; simp
  obtain ⟨g1, g2, _⟩ := Rep.document (m := m) (by rw [hm]; exact hbase) (h4.mono (List.prefix_refl _) hsc)
    (by rw [hm]; exact h3) h5 h6 h7
  have hmat := g2.matches (by rw [hm]; exact hbase) hc
  dsimp only at hmat
  exact ⟨_, t', g1, h2, hmat ⟨p, pre.length - p⟩ rfl (by unfold Val.In; simp only; rw [hm]; omega) (by simp only; omega)⟩

/-! ## Shared keys -/

/-- Tables whose entries are unchanged by `zstr` and of the kind `can_encode` accepts. -/
def SharedKeys.Tidy (U : CharTable) (sk : SharedKeys) : Prop :=
  ∀ e ∈ sk.entries, zstr e.1 = e.1 ∧ SharedKeys.canEncode U e.1 = true

theorem SharedKeys.new_tidy (U : CharTable) : SharedKeys.new.Tidy U := by intro e he; cases he

theorem SharedKeys.Tidy.insert {U : CharTable} {sk : SharedKeys} (h : sk.Tidy U) {key : List UInt8}
    (h16 : key.length ≠ 16) : (sk.encodeAndInsert U key).1.Tidy U := by
  unfold SharedKeys.encodeAndInsert
  split
  · exact h
  · next hca =>
    have hca : sk.canAdd U key = true := by simpa using hca
    unfold SharedKeys.canAdd at hca
    simp only [Bool.and_eq_true, decide_eq_true_eq] at hca
    obtain ⟨⟨_, hlen⟩, hce⟩ := hca
    have hmk : SharedKeys.maxKeyLen = 16 := rfl
    have hz := SharedKeys.zstr_eq (key := key) (by omega) (SharedKeys.canEncode_no_nul hce)
    dsimp only
    split
    · exact h
    · intro e he
      rcases List.mem_append.mp he with he | he
      · exact h e he
      · simp only [List.mem_singleton] at he
        subst he
        rw [hz]
        exact ⟨hz, hce⟩

/-- The texts `zstr` does not turn into something that could be in a table. -/
def Sound (U : CharTable) (k : List UInt8) : Prop := zstr k = k ∨ SharedKeys.canEncode U (zstr k) = false

theorem SharedKeys.Tidy.encode_none {U : CharTable} {sk : SharedKeys} (h : sk.Tidy U) {k : List UInt8}
    (hk : SharedKeys.canEncode U (zstr k) = false) : sk.encode k = none := by
  unfold SharedKeys.encode
  rw [SharedKeys.lookup_none]
  intro e he heq
  have := (h e he).2
  rw [heq, hk] at this
  cases this

theorem Sound.probe {U : CharTable} {sk : SharedKeys} (h : sk.Tidy U) {k : List UInt8} (hk : Sound U k) :
    Probe (some sk) k := by
  intro sk' heq
  cases heq
  rcases hk with hk | hk
  · exact .inl hk
  · exact .inr (h.encode_none hk)

/-- A key that is not given a code by a table with room is not in any later table. -/
theorem KeptAsString.unknown {c : Cfg} {e : Enc} {k : List UInt8} {sk sk' : SharedKeys} (hsk : e.sk = some sk) (hw : sk.WF)
    (hroom : sk.entries.length < 2048) (h2 : 2 ≤ k.length) (hk : Sound c.chars k) (h : KeptAsString c e k)
    (ht : sk'.Tidy c.chars) : sk'.encode k = none := by
  rcases h with h | h | ⟨sk1, h, h3⟩
  · omega
  · rw [hsk] at h; cases h
  · rw [hsk] at h; cases h
    rcases hk with hz | hce
    · apply ht.encode_none
      have hl : k.length ≤ 15 := by
        rw [← hz]; unfold zstr
        refine Nat.le_trans (List.IsPrefix.length_le (List.takeWhile_prefix _)) ?_
        simp only [List.length_take]; omega
      rw [hz]
      unfold SharedKeys.encodeAndInsert at h3
      split at h3
      · next hca =>
        have h1 : sk.len < SharedKeys.maxKeys := by rw [hw.len]; exact hroom
        have h2 : k.length ≤ SharedKeys.maxKeyLen := Nat.le_trans hl (by decide)
        unfold SharedKeys.canAdd at hca
        simpa [h1, h2] using hca
      · dsimp only at h3
        split at h3 <;> cases h3
    · exact ht.encode_none hce

/-- The kind of keys for which shared keys work. -/
def Op.GoodKey (U : CharTable) : Op → Prop
  | .key k => 2 ≤ k.bytes.length ∧ k.bytes.length ≠ 16 ∧ Sound U k.bytes
  | _ => True

theorem Trans.tidy {c : Cfg} {e e' : Enc} {op : Op} {r : Except EncodeError Unit} (h : Trans c e op e' r)
    (hop : op.GoodKey c.chars) (ht : ∀ sk, e.sk = some sk → sk.Tidy c.chars) : ∀ sk, e'.sk = some sk → sk.Tidy c.chars := by
  intro sk hsk
  rcases h.skStep with heq | ⟨k, sk0, rfl, h1, h2⟩
  · exact ht sk (by rw [← heq]; exact hsk)
  · rw [h2] at hsk; cases hsk
    exact (ht sk0 h1).insert hop.2.1

theorem run_tidy {c : Cfg} (ops : List Op) : ∀ {e e' : Enc} {rs : List (Except EncodeError Unit)}, e.WF →
    e.phi + Op.total ops ≤ SizedValue.maxWide → (∀ op ∈ ops, op.GoodKey c.chars) →
    (∀ sk, e.sk = some sk → sk.Tidy c.chars) → e.run c ops = .ok (e', rs) → ∀ sk, e'.sk = some sk → sk.Tidy c.chars := by
  have hmw : SizedValue.maxWide < 2 ^ 32 := by decide
  induction ops with
  | nil => intro e e' rs _ _ _ ht h; cases h; exact ht
  | cons op ops ih =>
    intro e e' rs hw hp hg ht h
    rw [Op.total_cons] at hp
    obtain ⟨e1, r, rs', h1, h2, rfl⟩ := Enc.run_cons h
    have htr := Enc.step_trans hw (by omega) (by omega) h1
    obtain ⟨hw1, hp1⟩ := htr.inv hw (by omega) (by omega)
    exact ih hw1 (by omega) (fun o ho => hg o (List.mem_cons_of_mem _ ho)) (htr.tidy (hg op (by simp)) ht) h2

theorem run_keys {c : Cfg} {sk' : SharedKeys} (ht : sk'.Tidy c.chars) (ops : List Op) :
    ∀ {e e' : Enc} {rs : List (Except EncodeError Unit)} {last : SharedKeys}, e.WF →
    e.phi + Op.total ops ≤ SizedValue.maxWide → (∀ op ∈ ops, op.GoodKey c.chars) → e.run c ops = .ok (e', rs) →
    e'.sk = some last → last.entries.length < 2048 → RunKeys c (fun s => sk'.encode s = none) e ops := by
  have hmw : SizedValue.maxWide < 2 ^ 32 := by decide
  induction ops with
  | nil => intros; trivial
  | cons op ops ih =>
    intro e e' rs last hw hp hg h hl hroom
    rw [Op.total_cons] at hp
    obtain ⟨e1, r, rs', h1, h2, rfl⟩ := Enc.run_cons h
    have htr := Enc.step_trans hw (by omega) (by omega) h1
    obtain ⟨hw1, hp1⟩ := htr.inv hw (by omega) (by omega)
    refine ⟨?_, ?_⟩
    · intro k hop hkept
      have hgk := hg op (by simp)
      subst hop
      obtain ⟨_, hle1⟩ := htr.grows hw (by omega)
      obtain ⟨_, _, _, hle2⟩ := Enc.run_inv ops hw1 (by omega) h2
      have hle := hle1.trans hle2
      rw [hl] at hle
      cases hsk : e.sk with
      | none => rw [hsk] at hle; exact hle.elim
      | some sk =>
        rw [hsk] at hle
        have : sk.entries.length ≤ last.entries.length := List.IsPrefix.length_le hle
        exact hkept.unknown hsk (hw.sk sk hsk) (by omega) hgk.1 hgk.2.2 ht
    · intro e2 r2 hstep
      rw [h1] at hstep; cases hstep
      exact ih hw1 (by omega) (fun o ho => hg o (List.mem_cons_of_mem _ ho)) h2 hl hroom

end Fleece
