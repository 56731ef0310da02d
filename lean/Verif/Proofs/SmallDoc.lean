import Verif.Proofs.Sim
import Verif.Spec.Doc

/-! # In small documents of plain values every collection fits its width -/

namespace Fleece
open Res

variable {P : List UInt8 → Prop}

/-- No slot is changed by being written in two bytes. -/
def Collection.Clean : Collection → Prop
  | .arr vs => ∀ v ∈ vs, v.type ≠ .pointer → v.b0.toNat < 64
  | .dict els nk => (∀ el ∈ els, (∀ s, el.key ≠ .inline s) ∧ (el.val.type ≠ .pointer → el.val.b0.toNat < 64)) ∧
      ∀ s, nk ≠ some (.inline s)

/-- Of all open collections. -/
def Enc.Clean (e : Enc) : Prop := ∀ coll ∈ e.stack, coll.Clean

theorem Collection.Clean.put {coll : Collection} (h : coll.Clean) {s : SizedValue}
    (hs : s.type ≠ .pointer → s.b0.toNat < 64) : (coll.put s).Clean := by
  cases coll with
  | arr vs =>
    intro v hv
    rcases List.mem_append.mp hv with hv | hv
    · exact h v hv
    · simp only [List.mem_singleton] at hv; subst hv; exact hs
  | dict els nk =>
    cases nk with
    | none => exact h
    | some k =>
      refine ⟨?_, by simp⟩
      intro el hel
      rcases List.mem_append.mp hel with hel | hel
      · exact h.1 el hel
      · simp only [List.mem_singleton] at hel; subst hel
        exact ⟨fun s hk => h.2 s (by rw [← hk]), hs⟩

theorem Enc.Clean.closeEnc {e : Enc} (h : e.Clean) {o : Nat} (ho : o ≤ SizedValue.maxWide) : (e.closeEnc o).Clean := by
  unfold Enc.closeEnc
  cases hs : e.stack with
  | nil => intro coll hm; simp only at hm; cases hm
  | cons coll rest =>
    intro coll' hm
    rcases List.mem_cons.mp hm with rfl | hm
    · exact (h coll (by rw [hs]; simp)).put fun hn => absurd (ptrSlot_spec ho).2.1 hn
    · exact h coll' (by rw [hs]; simp [hm])

theorem Enc.Clean.rest {e : Enc} (h : e.Clean) {coll : Collection} {rest : List Collection} (hs : e.stack = coll :: rest)
    {e' : Enc} (hs' : e'.stack = rest) : e'.Clean := fun x hx => h x (by rw [hs]; rw [hs'] at hx; simp [hx])

theorem arrFits_small {e : Enc} {vs : List SizedValue} {rest : List Collection} (hs : e.stack = .arr vs :: rest)
    (hc : e.Clean) (hphi : e.phi ≤ SizedValue.maxNarrow) : ArrFits e.out vs := by
  have hmn : SizedValue.maxNarrow < 2 ^ 14 := by decide
  intro _ i v hv
  have hp := Enc.phi_cons hs
  simp only [Collection.cost] at hp
  have hi : i < vs.length := (List.getElem?_eq_some_iff.mp hv).1
  have hh := hdrLen_le (n := vs.length) (by omega)
  exact ⟨fun hn => hc (.arr vs) (by rw [hs]; simp) v (List.mem_of_getElem? hv) hn, fun _ => by omega⟩

theorem dictFits_small {c : Cfg} {e : Enc} {els : List DictElem} {nk : Option DictKey} {rest : List Collection}
    (hs : e.stack = .dict els nk :: rest) (hc : e.Clean) (hphi : e.phi ≤ SizedValue.maxNarrow) (w : Bool) :
    DictFits e.out w (c.sort.run els) := by
  have hmn : SizedValue.maxNarrow < 2 ^ 14 := by decide
  intro _ i el hel
  have hp := Enc.phi_cons hs
  simp only [Collection.cost] at hp
  have hlen := (c.sort.perm els).length_eq
  have hi : i < (c.sort.run els).length := (List.getElem?_eq_some_iff.mp hel).1
  have hh := hdrLen_le (n := (c.sort.run els).length) (by omega)
  have hmem : el ∈ els := (c.sort.perm els).mem_iff.mp (List.mem_of_getElem? hel)
  obtain ⟨h1, h2⟩ := (hc (.dict els nk) (by rw [hs]; simp)).1 el hmem
  refine ⟨?_, fun hn => h2 hn, fun _ => by omega⟩
  cases hk : el.key with
  | inline s => exact absurd hk (h1 s)
  | shared c => trivial
  | pointer k off => show _ - off ≤ _; omega

/-- One call in a small document. -/
theorem plain_step {c : Cfg} {F : FloatOps} {e e' : Enc} {b : Build} {op : Op} {r : Except EncodeError Unit} (hw : e.WF)
    (hphi : e.phi ≤ SizedValue.maxNarrow) (ho : op.weight < 2 ^ 64) (hb : Shape e b) (hc : e.Clean)
    (hp : op.Plain e.sk.isSome) (h1 : op = .endArray → ∀ kvs rest, b.stack ≠ .dict kvs none :: rest)
    (h2 : (∃ k, op = .key k) → b.root = none) (h : e.step c op = .ok (e', r)) : StepOK c e op ∧ e'.Clean := by
  have hmn : SizedValue.maxNarrow ≤ SizedValue.maxWide := by decide
  have hout := e.phi_out
  have hwait : op = .endArray → e.waitingForKey = false := by
    intro ho
    cases hk : e.waitingForKey with
    | false => rfl
    | true =>
      obtain ⟨kvs, rest, hk⟩ := hb.waiting hk
      exact absurd hk (h1 ho kvs rest)
  have ht := Enc.step_trans hw (by omega) ho h
  constructor
  · cases op with
    | beginArray n => trivial
    | beginDict => trivial
    | key k =>
      refine ⟨?_, hp.2⟩
      rw [hb.closed, h2 ⟨k, rfl⟩]; rfl
    | value x => exact hp.1
    | endArray => exact ⟨hwait rfl, fun vs rest hs => arrFits_small hs hc hphi⟩
    | endDict => exact fun els rest hs => dictFits_small hs hc hphi _
  · cases ht with
    | reject hx heven hl hsk hwf _ => exact hc
    | discard hs => exact hc.rest hs rfl
    | openArr hcl hk =>
      intro coll hm
      rcases List.mem_cons.mp hm with rfl | hm
      · intro v hv; cases hv
      · exact hc coll hm
    | openDict hcl hk =>
      intro coll hm
      rcases List.mem_cons.mp hm with rfl | hm
      · exact ⟨fun v hv => (by cases hv), by simp⟩
      · exact hc coll hm
    | @key k dk tail sk' els rest hs hk =>
      intro coll hm
      rcases List.mem_cons.mp hm with rfl | hm
      · refine ⟨(hc (.dict els none) (by rw [hs]; simp)).1, ?_⟩
        intro s hs
        cases hs
        cases hk with
        | inline hin =>
          have := dataSized_none (k := k.bytes) (tag := 0x40)
          rw [this.mpr hp.1] at hin; cases hin
      · exact hc coll (by rw [hs]; simp [hm])
    | @value x s tail coll rest hs hcd hv =>
      intro coll' hm
      rcases List.mem_cons.mp hm with rfl | hm
      · refine (hc coll (by rw [hs]; simp)).put fun hn => ?_
        cases hv with
        | inline hin => exact (Scalar.toSized_ok (F := F) hp.1 hin).2 hp.2
        | pointer h hb hl ht => exact absurd (ptrSlot_spec (off := e.out.length) (by omega)).2.1 hn
      · exact hc coll' (by rw [hs]; simp [hm])
    | endArr hs => exact Enc.Clean.closeEnc (hc.rest hs rfl) (by omega)
    | endDict hs => exact Enc.Clean.closeEnc (hc.rest hs rfl) (by omega)

theorem Trans.sk_isSome {c : Cfg} {e e' : Enc} {op : Op} {r : Except EncodeError Unit} (hw : e.WF) (ho : op.weight < 2 ^ 64)
    (h : Trans c e op e' r) : SkLe e.sk e'.sk := by
  cases h with
  | reject hx heven hl hsk hwf _ => exact hsk
  | discard hs => exact .refl _
  | openArr hcl hk => exact .refl _
  | openDict hcl hk => exact .refl _
  | key hs hk => exact (hk.facts hw (by simp only [Op.weight] at ho; omega)).2.2.2.1
  | value hs hcd hv => exact .refl _
  | endArr hs => rw [Enc.closeEnc_sk]; exact .refl _
  | endDict hs => rw [Enc.closeEnc_sk]; exact .refl _

theorem SkLe.isSome {a b : Option SharedKeys} (h : SkLe a b) : b.isSome = a.isSome := by
  cases a <;> cases b <;> first | rfl | cases h

theorem plain_run {c : Cfg} {F : FloatOps} (ops : List Op) : ∀ {e e' : Enc} {b : Build} {rs : List (Except EncodeError Unit)},
    e.WF → e.phi + Op.total ops ≤ SizedValue.maxNarrow → Shape e b → e.Clean → (∀ op ∈ ops, op.Plain e.sk.isSome) →
    Orderly F b ops → e.run c ops = .ok (e', rs) → RunOK c e ops ∧ e'.Clean := by
  have hmn : SizedValue.maxNarrow ≤ SizedValue.maxWide := by decide
  have hmw : SizedValue.maxWide < 2 ^ 32 := by decide
  induction ops with
  | nil => intro e e' b rs _ _ _ hc _ _ h; cases h; exact ⟨trivial, hc⟩
  | cons op ops ih =>
    intro e e' b rs hw hp hb hc hpl hor h
    rw [Op.total_cons] at hp
    obtain ⟨e1, r, rs', h1, h2, rfl⟩ := Enc.run_cons h
    have ht := Enc.step_trans hw (by omega) (by omega) h1
    obtain ⟨hw1, hp1⟩ := ht.inv hw (by omega) (by omega)
    obtain ⟨hor1, hor2, hor3⟩ := hor
    obtain ⟨hok, hc1⟩ := plain_step (F := F) hw (by omega) (by omega) hb hc (hpl op (by simp)) hor1 hor2 h1
    have hshape := (ht.shape hw F hb).2 (by
      rintro ⟨ho, hk⟩
      obtain ⟨kvs, rest, hk⟩ := hb.waiting hk
      exact hor1 ho kvs rest hk)
    have hsk := (ht.sk_isSome hw (by omega)).isSome
    obtain ⟨hrun, hc'⟩ := ih hw1 (by omega) hshape hc1
      (fun op hop => by rw [hsk]; exact hpl op (List.mem_cons_of_mem _ hop)) hor3 h2
    refine ⟨⟨hok, fun e2 r2 he2 => ?_⟩, hc'⟩
    rw [h1] at he2; cases he2
    exact hrun

theorem closeTop_clean {c : Cfg} {e : Enc} (hc : e.Clean) (hphi : e.phi ≤ SizedValue.maxNarrow) : (e.closeTop c).Clean := by
  have hmn : SizedValue.maxNarrow ≤ SizedValue.maxWide := by decide
  have hout := e.phi_out
  unfold Enc.closeTop
  cases hs : e.stack with
  | nil => exact hc
  | cons coll rest =>
    cases coll with
    | arr vs => exact Enc.Clean.closeEnc (hc.rest hs rfl) (by omega)
    | dict els nk => exact Enc.Clean.closeEnc (hc.rest hs rfl) (by omega)

theorem clean_finish {c : Cfg} (n : Nat) : ∀ {e : Enc}, e.WF → e.Clean → e.phi ≤ SizedValue.maxNarrow → FinishOK c n e := by
  have hmn : SizedValue.maxNarrow ≤ SizedValue.maxWide := by decide
  induction n with
  | zero => intros; trivial
  | succ n ih =>
    intro e hw hc hphi
    obtain ⟨h1, h2, _⟩ := Enc.closeTop_inv (c := c) hw (by omega)
    exact ⟨⟨fun vs rest hs => arrFits_small hs hc hphi, fun els nk rest hs => dictFits_small hs hc hphi _⟩,
      ih h1 (closeTop_clean hc hphi) (by omega)⟩

/-! ## From the simulation to decoding -/

theorem Sim.decodes {c : Cfg} {F : FloatOps} {e : Enc} {b : Build} (hw : e.WF) (hn : e.Nested)
    (hphi : e.phi ≤ SizedValue.maxWide) (hs : Sim F P e b) (hok : FinishOK c e.stack.length e) {t : Tree}
    (ht : b.finish = some t) {scope : Option SharedKeys} (hsc : ScopeLe e.sk scope) :
    ∃ out, e.finish c = .ok out ∧ Decodes F scope out t := by
  obtain ⟨out, pre, p, en, t', h1, h2, h3, h4, h5, h6, h7⟩ := hs.finish hw hn hphi hok ht
  refine ⟨out, h1, fun m hm hbase => ?_⟩
  have hle := h4.le
  obtain ⟨g1, _, g3⟩ := Rep.document (m := m) (by rw [hm]; exact hbase) (h4.mono (List.prefix_refl _) hsc)
    (by rw [hm]; exact h3) h5 h6 h7
  refine ⟨_, t', g1, h2, fun fuel hf => g3.read fuel ?_⟩
  have : pre.length ≤ out.length := by rw [h3]; simp
  omega

end Fleece
