import Verif.Props.C77
import Verif.Props.C20Large

/-!
# C77, documents up to 1 GiB

As in Props/C20Large.lean, the condition is on the document alone: it is roomy even if all its keys were shared.
-/

namespace Fleece.Props
open Fleece Res

/-! ## Less is known to be written if keys may be shared -/

theorem keyLow_true (sh : Bool) (k : List UInt8) : keyLow true k ≤ keyLow sh k := by simp [keyLow]

mutual
theorem low_true (sh : Bool) : ∀ t : Tree, t.low true ≤ t.low sh
  | .arr xs => by have := lows_true sh xs; simp only [Tree.low]; omega
  | .dict kvs => by have := entryLows_true sh kvs; simp only [Tree.low]; omega
  | .null | .undefined | .bool _ | .int _ | .float _ | .str _ | .data _ => by simp [Tree.low]

theorem lows_true (sh : Bool) : ∀ xs : List Tree, Tree.lows true xs ≤ Tree.lows sh xs
  | [] => Nat.le_refl _
  | x :: xs => by have := low_true sh x; have := lows_true sh xs; simp only [Tree.lows]; omega

theorem entryLows_true (sh : Bool) : ∀ kvs : List (List UInt8 × Tree), Tree.entryLows true kvs ≤ Tree.entryLows sh kvs
  | [] => Nat.le_refl _
  | (k, x) :: kvs => by
    have := low_true sh x; have := entryLows_true sh kvs; have := keyLow_true sh k; simp only [Tree.entryLows]; omega
end

theorem rear_true (sh : Bool) (t : Tree) : t.rear true ≤ t.rear sh := by
  have := low_true sh t
  cases t <;> simp only [Tree.rear] <;> first | exact Nat.le_refl _ | exact this

/-- A document that is roomy if its keys may be shared is roomy. -/
theorem roomy_weaken (sh : Bool) {t : Tree} (h : t.Roomy true) : t.Roomy sh := by
  induction h with
  | leaf na nd => exact .leaf na nd
  | arr width _ ih =>
    refine .arr (width.imp ?_ id) ih
    rintro ⟨i, x, h1, h2, h3⟩
    have := rear_true sh x
    have := lows_true sh (List.drop (i + 1) ‹List Tree›)
    exact ⟨i, x, h1, h2, by omega⟩
  | dict width _ ih =>
    refine .dict (width.imp ?_ id) ih
    rintro (⟨i, x, h1, h2, h3⟩ | ⟨h, _⟩)
    · have := rear_true sh x.2
      have := entryLows_true sh (List.drop (i + 1) ‹List (List UInt8 × Tree)›)
      exact .inl ⟨i, x, h1, h2, by omega⟩
    · cases h

theorem build_roomy_weaken (sh : Bool) {b : Build} (h : b.Roomy true) : b.Roomy sh := by
  refine ⟨fun f hf => ?_, fun t ht => roomy_weaken sh (h.root t ht)⟩
  have := h.frames f hf
  cases f with
  | arr xs => exact fun x hx => roomy_weaken sh (this x hx)
  | dict kvs q => exact fun e he => roomy_weaken sh (this e he)

theorem Sound.weaken {op : Op} (b : Bool) (h : op.Sound true) : op.Sound b := by
  cases op with
  | key k => exact ⟨h.1, fun _ => h.2 rfl⟩
  | value x => exact h
  | beginArray n => exact h
  | _ => trivial

theorem slotLaid_true {sh : Bool} {s n a a' : Nat} {v : SizedValue} {x : Tree} (h : SlotLaid sh s n a v x) (ha : a' ≤ a) :
    SlotLaid true s n a' v x := by
  refine ⟨h.1, fun hx => ⟨(h.2.1 hx).1, ?_⟩, h.2.2⟩
  have := (h.2.1 hx).2
  have := rear_true sh x
  omega

theorem keyLaid_true {sh : Bool} {lo lo' : Nat} {dk : DictKey} {k : List UInt8} (h : KeyLaid sh lo dk k) (hl : lo' ≤ lo) :
    KeyLaid true lo' dk k := by
  cases dk with
  | inline _ => exact h
  | shared _ => rfl
  | pointer _ off => exact Nat.le_trans hl h

theorem pendingLow_true (sh : Bool) (q : Option (List UInt8)) : pendingLow true q ≤ pendingLow sh q := by
  cases q with
  | none => exact Nat.le_refl _
  | some k => exact keyLow_true sh k

theorem laidStack_true {sh : Bool} (cs : List Collection) : ∀ {n : Nat} {fs : List Frame}, LaidStack sh n cs fs →
    LaidStack true n cs fs := by
  induction cs with
  | nil => intro n fs h; cases fs <;> exact h
  | cons c cs ih =>
    intro n fs h
    cases fs with
    | nil => exact h
    | cons f fs =>
      obtain ⟨s, h1, h2⟩ := h
      refine ⟨s, ?_, ih h2⟩
      cases c with
      | arr vs =>
        cases f with
        | dict _ _ => exact h1
        | arr xs =>
          obtain ⟨g1, g2, g3, g4⟩ := h1
          have := lows_true sh xs
          exact ⟨by omega, g2, g3, fun i v x hv hx => slotLaid_true (g4 i v x hv hx) (lows_true sh _)⟩
      | dict els nk =>
        cases f with
        | arr _ => exact h1
        | dict kvs q =>
          obtain ⟨g1, g2, g3, g4, g5⟩ := h1
          have := entryLows_true sh kvs
          have hq := pendingLow_true sh q
          refine ⟨by omega, g2, g3, fun i el e hel he => ?_, fun dk k hdk hk => keyLaid_true (g5 dk k hdk hk) (by omega)⟩
          have := entryLows_true sh (kvs.take i)
          have := entryLows_true sh (kvs.drop (i + 1))
          exact ⟨keyLaid_true (g4 i el e hel he).1 (by omega), slotLaid_true (g4 i el e hel he).2 (by omega)⟩

/-! ## The calls -/

/-- One call keeps everything the proof is about. -/
theorem acts_large (c : Cfg) (F : FloatOps) {P : List UInt8 → Prop} (as : List Act) : ∀ {e e' : Enc} {b : Build} {rs : List (Except EncodeError Unit)},
    e.WF → e.Nested → e.phi + Op.total (calls as) ≤ SizedValue.maxWide → Sim F P e b → b.Ordered →
    LaidStack e.sk.isSome e.out.length e.stack b.stack → (∀ op ∈ calls as, op.Sound true) → AllOk F b (calls as) →
    (Build.run F b (calls as)).1.Roomy true → Growing c e as → ActsKeys c P e as → e.acts c as = .ok (e', rs) →
    Sim F P e' (b.run F (calls as)).1 ∧ e'.WF ∧ e'.Nested ∧ e'.phi ≤ SizedValue.maxWide ∧
      LaidStack e'.sk.isSome e'.out.length e'.stack (b.run F (calls as)).1.stack ∧ rs = (b.run F (calls as)).2 := by
  have hmw : SizedValue.maxWide < 2 ^ 32 := by decide
  induction as with
  | nil =>
    intro e e' b rs hw hn hp hs _ hl _ _ _ _ _ h
    cases h
    exact ⟨hs, hw, hn, by simpa [calls, Op.total] using hp, hl, rfl⟩
  | cons a as ih =>
    intro e e' b rs hw hn hp hs ho hl hpl hall hr hg hk h
    cases a with
    | keys sk =>
      obtain ⟨g1, g2, g3⟩ := hg
      exact ih (e := e.setSharedKeys sk) (set_wf hw g1) hn hp (set_sim hs (scopeLe_of g2)) ho (laidStack_true _ hl) hpl hall hr g3 hk h
    | call op =>
      simp only [calls] at hp hpl hall hr ⊢
      rw [Op.total_cons] at hp
      unfold Enc.acts at h
      obtain ⟨⟨e1, r⟩, h1, h⟩ := bind_eq_ok.mp h
      obtain ⟨⟨e2, rs'⟩, h2, h⟩ := bind_eq_ok.mp h
      cases h
      have ht := Enc.step_trans hw (by omega) (by omega) h1
      obtain ⟨hw1, hp1⟩ := ht.inv hw (by omega) (by omega)
      have hnext : ∃ b', b.step F op = .ok b' := by
        have := hall (b.next F op).2 (by simp [Build.run])
        unfold Build.next at this
        cases hst : b.step F op with
        | ok b' => exact ⟨b', rfl⟩
        | error x => rw [hst] at this; cases this
      obtain ⟨b', hst⟩ := hnext
      have hnx : b.next F op = (b', .ok ()) := by unfold Build.next; rw [hst]
      have hall' : AllOk F b' (calls as) := fun r hr => hall r (by simp only [Build.run, hnx]; exact List.mem_cons_of_mem _ hr)
      have hrr := (ht.shape hw F hs.shape).1
      simp only [Build.run, hnx] at hr hrr ⊢
      obtain ⟨ho', _⟩ := Build.step_back e.sk.isSome ho hst
      have hr' := (Build.run_back true (F := F) (calls as) ho').2 hr
      obtain ⟨hok, hl'⟩ := roomy_step hw (by omega) (by omega) hs.shape ho hl (Sound.weaken _ (hpl op (by simp))) hst
        (build_roomy_weaken _ hr') h1
      have hs1 := Sim.step hw hn (by omega) (by omega) hs hok hk.1 h1
      rw [hnx] at hs1
      have hsk := (ht.sk_isSome hw (by omega)).isSome
      obtain ⟨i1, i2, i3, i4, i5, i6⟩ := ih hw1 (ht.nested hn) (by omega) hs1 ho' (by rw [hsk]; exact hl')
        (fun op hop => hpl op (List.mem_cons_of_mem _ hop)) hall' hr (hg _ _ h1) (hk.2 _ _ h1) h2
      refine ⟨i1, i2, i3, i4, i5, ?_⟩
      rw [i6, hrr]

/-- What the calls leave, of a document that is roomy even if all its keys were shared. -/
theorem large_end (c : Cfg) (F : FloatOps) {P : List UInt8 → Prop} (sk : Option SharedKeys) (hsk : ∀ s, sk = some s → s.WF)
    (as : List Act) (hsize : Op.total (calls as) ≤ SizedValue.maxWide) (hsound : ∀ op ∈ calls as, op.Sound true)
    (hall : AllOk F {} (calls as))
    (hdang : ∀ kvs k rest, (Build.run F {} (calls as)).1.stack ≠ .dict kvs (some k) :: rest)
    (hg : Growing c { Enc.new with sk } as) (hk : ActsKeys c P { Enc.new with sk } as) (t : Tree)
    (ht : (Build.run F {} (calls as)).1.finish = some t) (hroom : t.Roomy true) (e : Enc)
    (rs : List (Except EncodeError Unit)) (h : ({ Enc.new with sk } : Enc).acts c as = .ok (e, rs)) :
    Sim F P e (Build.run F {} (calls as)).1 ∧ e.WF ∧ e.Nested ∧ e.phi ≤ SizedValue.maxWide ∧
      FinishOK c e.stack.length e ∧ rs = (Build.run F {} (calls as)).2 := by
  have hphi := newWith_phi sk
  have ho : (Build.run F {} (calls as)).1.Ordered := (Build.run_back true _ ordered_new).1
  have hfin : ((Build.run F {} (calls as)).1.closeN (Build.run F {} (calls as)).1.stack.length).Roomy true := by
    constructor
    · intro f hf
      have := closeN_stack (Build.run F {} (calls as)).1.stack.length (Build.run F {} (calls as)).1
      rw [Nat.sub_self] at this
      rw [List.length_eq_zero_iff.mp this] at hf; cases hf
    · intro t' ht'
      unfold Build.finish at ht
      rw [Build.finishGo_eq, ht'] at ht; cases ht
      exact hroom
  have hr := Build.closeN_back true _ ho hdang hfin
  obtain ⟨h1, h2, h3, h4, h5, h6⟩ := acts_large c F as (newWith_wf hsk) (newWith_nested sk) (by omega) (Sim.new F sk)
    ordered_new trivial hsound hall hr hg hk h
  refine ⟨h1, h2, h3, h4, roomy_finish _ h2 h4 h1.shape ho hdang h5 ?_, h6⟩
  rw [h1.shape.length]; exact build_roomy_weaken _ hfin

/-- **C77, documents up to 1 GiB, if each table goes on from the one in use.** Every sequence of calls, all documented to
succeed, with scalars and keys this version can write, that build a document that is roomy (Spec/Layout.lean) even if all its
keys were shared: the encoder accepts all calls, with the tables given anywhere between them, `finish` returns, and its bytes
decode to the document under the encoder's last table, or any that goes on from it. Missing from the full claim: the other
tables, for which it is false; documents that are not roomy. -/
theorem C77_large_partial (c : Cfg) (F : FloatOps) (sk : Option SharedKeys) (hsk : ∀ s, sk = some s → s.WF) (as : List Act)
    (hsize : Op.total (calls as) ≤ SizedValue.maxWide) (hsound : ∀ op ∈ calls as, op.Sound true)
    (htables : ∀ s, Act.keys s ∈ as → s.WF) (hall : AllOk F {} (calls as))
    (hdang : ∀ kvs k rest, (Build.run F {} (calls as)).1.stack ≠ .dict kvs (some k) :: rest)
    (hg : Growing c { Enc.new with sk } as) (t : Tree) (ht : (Build.run F {} (calls as)).1.finish = some t)
    (hroom : t.Roomy true) :
    ∃ e rs out, ({ Enc.new with sk } : Enc).acts c as = .ok (e, rs) ∧ (∀ r ∈ rs, r = .ok ()) ∧ e.finish c = .ok out ∧
      ∀ scope, ScopeLe e.sk scope → Decodes F scope out t := by
  have hphi := newWith_phi sk
  obtain ⟨e, rs, h⟩ := acts_ok c as (newWith_wf hsk) (by omega) (fun op hop => sound_accepted (hsound op hop)) htables
  obtain ⟨h1, h2, h3, h4, hf, h6⟩ := large_end c F sk hsk as hsize hsound hall hdang hg (.trivial c as _) t ht hroom e rs h
  obtain ⟨out, g1, _⟩ := h1.decodes h2 h3 h4 hf ht (.refl _)
  refine ⟨e, rs, out, h, by rw [h6]; exact hall, g1, fun scope hsc => ?_⟩
  obtain ⟨out', g1', g2⟩ := h1.decodes h2 h3 h4 hf ht hsc
  rw [g1] at g1'; cases g1'
  exact g2

/-! ## A large document -/

/-- `"ab"` many times, not yet closed. -/
def manyOps (n : Nat) : List Op := .beginArray 0 :: List.replicate n (.value (.str sab))

/-- A dict at the end, for which there are shared keys. -/
def tailOps : List Op := [.beginDict, .key saa, .value .null, .endDict, .endArray]

theorem run_many (F : FloatOps) (n : Nat) (ops : List Op) : ∀ xs : List Tree,
    Build.run F { stack := [.arr xs] } (List.replicate n (.value (.str sab)) ++ ops) =
      ((Build.run F { stack := [.arr (xs ++ List.replicate n (.str [0x61, 0x62]))] } ops).1,
        List.replicate n (.ok ()) ++ (Build.run F { stack := [.arr (xs ++ List.replicate n (.str [0x61, 0x62]))] } ops).2) := by
  induction n with
  | zero => intro xs; simp
  | succ n ih =>
    intro xs
    have hstep : ∀ ops', Build.run F { stack := [.arr xs] } (.value (.str sab) :: ops') =
        ((Build.run F { stack := [.arr (xs ++ [(Scalar.str sab).tree F])] } ops').1,
          .ok () :: (Build.run F { stack := [.arr (xs ++ [(Scalar.str sab).tree F])] } ops').2) := fun _ => rfl
    rw [List.replicate_succ, List.cons_append, hstep, ih]
    have : xs ++ [(Scalar.str sab).tree F] ++ List.replicate n (.str [0x61, 0x62]) =
        xs ++ List.replicate (n + 1) (.str [0x61, 0x62]) := by
      rw [List.replicate_succ, List.append_assoc]; rfl
    rw [this, List.replicate_succ (a := Except.ok ()), List.cons_append]

/-- `["ab", …, {"aa": null}]` with ten thousand up to forty million strings, any table being given before the dict. -/
theorem C77_large_array (c : Cfg) (F : FloatOps) (sk : SharedKeys) (hsk : sk.WF) (n : Nat) (h1 : 10000 ≤ n) (h2 : n ≤ 40000000) :
    ∃ e rs out, Enc.new.acts c ((manyOps n).map .call ++ .keys sk :: tailOps.map .call) = .ok (e, rs) ∧
      (∀ r ∈ rs, r = .ok ()) ∧ e.finish c = .ok out ∧
      Decodes F e.sk out (.arr (List.replicate n (.str [0x61, 0x62]) ++ [.dict [([0x61, 0x61], .null)]])) := by
  have hcalls : calls ((manyOps n).map .call ++ .keys sk :: tailOps.map .call) = manyOps n ++ tailOps := by
    rw [calls_append, calls_map]
    simp only [calls]
    rw [calls_map]
  have hrun : Build.run F {} (manyOps n ++ tailOps) =
      ({ stack := [], root := some (.arr (List.replicate n (.str [0x61, 0x62]) ++ [.dict [([0x61, 0x61], .null)]])) },
        .ok () :: (List.replicate n (.ok ()) ++ List.replicate 5 (.ok ()))) := by
    rw [manyOps, List.cons_append]
    unfold Build.run
    simp only [Build.next, Build.step, Build.open, Option.isSome_none, Bool.false_eq_true, if_false]
    rw [run_many]
    rfl
  have htot : Op.total (manyOps n) = 24 + n * 26 := by
    simp only [Op.total, manyOps, List.map_cons, List.map_replicate, List.sum_cons, List.sum_replicate_nat]
    have : (Op.value (.str sab)).weight = 26 := rfl
    rw [this]
    rfl
  have htot' : Op.total (manyOps n ++ tailOps) = 24 + n * 26 + Op.total tailOps := by
    rw [← htot]; simp [Op.total]
  have htail : Op.total tailOps ≤ 1000 := by decide
  have hmw : SizedValue.maxWide = 0x3fffffff := rfl
  obtain ⟨e, rs, out, g1, g2, g3, g4⟩ := C77_large_partial c F none (by simp) _ (by rw [hcalls]; omega)
    (by
      rw [hcalls]
      intro op hop
      simp only [manyOps, tailOps, List.cons_append, List.mem_cons, List.mem_append, List.not_mem_nil, or_false] at hop
      rcases hop with rfl | hop | rfl | rfl | rfl | rfl | rfl
      · simp [Op.Sound]
      · rw [List.eq_of_mem_replicate hop]; simp [Op.Sound, Scalar.Survives, sab]
      all_goals simp [Op.Sound, Scalar.Survives, saa])
    (by
      intro s hs
      simp only [List.mem_append, List.mem_map, List.mem_cons, reduceCtorEq, and_false, exists_false, false_or, or_false,
        Act.keys.injEq] at hs
      rw [hs]; exact hsk)
    (by
      rw [hcalls]
      intro r hr
      rw [hrun] at hr
      simp only [List.mem_cons, List.mem_append, List.mem_replicate] at hr
      rcases hr with rfl | ⟨_, rfl⟩ | ⟨_, rfl⟩ <;> rfl)
    (by intro kvs k rest; rw [hcalls, hrun]; simp)
    (growing_once c (manyOps n) tailOps hsk (by omega)) _ (by rw [hcalls, hrun]; rfl)
    (by
      refine .arr (.inl ⟨0, .str [0x61, 0x62], ?_, by simp [Tree.Apart], ?_⟩) ?_
      · rw [List.getElem?_append_left (by simp; omega), List.getElem?_replicate, if_pos (by omega)]
      · rw [List.drop_append_of_le_length (by simp; omega), lows_append, List.drop_replicate, lows_replicate]
        show 0x3fff < 2 + ((n - 1) * 2 + _)
        omega
      · intro x hx
        rcases List.mem_append.mp hx with hx | hx
        · rw [List.eq_of_mem_replicate hx]; exact .leaf (by simp) (by simp)
        · rw [List.mem_singleton.mp hx]
          refine .dict (.inr ⟨by unfold dictCompact; decide, ?_⟩) ?_ <;> intro e he <;> rw [List.mem_singleton.mp he]
          · exact ⟨by decide, fun h => h⟩
          · exact .leaf (by simp) (by simp))
  exact ⟨e, rs, out, g1, g2, g3, g4 _ (.refl _)⟩

end Fleece.Props
