import Verif.Props.C29
import Verif.Props.C20Large
import Verif.Proofs.WriteOps

/-!
# C80 The state of a table can be part of a document

`SharedKeys::write_state` writes to an encoder that may have other things in it, and `from_state_value` takes a value that may be
part of a document. `C29` is about documents that are nothing but the state.
-/

namespace Fleece.Props
open Fleece Res Spec

/-- Calls made one after the other, up to the first that is refused. -/
def attempt (c : Cfg) (e : Enc) : List Op → Exec (Enc × Option Unit)
  | [] => .ok (e, some ())
  | op :: ops => do
    match ← e.step c op with
    | (e, .ok ()) => attempt c e ops
    | (e, .error _) => pure (e, none)

/-- The calls that write an array of strings. -/
def stateCalls (ss : List RStr) : List Op := .beginArray ss.length :: (ss.map (.value <| .str ·) ++ [.endArray])

/-- Part of a document. -/
inductive Within (s : Tree) : Tree → Prop where
  | here : Within s s
  | elem {xs : List Tree} {x : Tree} (h : x ∈ xs) (w : Within s x) : Within s (.arr xs)
  | entry {kvs : List (List UInt8 × Tree)} {kv : List UInt8 × Tree} (h : kv ∈ kvs) (w : Within s kv.2) : Within s (.dict kvs)

/-- **C80, saving.** Whatever the encoder has in it: `write_state` makes the calls that write the names as an array of strings, up
to the first that is refused. -/
theorem C80_calls (c : Cfg) (sk : SharedKeys) (ss : List RStr) (hss : ss.map (·.bytes) = sk.entries.map (·.1)) (e : Enc) :
    sk.writeState c e = attempt c e (stateCalls ss) := by
  have hl : ss.length = sk.entries.length := by simpa using congrArg List.length hss
  have loop : ∀ (l : List (List UInt8 × Nat)) (ss : List RStr) (e : Enc), ss.map (·.bytes) = l.map (·.1) →
      SharedKeys.saveLoop c l e = attempt c e (ss.map (.value <| .str ·) ++ [.endArray]) := by
    intro l
    induction l with
    | nil =>
      intro ss e h
      have : ss = [] := by simpa using h
      subst this
      unfold SharedKeys.saveLoop
      simp only [List.map_nil, List.nil_append, attempt, Enc.step]
      cases e.endArray c with
      | ok x => obtain ⟨e, r⟩ := x; cases r <;> rfl
      | _ => rfl
    | cons a l ih =>
      intro ss e h
      obtain ⟨k, code⟩ := a
      cases ss with
      | nil => simp at h
      | cons s ss =>
        simp only [List.map_cons, List.cons.injEq] at h
        obtain ⟨k', hv⟩ := s
        obtain ⟨rfl, h⟩ := h
        unfold SharedKeys.saveLoop
        simp only [List.map_cons, List.cons_append, attempt, Enc.step]
        rw [dif_pos hv]
        cases e.writeValue c (.str ⟨k', hv⟩) with
        | ok x =>
          obtain ⟨e, r⟩ := x
          cases r with
          | ok u => exact ih ss e h
          | error x => rfl
        | _ => rfl
  unfold SharedKeys.writeState stateCalls
  simp only [attempt, Enc.step, hl]
  cases e.beginArray sk.entries.length with
  | ok x =>
    obtain ⟨e, r⟩ := x
    cases r with
    | ok u => exact loop _ _ _ hss
    | error x => rfl
  | _ => rfl

/-- **C80, loading.** Any value of any bytes, in either build, that a traversal finds to be an array of the names of a table (as
insertions of keys of up to 15 bytes leave it) loads as that table. -/
theorem C80_loads (m : Mem) (F : FloatOps) (scope : Option SharedKeys) (U : CharTable) (sk : SharedKeys) (h : InsertedShort U sk)
    (n : Nat) (v : Val) (hv : readTree m F scope n v = .ok (.arr (sk.entries.map (.str ·.1)))) :
    SharedKeys.fromStateValue m U v = .ok (some sk) := by
  obtain ⟨hw, ht⟩ := h.inv
  cases n with
  | zero => cases hv
  | succ n =>
    unfold readTree at hv
    obtain ⟨ty, g1, hv⟩ := bind_eq_ok.mp hv
    cases ty <;> dsimp only at hv
    case array =>
      obtain ⟨it, g2, hv⟩ := bind_eq_ok.mp hv
      obtain ⟨xs, g3, hv⟩ := bind_eq_ok.mp hv
      cases hv
      unfold SharedKeys.fromStateValue Val.asArray
      rw [g1]
      simp only [ok_bind, pure_eq, if_true, g2]
      exact load_loop hw ht sk.entries (pre := []) (by simp) g3
    all_goals first
      | (cases hv; done)
      | (obtain ⟨_, _, hv⟩ := bind_eq_ok.mp hv; cases hv; done)
      | (obtain ⟨_, _, hv⟩ := bind_eq_ok.mp hv; obtain ⟨_, _, hv⟩ := bind_eq_ok.mp hv; cases hv)

/-! ## Where the state is in the document -/

/-- Part of a collection that is open. -/
def frameHolds (s : Tree) : Frame → Prop
  | .arr xs => ∃ x ∈ xs, Within s x
  | .dict kvs _ => ∃ kv ∈ kvs, Within s kv.2

/-- Part of what was built so far. -/
def Carries (s : Tree) (b : Build) : Prop := (∃ r, b.root = some r ∧ Within s r) ∨ ∃ f ∈ b.stack, frameHolds s f

/-- Frames that a value can be put into. -/
def Ready (l : List Frame) : Prop := ∀ f ∈ l, ∀ kvs, f ≠ .dict kvs none

/-- What every state is like. -/
def Nested (b : Build) : Prop := (b.root.isSome → b.stack = []) ∧ Ready b.stack.tail

theorem close_holds {s t : Tree} {rest : List Frame} (hr : Ready rest) (h : Within s t ∨ ∃ f ∈ rest, frameHolds s f) :
    Carries s (Build.close rest t) := by
  cases rest with
  | nil =>
    rcases h with h | ⟨f, hf, _⟩
    · exact .inl ⟨t, rfl, h⟩
    · cases hf
  | cons f rest =>
    right
    cases f with
    | arr xs =>
      rcases h with h | ⟨f, hf, h⟩
      · exact ⟨_, List.mem_cons_self, t, by simp, h⟩
      · rcases List.mem_cons.mp hf with rfl | hf
        · obtain ⟨x, hx, h⟩ := h
          exact ⟨_, List.mem_cons_self, x, by simp [hx], h⟩
        · exact ⟨f, List.mem_cons_of_mem _ hf, h⟩
    | dict kvs k =>
      cases k with
      | none => exact absurd rfl (hr _ List.mem_cons_self kvs)
      | some k =>
        rcases h with h | ⟨f, hf, h⟩
        · exact ⟨_, List.mem_cons_self, (k, t), by simp, h⟩
        · rcases List.mem_cons.mp hf with rfl | hf
          · obtain ⟨x, hx, h⟩ := h
            exact ⟨_, List.mem_cons_self, x, by simp [hx], h⟩
          · exact ⟨f, List.mem_cons_of_mem _ hf, h⟩

theorem close_nested {t : Tree} {rest : List Frame} (hr : Ready rest) : Nested (Build.close rest t) := by
  cases rest with
  | nil => exact ⟨fun _ => rfl, (by intro f hf; cases hf)⟩
  | cons f rest =>
    have htl : Ready rest := fun g hg => hr g (List.mem_cons_of_mem _ hg)
    cases f with
    | arr xs => exact ⟨fun h => (by cases h), htl⟩
    | dict kvs k => cases k <;> exact ⟨fun h => (by cases h), htl⟩

theorem step_nested {F : FloatOps} {b b' : Build} (hn : Nested b) {op : Op} (h : b.step F op = .ok b') :
    Nested b' ∧ ∀ s, Carries s b → Carries s b' := by
  obtain ⟨stack, root⟩ := b
  have opens : ∀ (f : Frame) (x : EncodeError), (∀ s, ¬ frameHolds s f) → Build.open ⟨stack, root⟩ f x = .ok b' →
      Nested b' ∧ ∀ s, Carries s ⟨stack, root⟩ → Carries s b' := by
    intro f x _ h
    unfold Build.open at h
    dsimp only at h
    split at h
    · cases h
    · next hroot =>
      split at h
      · cases h
      · next htop =>
        cases h
        refine ⟨⟨fun h => absurd h hroot, ?_⟩, fun s hs => ?_⟩
        · intro g hg kvs e
          subst e
          cases stack with
          | nil => cases hg
          | cons g' rest =>
            rcases List.mem_cons.mp hg with rfl | hg
            · exact htop _ _ rfl
            · exact hn.2 _ hg kvs rfl
        · rcases hs with hs | ⟨g, hg, hs⟩
          · exact .inl hs
          · exact .inr ⟨g, List.mem_cons_of_mem _ hg, hs⟩
  have noroot : ∀ f rest, stack = f :: rest → root = none := by
    intro f rest e
    cases root with
    | none => rfl
    | some r => have := hn.1 rfl; dsimp only at this; rw [e] at this; cases this
  cases op with
  | beginArray n => exact opens _ _ (by intro s ⟨x, hx, _⟩; cases hx) h
  | beginDict => exact opens _ _ (by intro s ⟨x, hx, _⟩; cases hx) h
  | key k =>
    simp only [Build.step] at h
    split at h
    · next _ kvs rest =>
      cases h
      refine ⟨⟨fun h => (by cases hn.1 h), hn.2⟩, fun s hs => ?_⟩
      rcases hs with hs | ⟨g, hg, hs⟩
      · exact .inl hs
      · right
        rcases List.mem_cons.mp hg with rfl | hg
        · exact ⟨_, List.mem_cons_self, hs⟩
        · exact ⟨g, List.mem_cons_of_mem _ hg, hs⟩
    · cases h
    · cases h
  | value x =>
    simp only [Build.step, Build.put] at h
    split at h
    · cases h
    · next _ xs rest =>
      cases h
      refine ⟨⟨fun h => (by cases hn.1 h), hn.2⟩, fun s hs => ?_⟩
      rcases hs with hs | ⟨g, hg, hs⟩
      · exact .inl hs
      · right
        rcases List.mem_cons.mp hg with rfl | hg
        · obtain ⟨y, hy, hs⟩ := hs
          exact ⟨_, List.mem_cons_self, y, by simp [hy], hs⟩
        · exact ⟨g, List.mem_cons_of_mem _ hg, hs⟩
    · next _ kvs k rest =>
      cases h
      refine ⟨⟨fun h => (by cases hn.1 h), hn.2⟩, fun s hs => ?_⟩
      rcases hs with hs | ⟨g, hg, hs⟩
      · exact .inl hs
      · right
        rcases List.mem_cons.mp hg with rfl | hg
        · obtain ⟨y, hy, hs⟩ := hs
          exact ⟨_, List.mem_cons_self, y, by simp [hy], hs⟩
        · exact ⟨g, List.mem_cons_of_mem _ hg, hs⟩
    · cases h
  | endArray =>
    simp only [Build.step] at h
    split at h
    · next _ xs rest =>
      cases noroot _ _ rfl
      cases h
      refine ⟨close_nested hn.2, fun s hs => close_holds hn.2 ?_⟩
      rcases hs with ⟨r, hr, _⟩ | ⟨g, hg, hs⟩
      · cases hr
      · rcases List.mem_cons.mp hg with rfl | hg
        · obtain ⟨y, hy, hs⟩ := hs
          exact .inl (.elem hy hs)
        · exact .inr ⟨g, hg, hs⟩
    · cases h
  | endDict =>
    simp only [Build.step] at h
    split at h
    · next _ kvs rest =>
      cases noroot _ _ rfl
      cases h
      refine ⟨close_nested hn.2, fun s hs => close_holds hn.2 ?_⟩
      rcases hs with ⟨r, hr, _⟩ | ⟨g, hg, hs⟩
      · cases hr
      · rcases List.mem_cons.mp hg with rfl | hg
        · obtain ⟨y, hy, hs⟩ := hs
          exact .inl (.entry hy hs)
        · exact .inr ⟨g, hg, hs⟩
    · cases h
    · cases h

theorem run_nested {F : FloatOps} (ops : List Op) : ∀ {b : Build}, Nested b →
    Nested (b.run F ops).1 ∧ ∀ s, Carries s b → Carries s (b.run F ops).1 := by
  induction ops with
  | nil => intro b h; exact ⟨h, fun _ h => h⟩
  | cons op ops ih =>
    intro b h
    simp only [Build.run, Build.next]
    cases hs : b.step F op with
    | ok b' =>
      obtain ⟨h1, h2⟩ := step_nested h hs
      exact ⟨(ih h1).1, fun s hb => (ih h1).2 s (h2 s hb)⟩
    | error x => exact ih h

theorem finish_holds {s : Tree} : ∀ (n : Nat) {b : Build}, b.stack.length = n → Nested b → Carries s b →
    ∃ t, (Build.finishGo n b).root = some t ∧ Within s t
  | 0, b, hl, _, h => by
    rcases h with h | ⟨f, hf, _⟩
    · exact h
    · rw [List.length_eq_zero_iff.mp hl] at hf; cases hf
  | n + 1, b, hl, hn, h => by
    obtain ⟨stack, root⟩ := b
    cases stack with
    | nil => cases hl
    | cons f rest =>
      have hroot : root = none := by
        cases root with
        | none => rfl
        | some r => have := hn.1 rfl; cases this
      subst hroot
      have hcl : ∀ t, (Build.close rest t).stack.length = rest.length := by
        intro t
        cases rest with
        | nil => rfl
        | cons g rest => cases g with
          | arr xs => rfl
          | dict kvs k => cases k <;> rfl
      simp only [List.length_cons, Nat.add_right_cancel_iff] at hl
      have up : ∀ t, (frameHolds s f → Within s t) → Carries s (Build.close rest t) := by
        intro t ht
        refine close_holds hn.2 ?_
        rcases h with ⟨r, hr, _⟩ | ⟨g, hg, hs⟩
        · cases hr
        · rcases List.mem_cons.mp hg with rfl | hg
          · exact .inl (ht hs)
          · exact .inr ⟨g, hg, hs⟩
      cases f with
      | arr xs =>
        exact finish_holds n ((hcl _).trans hl) (close_nested hn.2) (up (.arr xs) fun ⟨x, hx, h⟩ => .elem hx h)
      | dict kvs k =>
        exact finish_holds n ((hcl _).trans hl) (close_nested hn.2) (up (.dict kvs) fun ⟨x, hx, h⟩ => .entry hx h)

/-- The calls of `write_state` put the names into the document. -/
theorem state_holds {F : FloatOps} {ss : List RStr} {b : Build} (hn : Nested b) (hall : AllOk F b (stateCalls ss)) :
    Carries (.arr (ss.map (.str ·.bytes))) (b.run F (stateCalls ss)).1 := by
  have items : ∀ (ss : List RStr) (xs : List Tree) (rest : List Frame) (root : Option Tree),
      (Build.run F ⟨.arr xs :: rest, root⟩ (ss.map (.value <| .str ·) ++ [.endArray])).1 =
        Build.close rest (.arr (xs ++ ss.map (.str ·.bytes))) := by
    intro ss
    induction ss with
    | nil => intro xs rest root; simp [Build.run, Build.next, Build.step]
    | cons s ss ih =>
      intro xs rest root
      have := ih (xs ++ [.str s.bytes]) rest root
      simp only [List.map_cons, List.cons_append, Build.run, Build.next, Build.step, Build.put, Scalar.tree] at this ⊢
      rw [this]
      simp
  unfold stateCalls at hall ⊢
  simp only [Build.run, Build.next] at hall ⊢
  cases hs : b.step F (.beginArray ss.length) with
  | error x =>
    have := hall (.error x) (by simp only [Build.run, Build.next, hs]; exact List.mem_cons_self)
    cases this
  | ok b' =>
    dsimp only
    have hn' := (step_nested hn hs).1
    simp only [Build.step, Build.open] at hs
    split at hs
    · cases hs
    · split at hs
      · cases hs
      · cases hs
        rw [items]
        exact close_holds hn'.2 (.inl (by simpa using Within.here))

theorem same_names {names : List (List UInt8)} {t t' : Tree} (hs : Tree.Same t t') (h : Within (.arr (names.map .str)) t) :
    Within (.arr (names.map .str)) t' := by
  induction h generalizing t' with
  | here =>
    have : t' = .arr (names.map .str) := by
      cases hs with
      | refl => rfl
      | @arr _ ys len each =>
        congr 1
        apply List.ext_getElem? ; intro i
        by_cases hi : i < ys.length
        · have hi' : i < (names.map Tree.str).length := by omega
          have e1 := List.getElem?_eq_getElem hi
          have e2 := List.getElem?_eq_getElem hi'
          rw [e1, e2]
          have := each i _ _ e2 e1
          congr 1
          rw [List.getElem_map] at this ⊢
          generalize ys[i] = y at this ⊢
          cases this; rfl
        · rw [List.getElem?_eq_none (by omega), List.getElem?_eq_none (by omega)]
    exact this ▸ .here
  | @elem xs x hx w ih =>
    cases hs with
    | refl => exact .elem hx w
    | @arr _ ys len each =>
      obtain ⟨i, hi, rfl⟩ := List.getElem_of_mem hx
      have hi' : i < ys.length := by omega
      exact .elem (List.getElem_mem hi') (ih (each i _ _ (List.getElem?_eq_getElem hi) (List.getElem?_eq_getElem hi')))
  | @entry kvs kv hx w ih =>
    cases hs with
    | refl => exact .entry hx w
    | @dict _ mid lvs perm keys each =>
      obtain ⟨i, hi, rfl⟩ := List.getElem_of_mem (perm.mem_iff.mp hx)
      have hl : mid.length = lvs.length := by simpa using congrArg List.length keys
      have hi' : i < lvs.length := by omega
      exact .entry (List.getElem_mem hi') (ih (each i _ _ (List.getElem?_eq_getElem hi) (List.getElem?_eq_getElem hi')))

theorem collect_item {α : Type} {m : Mem} {a : Val} {f : Val → R α} : ∀ {n : Nat} {it : Iter} {xs : List α},
    IterState m a it → collect m f n it = .ok xs → ∀ x ∈ xs, ∃ y it1 it2, IterState m a it1 ∧
      it1.step m = .ok (some y, it2) ∧ f y = .ok x
  | 0, _, _, _, h, _, _ => by cases h
  | n + 1, it, xs, hi, h, x, hx => by
    unfold collect at h
    obtain ⟨⟨y, it'⟩, h1, h⟩ := bind_eq_ok.mp h
    cases y with
    | none => cases h; cases hx
    | some y =>
      obtain ⟨z, h2, h⟩ := bind_eq_ok.mp h
      obtain ⟨zs, h3, h⟩ := bind_eq_ok.mp h
      cases h
      rcases List.mem_cons.mp hx with rfl | hx
      · exact ⟨y, it, it', hi, h1, h2⟩
      · exact collect_item (.next hi h1) h3 x hx

theorem collectDict_item {α : Type} {m : Mem} {scope : Option SharedKeys} {a : Val} {f : Val → R α} :
    ∀ {n : Nat} {it : Iter} {xs : List (List UInt8 × α)}, DictIterState m scope a it → collectDict m scope f n it = .ok xs →
      ∀ x ∈ xs, ∃ y it1 it2, DictIterState m scope a it1 ∧ it1.dictStep m scope = .ok (some (x.1, y), it2) ∧ f y = .ok x.2
  | 0, _, _, _, h, _, _ => by cases h
  | n + 1, it, xs, hi, h, x, hx => by
    unfold collectDict at h
    obtain ⟨⟨y, it'⟩, h1, h⟩ := bind_eq_ok.mp h
    cases y with
    | none => cases h; cases hx
    | some y =>
      obtain ⟨k, y⟩ := y
      obtain ⟨z, h2, h⟩ := bind_eq_ok.mp h
      obtain ⟨zs, h3, h⟩ := bind_eq_ok.mp h
      cases h
      rcases List.mem_cons.mp hx with rfl | hx
      · exact ⟨y, it, it', hi, h1, h2⟩
      · exact collectDict_item (.next hi h1) h3 x hx

/-- What is part of what a traversal finds is what a traversal of some reachable value finds. -/
theorem within_reach {m : Mem} {F : FloatOps} {scope : Option SharedKeys} {root : Val} {s t : Tree} (w : Within s t) :
    ∀ {n : Nat} {v : Val}, Reach m scope root v → readTree m F scope n v = .ok t →
      ∃ n' v', Reach m scope root v' ∧ readTree m F scope n' v' = .ok s := by
  induction w with
  | here => intro n v hr h; exact ⟨n, v, hr, h⟩
  | @elem xs x hx w ih =>
    intro n v hr h
    cases n with
    | zero => cases h
    | succ n =>
      unfold readTree at h
      obtain ⟨ty, g1, h⟩ := bind_eq_ok.mp h
      cases ty <;> dsimp only at h
      case array =>
        obtain ⟨it, g2, h⟩ := bind_eq_ok.mp h
        obtain ⟨ys, g3, h⟩ := bind_eq_ok.mp h
        cases h
        obtain ⟨y, it1, it2, k1, k2, k3⟩ := collect_item (.start g2) g3 x hx
        exact ih (.child hr (.item (by unfold Val.asArray; rw [g1]; rfl) k1 k2)) k3
      all_goals first
        | (cases h; done)
        | (obtain ⟨_, _, h⟩ := bind_eq_ok.mp h; cases h; done)
        | (obtain ⟨_, _, h⟩ := bind_eq_ok.mp h; obtain ⟨_, _, h⟩ := bind_eq_ok.mp h; cases h)
  | @entry kvs kv hx w ih =>
    intro n v hr h
    cases n with
    | zero => cases h
    | succ n =>
      unfold readTree at h
      obtain ⟨ty, g1, h⟩ := bind_eq_ok.mp h
      cases ty <;> dsimp only at h
      case dict =>
        obtain ⟨it, g2, h⟩ := bind_eq_ok.mp h
        obtain ⟨ys, g3, h⟩ := bind_eq_ok.mp h
        cases h
        obtain ⟨y, it1, it2, k1, k2, k3⟩ := collectDict_item (.start g2) g3 kv hx
        exact ih (.child hr (.entry (by unfold Val.asDict; rw [g1]; rfl) k1 k2)) k3
      all_goals first
        | (cases h; done)
        | (obtain ⟨_, _, h⟩ := bind_eq_ok.mp h; cases h; done)
        | (obtain ⟨_, _, h⟩ := bind_eq_ok.mp h; obtain ⟨_, _, h⟩ := bind_eq_ok.mp h; cases h)

/-- Calls that all succeed are all made. -/
theorem attempt_run {c : Cfg} (ops : List Op) : ∀ {e e' : Enc} {rs : List (Except EncodeError Unit)},
    e.run c ops = .ok (e', rs) → (∀ r ∈ rs, r = .ok ()) → attempt c e ops = .ok (e', some ()) := by
  induction ops with
  | nil => intro e e' rs h _; cases h; rfl
  | cons op ops ih =>
    intro e e' rs h hok
    simp only [Enc.run] at h
    obtain ⟨⟨e1, r⟩, g1, h⟩ := bind_eq_ok.mp h
    obtain ⟨⟨e2, rs2⟩, g2, h⟩ := bind_eq_ok.mp h
    cases h
    cases hok r (by simp)
    unfold attempt
    rw [g1]
    exact ih g2 (fun r hr => hok r (by simp [hr]))

/-- What `C20` says of some calls, it says of the state among them. -/
theorem state_of_document {c : Cfg} {F : FloatOps} {used : Option SharedKeys} {ss : List RStr} {before after : List Op}
    (hall : AllOk F {} (before ++ stateCalls ss ++ after))
    (hdoc : ∀ t, (Build.run F {} (before ++ stateCalls ss ++ after)).1.finish = some t →
      ∃ e rs out, ({ Enc.new with sk := used } : Enc).run c (before ++ stateCalls ss ++ after) = .ok (e, rs) ∧
        (∀ r ∈ rs, r = .ok ()) ∧ e.finish c = .ok out ∧ ∀ scope, ScopeLe e.sk scope → Decodes F scope out t)
    (U : CharTable) {sk : SharedKeys} (hsk : InsertedShort U sk) (hss : ss.map (·.bytes) = sk.entries.map (·.1)) :
    ∃ e1 rs1 e2 e3 rs3 out, ({ Enc.new with sk := used } : Enc).run c before = .ok (e1, rs1) ∧
      sk.writeState c e1 = .ok (e2, some ()) ∧ e2.run c after = .ok (e3, rs3) ∧ e3.finish c = .ok out ∧
      ∀ scope, ScopeLe e3.sk scope → ∀ m : Mem, m.data = out → m.base + out.length < 2 ^ 64 →
        ∃ root v, fromBytes m = .ok root ∧ Reach m scope root v ∧ SharedKeys.fromStateValue m U v = .ok (some sk) := by
  have hnest : Nested ({} : Build) := ⟨fun h => (by cases h), (by intro f hf; cases hf)⟩
  -- the state is part of the document
  have hholds : Carries (.arr (ss.map (.str ·.bytes))) (Build.run F {} (before ++ stateCalls ss ++ after)).1 := by
    rw [Build.run_append, Build.run_append]
    refine (run_nested after (run_nested (stateCalls ss) (run_nested before hnest).1).1).2 _ (state_holds (run_nested before hnest).1 ?_)
    intro r hr
    refine hall r ?_
    rw [Build.run_append, Build.run_append]
    simp only [List.mem_append]
    exact .inl (.inr hr)
  obtain ⟨t, ht, hwithin⟩ := finish_holds _ rfl (run_nested (before ++ stateCalls ss ++ after) hnest).1 hholds
  obtain ⟨e, rs, out, h1, h2, h3, h4⟩ := hdoc t ht
  obtain ⟨e2, rs12, rs3, h12, h13, rfl⟩ := Enc.run_append_ok _ h1
  obtain ⟨e1, rs1, rs2, h11, h22, rfl⟩ := Enc.run_append_ok _ h12
  refine ⟨e1, rs1, e2, e, rs3, out, h11, ?_, h13, h3, fun scope hs m hm hb => ?_⟩
  · rw [C80_calls c sk ss hss]
    exact attempt_run _ h22 (fun r hr => h2 r (by simp [hr]))
  · obtain ⟨root, t', g1, g2, g3⟩ := h4 scope hs m hm hb
    have hnames : ss.map (Tree.str ·.bytes) = (sk.entries.map (·.1)).map .str := by
      rw [← hss, List.map_map]; rfl
    rw [hnames] at hwithin
    obtain ⟨n, v, k1, k2⟩ := within_reach (same_names g2 hwithin) .root (g3 _ (Nat.le_refl _))
    refine ⟨root, v, g1, k1, C80_loads m F scope U sk hsk n v ?_⟩
    rw [k2, List.map_map]
    rfl

/-- **C80 of documents.** Calls, then `write_state`, then more calls, all of them allowed: `write_state` says that it was done, and in
the document there is, wherever it is read, a value that loads as the table. Missing: what C20 leaves out (documents over 16 KiB,
one-byte names). -/
theorem C80_document_partial (c : Cfg) (F : FloatOps) (U : CharTable) (used : Option SharedKeys) (hused : ∀ s, used = some s → s.WF)
    (sk : SharedKeys) (hsk : InsertedShort U sk) (ss : List RStr) (hss : ss.map (·.bytes) = sk.entries.map (·.1))
    (before after : List Op) (hsize : Op.total (before ++ stateCalls ss ++ after) ≤ SizedValue.maxNarrow)
    (hplain : ∀ op ∈ before ++ stateCalls ss ++ after, op.Plain used.isSome)
    (hcap : ∀ n, Op.beginArray n ∈ before ++ stateCalls ss ++ after → n * 4 < 2 ^ 63)
    (hall : AllOk F {} (before ++ stateCalls ss ++ after)) :
    ∃ e1 rs1 e2 e3 rs3 out, ({ Enc.new with sk := used } : Enc).run c before = .ok (e1, rs1) ∧
      sk.writeState c e1 = .ok (e2, some ()) ∧ e2.run c after = .ok (e3, rs3) ∧ e3.finish c = .ok out ∧
      ∀ scope, ScopeLe e3.sk scope → ∀ m : Mem, m.data = out → m.base + out.length < 2 ^ 64 →
        ∃ root v, fromBytes m = .ok root ∧ Reach m scope root v ∧ SharedKeys.fromStateValue m U v = .ok (some sk) := 
  state_of_document hall (fun t ht => C20_small_partial c F used hused _ hsize hplain hcap hall t ht) U hsk hss

/-- **C80 of documents of up to 1 GiB**, the state as large as a table can be: every collection in the document is clearly small
or clearly large (`Tree.Roomy`), and no key is left without a value. Missing: the other documents. -/
theorem C80_large_partial (c : Cfg) (F : FloatOps) (U : CharTable) (used : Option SharedKeys) (hused : ∀ s, used = some s → s.WF)
    (sk : SharedKeys) (hsk : InsertedShort U sk) (ss : List RStr) (hss : ss.map (·.bytes) = sk.entries.map (·.1))
    (before after : List Op) (hsize : Op.total (before ++ stateCalls ss ++ after) ≤ SizedValue.maxWide)
    (hsound : ∀ op ∈ before ++ stateCalls ss ++ after, op.Sound used.isSome)
    (hall : AllOk F {} (before ++ stateCalls ss ++ after))
    (hdang : ∀ kvs k rest, (Build.run F {} (before ++ stateCalls ss ++ after)).1.stack ≠ .dict kvs (some k) :: rest)
    (hroom : ∀ t, (Build.run F {} (before ++ stateCalls ss ++ after)).1.finish = some t → t.Roomy used.isSome) :
    ∃ e1 rs1 e2 e3 rs3 out, ({ Enc.new with sk := used } : Enc).run c before = .ok (e1, rs1) ∧
      sk.writeState c e1 = .ok (e2, some ()) ∧ e2.run c after = .ok (e3, rs3) ∧ e3.finish c = .ok out ∧
      ∀ scope, ScopeLe e3.sk scope → ∀ m : Mem, m.data = out → m.base + out.length < 2 ^ 64 →
        ∃ root v, fromBytes m = .ok root ∧ Reach m scope root v ∧ SharedKeys.fromStateValue m U v = .ok (some sk) :=
  state_of_document hall (fun t ht => C20_large_partial c F used hused _ hsize hsound hall hdang t ht (hroom t ht)) U hsk hss

theorem state_all_ok (F : FloatOps) (ss : List RStr) (xs : List Tree) (rest : List Frame) (root : Option Tree) :
    AllOk F ⟨.arr xs :: rest, root⟩ (ss.map (.value <| .str ·) ++ [.endArray]) ∧
    NoDiscard F ⟨.arr xs :: rest, root⟩ (ss.map (.value <| .str ·) ++ [.endArray]) := by
  induction ss generalizing xs with
  | nil =>
    refine ⟨fun r hr => ?_, ⟨fun _ kvs rest h => (by cases h), trivial⟩⟩
    simp only [List.map_nil, List.nil_append, Build.run, Build.next, Build.step, List.mem_cons, List.not_mem_nil, or_false] at hr
    exact hr
  | cons s ss ih =>
    obtain ⟨h1, h2⟩ := ih (xs ++ [.str s.bytes])
    refine ⟨fun r hr => ?_, ⟨fun h => (by cases h), h2⟩⟩
    simp only [List.map_cons, List.cons_append, Build.run, Build.next, Build.step, Build.put, List.mem_cons] at hr
    rcases hr with hr | hr
    · exact hr
    · exact h1 r hr

theorem mem_total {ops : List Op} {op : Op} (h : op ∈ ops) : op.weight ≤ Op.total ops := by
  induction ops with
  | nil => cases h
  | cons a ops ih =>
    rw [Op.total_cons]
    rcases List.mem_cons.mp h with rfl | h
    · omega
    · have := ih h
      omega

theorem state_weight (ss : List RStr) : ss.length ≤ Op.total (stateCalls ss) := by
  have h : ∀ (ss : List RStr) (l : List Op), ss.length ≤ Op.total (ss.map (.value <| .str ·) ++ l) := by
    intro ss l
    induction ss with
    | nil => simp
    | cons s ss ih =>
      simp only [List.map_cons, List.cons_append, Op.total_cons, List.length_cons, Op.weight]
      omega
  have := h ss [.endArray]
  unfold stateCalls
  rw [Op.total_cons]
  omega

/-- **C80, the answer.** In every state that calls of any kind lead to: if an array may begin there, `write_state` says that it
was done; if not (the document is complete, or a dict is waiting for a key), it says so and leaves the encoder as it is. -/
theorem C80_answer (c : Cfg) (F : FloatOps) (n : Nat) (e : Enc) (hr : Reached c n e) (b : Build) (hb : Shape e b) (sk : SharedKeys)
    (ss : List RStr) (hss : ss.map (·.bytes) = sk.entries.map (·.1)) (hsize : n + Op.total (stateCalls ss) ≤ SizedValue.maxWide) :
    match b.step F (.beginArray 0) with
    | .ok _ => ∃ e', sk.writeState c e = .ok (e', some ())
    | .error _ => sk.writeState c e = .ok (e, none) := by
  have hmw : SizedValue.maxWide < 2 ^ 32 := by decide
  obtain ⟨hw, hp⟩ := hr.inv (by omega)
  have hl := state_weight ss
  have hacc : ∀ op ∈ stateCalls ss, op.Accepted := by
    intro op hop
    simp only [stateCalls, List.mem_cons, List.mem_append, List.mem_map, List.not_mem_nil, or_false] at hop
    rcases hop with rfl | ⟨s, _, rfl⟩ | rfl
    · simp only [Op.Accepted]; omega
    · have := mem_total (ops := stateCalls ss) (op := .value (.str s)) (by simp [stateCalls]; assumption)
      simp only [Op.weight] at this
      simp only [Op.Accepted, Scalar.Survives]
      omega
    · trivial
  obtain ⟨e', rs, hrun⟩ := Enc.run_ok (stateCalls ss) hw (by omega) hacc
  rw [C80_calls c sk ss hss]
  cases hs : b.step F (.beginArray 0) with
  | error x =>
    dsimp only
    obtain ⟨e1, r, rs', h1, h2, rfl⟩ := Enc.run_cons hrun
    have hr' := C18_step c F n e e1 _ r b hr (by
      have : Op.weight (.beginArray ss.length) ≤ Op.total (stateCalls ss) := by
        unfold stateCalls; rw [Op.total_cons]; omega
      omega) hb h1
    have hx : r = .error x := by
      rw [hr']
      simp only [Build.next]
      rw [show b.step F (.beginArray ss.length) = b.step F (.beginArray 0) from rfl, hs]
    subst hx
    have he : e1 = e := by
      simp only [Enc.step, Enc.beginArray] at h1
      split at h1
      · cases h1; rfl
      · split at h1
        · cases h1; rfl
        · split at h1
          · cases h1
          · cases h1
    subst he
    unfold stateCalls attempt
    rw [h1]
    rfl
  | ok b' =>
    dsimp only
    have hb' : b' = ⟨.arr [] :: b.stack, b.root⟩ := by
      simp only [Build.step, Build.open] at hs
      split at hs
      · cases hs
      · split at hs
        · cases hs
        · cases hs; rfl
    subst hb'
    obtain ⟨k1, k2⟩ := state_all_ok F ss [] b.stack b.root
    have hs' : b.step F (.beginArray ss.length) = .ok ⟨.arr [] :: b.stack, b.root⟩ := hs
    obtain ⟨g1, _⟩ := results_go c F (stateCalls ss) hw (by omega) hb (by
      refine ⟨fun h => (by cases h), ?_⟩
      simp only [Build.next, hs']
      exact k2) hrun
    refine ⟨e', attempt_run _ hrun ?_⟩
    intro r hr
    rw [g1] at hr
    simp only [stateCalls, Build.run, Build.next, hs', List.mem_cons] at hr
    rcases hr with hr | hr
    · exact hr
    · exact k1 r hr

/-! ## Examples -/

/-- `{"cd": <state>, "ab": 1}`. -/
def beforeState : List Op := [.beginDict, .key scd]
def afterState : List Op := [.key sab, .value (.i64 1), .endDict]
def stateNames : List RStr := [⟨[0x66, 0x6f, 0x6f], by decide⟩, ⟨[0x62, 0x61, 0x72, 0x5f, 0x31], by decide⟩]

example (F : FloatOps) : stateNames.map (·.bytes) = stateTable.entries.map (·.1) ∧
    Op.total (beforeState ++ stateCalls stateNames ++ afterState) ≤ SizedValue.maxNarrow ∧
    AllOk F {} (beforeState ++ stateCalls stateNames ++ afterState) ∧
    ∀ op ∈ beforeState ++ stateCalls stateNames ++ afterState, op.Plain false := by
  refine ⟨rfl, by decide, ?_, ?_⟩
  · intro r hr
    simp [beforeState, afterState, stateCalls, stateNames, Build.run, Build.next, Build.step, Build.open, Build.put, Build.close] at hr
    exact hr
  · intro op hop
    simp only [beforeState, afterState, stateCalls, stateNames, List.map_cons, List.map_nil, List.cons_append, List.nil_append,
      List.mem_cons, List.not_mem_nil, or_false] at hop
    rcases hop with rfl | rfl | rfl | rfl | rfl | rfl | rfl | rfl | rfl <;>
      simp [Op.Plain, Scalar.Survives, Scalar.Tiny, sab, scd, ShortRange] <;> decide

/-- What is written for it. -/
def stateDoc : List UInt8 := [0x42, 0x63, 0x64, 0x00, 0x43, 0x66, 0x6f, 0x6f, 0x45, 0x62, 0x61, 0x72, 0x5f, 0x31, 0x60, 0x02, 0x80, 0x06,
  0x80, 0x05, 0x42, 0x61, 0x62, 0x00, 0x70, 0x02, 0x80, 0x03, 0x00, 0x01, 0x80, 0x0f, 0x80, 0x09, 0x80, 0x05]

set_option maxRecDepth 20000 in
/-- The state in it is at byte 14. -/
example (U : CharTable) : ∃ e1 e2 e3 rs1 rs3, Enc.new.run exampleCfg beforeState = .ok (e1, rs1) ∧
    stateTable.writeState exampleCfg e1 = .ok (e2, some ()) ∧ e2.run exampleCfg afterState = .ok (e3, rs3) ∧
    e3.finish exampleCfg = .ok stateDoc ∧
    SharedKeys.fromStateValue ⟨stateDoc, 0, true⟩ U ⟨14, 6⟩ = .ok (some stateTable) :=
  ⟨_, _, _, _, _, rfl, rfl, rfl, by decide +kernel, rfl⟩

/-- `[<state>, "ab", "ab", …]` with ten thousand up to forty million strings meets the conditions of `C80_large_partial`. -/
example (F : FloatOps) (n : Nat) (h1 : 10000 ≤ n) (h2 : n ≤ 40000000) : ∃ ops : List Op,
    ops = [.beginArray 0] ++ stateCalls stateNames ++ (List.replicate n (.value (.str sab)) ++ [.endArray]) ∧
    Op.total ops ≤ SizedValue.maxWide ∧ (∀ op ∈ ops, op.Sound false) ∧ AllOk F {} ops ∧
    (∀ kvs k rest, (Build.run F {} ops).1.stack ≠ .dict kvs (some k) :: rest) ∧
    ∀ t, (Build.run F {} ops).1.finish = some t → t.Roomy false := by
  refine ⟨_, rfl, ?_⟩
  have hrun : Build.run F {} ([.beginArray 0] ++ stateCalls stateNames ++ (List.replicate n (.value (.str sab)) ++ [.endArray])) =
      ({ stack := [], root := some (.arr ([.arr (stateNames.map (.str ·.bytes))] ++ List.replicate n (.str [0x61, 0x62]))) },
        List.replicate 5 (.ok ()) ++ List.replicate (n + 1) (.ok ())) := by
    have hst : Build.run F {} ([.beginArray 0] ++ stateCalls stateNames) =
        ({ stack := [.arr [.arr (stateNames.map (.str ·.bytes))]] }, List.replicate 5 (.ok ())) := rfl
    rw [Build.run_append, hst, run_values]
    rfl
  have hmw : SizedValue.maxWide = 0x3fffffff := rfl
  rw [hrun]
  refine ⟨?_, ?_, ?_, by intro kvs k rest; simp, ?_⟩
  · simp only [Op.total, List.map_append, List.map_replicate, List.sum_append, List.sum_replicate_nat]
    have h3 : (Op.value (.str sab)).weight = 26 := rfl
    have h4 : (List.map Op.weight [Op.beginArray 0]).sum = 24 := rfl
    have h5 : (List.map Op.weight (stateCalls stateNames)).sum = 104 := rfl
    have h6 : (List.map Op.weight [Op.endArray]).sum = 24 := rfl
    rw [h3, h4, h5, h6]
    omega
  · intro op hop
    simp only [stateCalls, stateNames, List.map_cons, List.map_nil, List.cons_append, List.nil_append, List.mem_cons, List.mem_append,
      List.not_mem_nil, or_false] at hop
    rcases hop with rfl | rfl | rfl | rfl | rfl | hop | rfl
    case inr.inr.inr.inr.inr.inl => rw [List.eq_of_mem_replicate hop]; simp [Op.Sound, Scalar.Survives, sab]
    all_goals simp [Op.Sound, Scalar.Survives]
  · intro r hr
    rw [hrun] at hr
    rcases List.mem_append.mp hr with hr | hr <;> exact List.eq_of_mem_replicate hr
  · intro t ht
    cases ht
    refine .arr (.inl ⟨1, .str [0x61, 0x62], ?_, by simp [Tree.Apart], ?_⟩) ?_
    · rw [List.getElem?_append_right (by simp), List.getElem?_replicate, if_pos (by simp; omega)]
    · rw [List.drop_append, List.drop_replicate]
      show 0x3fff < 2 + Tree.lows false (List.replicate _ _)
      rw [lows_replicate]
      show 0x3fff < 2 + (n - 1) * 2
      omega
    · intro x hx
      rcases List.mem_append.mp hx with hx | hx
      · cases List.mem_singleton.mp hx
        refine .arr (.inr ⟨.inr (by decide), ?_⟩) ?_
        · intro x hx
          simp only [stateNames, List.map_cons, List.map_nil, List.mem_cons, List.not_mem_nil, or_false] at hx
          rcases hx with rfl | rfl <;> simp [Tree.Tiny]
        · intro x hx
          simp only [stateNames, List.map_cons, List.map_nil, List.mem_cons, List.not_mem_nil, or_false] at hx
          rcases hx with rfl | rfl <;> exact .leaf (by simp) (by simp)
      · rw [List.eq_of_mem_replicate hx]; exact .leaf (by simp) (by simp)

/-- A dict waiting for a key: no state there. -/
example : ∃ e rs, Enc.new.run exampleCfg [.beginDict] = .ok (e, rs) ∧ stateTable.writeState exampleCfg e = .ok (e, none) :=
  ⟨_, _, rfl, rfl⟩

end Fleece.Props
