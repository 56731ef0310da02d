import Verif.Spec.Doubtful
import Verif.Proofs.FitsDe
import Verif.Proofs.HasFits

/-!
# A document fits, is refused, or is doubtful
-/

namespace Fleece
open Res

/-! ## Choices -/

theorem least {P : Nat → Prop} {n : Nat} (h : ¬ P n) : ∃ i, ¬ P i ∧ ∀ j, j < i → P j := by
  induction n using Nat.strongRecOn with
  | ind n ih =>
    by_cases hc : ∃ j, j < n ∧ ¬ P j
    · obtain ⟨j, hj, hp⟩ := hc
      exact ih j hj hp
    · exact ⟨n, h, fun j hj => Classical.byContradiction fun hp => hc ⟨j, hj, hp⟩⟩

theorem choose_list {α : Type} {Q : Nat → α → Prop} (n : Nat) (h : ∀ i, i < n → ∃ y, Q i y) :
    ∃ ys : List α, ys.length = n ∧ ∀ (i : Nat) y, ys[i]? = some y → Q i y := by
  induction n with
  | zero => exact ⟨[], rfl, fun i y hy => by simp at hy⟩
  | succ n ih =>
    obtain ⟨ys, hl, hq⟩ := ih fun i hi => h i (by omega)
    obtain ⟨y, hy⟩ := h n (by omega)
    refine ⟨ys ++ [y], by simp [hl], fun i z hz => ?_⟩
    rw [List.getElem?_append] at hz
    split at hz
    · exact hq i z hz
    · next hi =>
      have hlt := (List.getElem?_eq_some_iff.mp hz).1
      simp only [List.length_cons, List.length_nil] at hlt
      have : i = n := by omega
      subst this
      rw [hl, Nat.sub_self] at hz
      cases hz
      exact hy

theorem once_mem {kvs : List (List UInt8 × Tree)} (h : (kvs.map (·.1)).Nodup) {k : List UInt8} {a b : Tree} (ha : (k, a) ∈ kvs)
    (hb : (k, b) ∈ kvs) : a = b := by
  obtain ⟨i, hi⟩ := List.mem_iff_getElem?.mp ha
  obtain ⟨j, hj⟩ := List.mem_iff_getElem?.mp hb
  have := keys_inj h hi hj
  subst this
  rw [hi] at hj; cases hj; rfl

theorem known_once {α : Type} {fs : List (RStr × α)} (h : (fs.map (·.1)).Nodup) {f g : RStr × α} (hf : f ∈ fs) (hg : g ∈ fs)
    (e : f.1 = g.1) : f = g := by
  obtain ⟨i, hi, rfl⟩ := List.mem_iff_getElem.mp hf
  obtain ⟨j, hj, rfl⟩ := List.mem_iff_getElem.mp hg
  rw [List.Nodup, List.pairwise_iff_getElem] at h
  rcases Nat.lt_trichotomy i j with hlt | rfl | hlt
  · exact absurd (by rw [List.getElem_map, List.getElem_map]; exact e) (h i j (by simpa using hi) (by simpa using hj) hlt)
  · rfl
  · exact absurd (by rw [List.getElem_map, List.getElem_map]; exact e.symm) (h j i (by simpa using hj) (by simpa using hi) hlt)

/-! ## The three outcomes -/

section
variable {F : FloatOps} {N : NumOps} {types : List Ty} {K : RStr → Prop}

/-- The document fits, is refused, or is doubtful. -/
def Out (F : FloatOps) (N : NumOps) (types : List Ty) (K : RStr → Prop) (ty : Ty) (t : Tree) : Prop :=
  (∃ y, Fits (strictRules F N types K) ty t y) ∨ Refuses (strictRules F N types K) ty t .any ∨ Doubtful types ty t

theorem Out.seq {ty : Ty} {ts : List Tree} (h : ∀ t ∈ ts, Out F N types K ty t) : Out F N types K (.seq ty) (.arr ts) := by
  by_cases hd : ∃ (i : Nat) (t : Tree), ts[i]? = some t ∧ Doubtful types ty t
  · obtain ⟨i, t, hi, hd⟩ := hd
    exact .inr (.inr (.seq hi hd))
  · by_cases hall : ∀ (i : Nat) (t : Tree), ts[i]? = some t → ∃ y, Fits (strictRules F N types K) ty t y
    · obtain ⟨ys, hl, hq⟩ := choose_list (Q := fun i y => ∀ t, ts[i]? = some t → Fits (strictRules F N types K) ty t y) ts.length
        (fun i hi => by
          obtain ⟨y, hy⟩ := hall i ts[i] (by simp)
          exact ⟨y, fun t ht => by simp [hi] at ht; subst ht; exact hy⟩)
      exact .inl ⟨_, .seq hl.symm fun i t y ht hy => hq i y hy t ht⟩
    · obtain ⟨i, hi⟩ : ∃ i, ¬ ∀ t : Tree, ts[i]? = some t → ∃ y, Fits (strictRules F N types K) ty t y :=
        Classical.not_forall.mp hall
      obtain ⟨i, hi, hb⟩ := least (P := fun i => ∀ t : Tree, ts[i]? = some t → ∃ y, Fits (strictRules F N types K) ty t y) hi
      obtain ⟨t, ht⟩ := Classical.not_forall.mp hi
      obtain ⟨hti, hno⟩ := Classical.not_imp.mp ht
      rcases h t (List.mem_of_getElem? hti) with h | h | h
      · exact absurd h hno
      · exact .inr (.inl (.seq hti h fun j t' hj ht' => hb j hj t' ht'))
      · exact absurd ⟨i, t, hti, h⟩ hd

theorem Out.tuple {tys : List Ty} {ts : List Tree} (h : ∀ ty ∈ tys, ∀ t ∈ ts, Out F N types K ty t) :
    Out F N types K (.tuple tys) (.arr ts) := by
  by_cases hd : ∃ (i : Nat) (ty : Ty) (t : Tree), tys[i]? = some ty ∧ ts[i]? = some t ∧ Doubtful types ty t
  · obtain ⟨i, ty, t, h1, h2, hd⟩ := hd
    exact .inr (.inr (.tuple h1 h2 hd))
  · by_cases hall : ∀ (i : Nat), ∀ ty t, tys[i]? = some ty → ts[i]? = some t → ∃ y, Fits (strictRules F N types K) ty t y
    · by_cases hs : ts.length < tys.length
      · exact .inr (.inl (.any (.tupleShort hs hall)))
      · obtain ⟨ys, hl, hq⟩ := choose_list (Q := fun i y => ∀ ty t, tys[i]? = some ty → ts[i]? = some t →
            Fits (strictRules F N types K) ty t y) tys.length (fun i hi => by
          obtain ⟨y, hy⟩ := hall i tys[i] (ts[i]'(by omega)) (by simp) (by simp)
          refine ⟨y, fun ty t h1 h2 => ?_⟩
          rw [List.getElem?_eq_getElem hi] at h1
          rw [List.getElem?_eq_getElem (by omega)] at h2
          cases h1; cases h2; exact hy)
        exact .inl ⟨_, .tuple hl.symm (by omega) fun i ty t y h1 h2 hy => hq i y hy ty t h1 h2⟩
    · obtain ⟨i, hi⟩ := Classical.not_forall.mp hall
      obtain ⟨i, hi, hb⟩ := least (P := fun i => ∀ ty t, tys[i]? = some ty → ts[i]? = some t →
        ∃ y, Fits (strictRules F N types K) ty t y) hi
      obtain ⟨ty, hi⟩ := Classical.not_forall.mp hi
      obtain ⟨t, hi⟩ := Classical.not_forall.mp hi
      obtain ⟨h1, hi⟩ := Classical.not_imp.mp hi
      obtain ⟨h2, hno⟩ := Classical.not_imp.mp hi
      rcases h ty (List.mem_of_getElem? h1) t (List.mem_of_getElem? h2) with h | h | h
      · exact absurd h hno
      · exact .inr (.inl (.tuple h1 h2 h fun j ty' t' hj a b => hb j hj ty' t' a b))
      · exact absurd ⟨i, ty, t, h1, h2, h⟩ hd

theorem Out.map {ty : Ty} {kvs : List (List UInt8 × Tree)} (text : ∀ e ∈ kvs, validUtf8 e.1 = true)
    (once : (kvs.map (·.1)).Nodup) (h : ∀ e ∈ kvs, Out F N types K ty e.2) : Out F N types K (.map ty) (.dict kvs) := by
  by_cases hd : ∃ e, e ∈ kvs ∧ Doubtful types ty e.2
  · obtain ⟨e, he, hd⟩ := hd
    exact .inr (.inr (.map he hd))
  · by_cases hall : ∀ e, e ∈ kvs → ∃ y, Fits (strictRules F N types K) ty e.2 y
    · obtain ⟨es, hl, hq⟩ := choose_list (α := RStr × SVal) (Q := fun i y => ∀ e, kvs[i]? = some e → y.1.bytes = e.1 ∧
          Fits (strictRules F N types K) ty e.2 y.2) kvs.length (fun i hi => by
        obtain ⟨y, hy⟩ := hall kvs[i] (List.getElem_mem hi)
        refine ⟨(⟨kvs[i].1, text _ (List.getElem_mem hi)⟩, y), fun e he => ?_⟩
        rw [List.getElem?_eq_getElem hi] at he
        cases he; exact ⟨rfl, hy⟩)
      have hkeys : kvs.map (·.1) = es.map fun y => y.1.bytes := by
        apply List.ext_getElem?
        intro i
        simp only [List.getElem?_map]
        by_cases hi : i < kvs.length
        · rw [List.getElem?_eq_getElem hi, List.getElem?_eq_getElem (by omega)]
          simp only [Option.map_some]
          rw [(hq i (es[i]'(by omega)) (by simp) kvs[i] (by simp)).1]
        · rw [List.getElem?_eq_none (by omega), List.getElem?_eq_none (by omega)]; rfl
      have hnd : (es.map (·.1)).Nodup := by
        rw [hkeys] at once
        have e : (es.map fun y => y.1.bytes) = (es.map (·.1)).map RStr.bytes := by simp
        rw [e, List.Nodup, List.pairwise_map] at once
        exact once.imp fun hab hc => hab (by rw [hc])
      obtain ⟨p1, p2⟩ := foldl_insert es (acc := []) (by simpa using hnd) (by simp [Ascends])
      refine .inl ⟨_, .map (ys := es.foldl (fun acc (e : RStr × SVal) => SVal.insert e.1 e.2 acc) []) p2 ?_ ?_⟩
      · rw [hkeys]
        simpa using (p1.map fun y : RStr × SVal => y.1.bytes).symm
      · intro k t y hk hy
        have hy' : (k, y) ∈ es := by simpa using p1.mem_iff.mp hy
        obtain ⟨i, hi⟩ := List.mem_iff_getElem?.mp hy'
        have hil := (List.getElem?_eq_some_iff.mp hi).1
        obtain ⟨a, b⟩ := hq i _ hi (kvs[i]'(by omega)) (by simp)
        have hm : (k.bytes, (kvs[i]'(by omega)).2) ∈ kvs := by
          dsimp only at a
          rw [a]; exact List.getElem_mem _
        rw [once_mem once hk hm]
        exact b
    · obtain ⟨e, he⟩ := Classical.not_forall.mp hall
      obtain ⟨he, hno⟩ := Classical.not_imp.mp he
      refine .inr (.inl (.map (fun k => ∃ e, e ∈ kvs ∧ e.1 = k ∧ ¬ ∃ y, Fits (strictRules F N types K) ty e.2 y) text
        ⟨e, he, e, he, rfl, hno⟩ ?_ ?_))
      · rintro ⟨k, t⟩ hm ⟨⟨k', t'⟩, hm', hk, hno⟩
        dsimp only at hk
        subst hk
        cases once_mem once hm hm'
        rcases h _ hm with h | h | h
        · exact absurd h hno
        · exact h
        · exact absurd ⟨_, hm, h⟩ hd
      · intro e hm hb
        exact Classical.byContradiction fun hno => hb ⟨e, hm, rfl, hno⟩

theorem Out.struct {fs : List (RStr × Ty)} {kvs : List (List UInt8 × Tree)} (hn : ∀ t ∈ types, t.Nominal)
    (distinct : (fs.map (·.1)).Nodup) (once : (kvs.map (·.1)).Nodup) (h : ∀ f ∈ fs, ∀ e ∈ kvs, Out F N types K f.2 e.2) :
    Out F N types K (.struct fs) (.dict kvs) := by
  by_cases hd : ∃ f t, f ∈ fs ∧ (f.1.bytes, t) ∈ kvs ∧ Doubtful types f.2 t
  · obtain ⟨f, t, h1, h2, hd⟩ := hd
    exact .inr (.inr (.field h1 h2 hd))
  · by_cases hall : ∀ f, f ∈ fs → ∀ t, (f.1.bytes, t) ∈ kvs → ∃ y, Fits (strictRules F N types K) f.2 t y
    · by_cases hreq : ∃ f, f ∈ fs ∧ f.1.bytes ∉ kvs.map (·.1) ∧ ∀ t, f.2 ≠ .option t
      · obtain ⟨f, h1, h2, h3⟩ := hreq
        exact .inr (.inl (.any (.missing distinct once h1 ⟨h3, fun i _ t ht => hn t (List.mem_of_getElem? ht)⟩ h2 hall)))
      · obtain ⟨ys, hl, hq⟩ := choose_list (α := RStr × SVal) (Q := fun i y => ∀ f, fs[i]? = some f → y.1 = f.1 ∧
            (∀ t, (f.1.bytes, t) ∈ kvs → Fits (strictRules F N types K) f.2 t y.2) ∧
            (f.1.bytes ∉ kvs.map (·.1) → (∃ t, f.2 = .option t) ∧ y.2 = .none)) fs.length (fun i hi => by
          by_cases hp : fs[i].1.bytes ∈ kvs.map (·.1)
          · obtain ⟨⟨k, t⟩, hm, hk⟩ := List.mem_map.mp hp
            dsimp only at hk
            subst hk
            obtain ⟨y, hy⟩ := hall fs[i] (List.getElem_mem hi) t hm
            refine ⟨(fs[i].1, y), fun f hf => ?_⟩
            rw [List.getElem?_eq_getElem hi] at hf
            cases hf
            exact ⟨rfl, fun t' ht' => by rw [once_mem once ht' hm]; exact hy, fun hc => absurd hp hc⟩
          · refine ⟨(fs[i].1, .none), fun f hf => ?_⟩
            rw [List.getElem?_eq_getElem hi] at hf
            cases hf
            refine ⟨rfl, fun t ht => absurd (List.mem_map_of_mem (f := (·.1)) ht) hp, fun _ => ⟨?_, rfl⟩⟩
            exact Classical.byContradiction fun hc => hreq ⟨_, List.getElem_mem hi, hp, fun t ht => hc ⟨t, ht⟩⟩)
        refine .inl ⟨_, .struct (ys := ys) distinct once ?_ (fun i f y t hf hy ht => (hq i y hy f hf).2.1 t ht)
          fun i f y hf hy hm => (hq i y hy f hf).2.2 hm⟩
        apply List.ext_getElem?
        intro i
        simp only [List.getElem?_map]
        by_cases hi : i < fs.length
        · rw [List.getElem?_eq_getElem hi, List.getElem?_eq_getElem (by omega)]
          simp only [Option.map_some]
          rw [(hq i (ys[i]'(by omega)) (by simp) fs[i] (by simp)).1]
        · rw [List.getElem?_eq_none (by omega), List.getElem?_eq_none (by omega)]; rfl
    · obtain ⟨f, hf⟩ := Classical.not_forall.mp hall
      obtain ⟨hf, hno⟩ := Classical.not_imp.mp hf
      obtain ⟨t, hno⟩ := Classical.not_forall.mp hno
      obtain ⟨ht, hno⟩ := Classical.not_imp.mp hno
      refine .inr (.inl (.field (fun name => ∃ f t, f ∈ fs ∧ f.1 = name ∧ (f.1.bytes, t) ∈ kvs ∧
        ¬ ∃ y, Fits (strictRules F N types K) f.2 t y) distinct once ⟨f, hf, ⟨f, t, hf, rfl, ht, hno⟩, List.mem_map_of_mem (f := (·.1)) ht⟩
        ?_ ?_))
      · rintro g hg ⟨f, t, hf, he, ht, hno⟩ t' ht'
        cases known_once distinct hf hg he
        cases once_mem once ht ht'
        rcases h g hg _ ht with h | h | h
        · exact absurd h hno
        · exact h
        · exact absurd ⟨g, t, hg, ht, h⟩ hd
      · intro g hg hb t ht
        exact Classical.byContradiction fun hno => hb ⟨g, t, hg, rfl, ht, hno⟩

theorem Out.enum {vs : List (RStr × Variant)} {ts : List Tree} (hp : (Ty.enum vs).Proper K)
    (h : ∀ t ∈ ts, ∀ ty, ty.Proper K → Out F N types K ty t) : Out F N types K (.enum vs) (.arr ts) := by
  cases hp with
  | enum distinct newtype tuple fields struct =>
  cases ts with
  | nil => exact .inr (.inr .empty)
  | cons tag rest =>
    by_cases hnum : ∃ n, tag = .int n
    · obtain ⟨n, rfl⟩ := hnum
      exact .inr (.inr (.number n rest))
    · by_cases hv : ∃ (i : Nat) (name : RStr) (w : Variant), vs[i]? = some (name, w) ∧ tagNamed name tag
      · obtain ⟨i, name, w, decl, called⟩ := hv
        have mem := List.mem_of_getElem? decl
        cases rest with
        | nil =>
          by_cases hw : w = .unit
          · subst hw
            exact .inl ⟨_, .unitVariant distinct decl called⟩
          · exact .inr (.inr (.bare decl hw called))
        | cons x rest =>
          have hx : x ∈ tag :: x :: rest := by simp
          cases w with
          | unit => exact .inr (.inl (.any (.unitLayout distinct decl called)))
          | newtype ty =>
            rcases h x hx ty (newtype name ty mem) with ⟨y, h⟩ | h | h
            · exact .inl ⟨_, .newtypeVariant distinct decl called h⟩
            · exact .inr (.inl (.newtypeVariant distinct decl called h))
            · exact .inr (.inr (.newtypeVariant decl called h))
          | tuple tys =>
            by_cases hx' : ∃ xs, x = .arr xs ∧ xs.length = tys.length
            · obtain ⟨xs, rfl, hl⟩ := hx'
              rcases h _ hx (.tuple tys) (.tuple (tuple name tys mem)) with ⟨y, h⟩ | h | h
              · cases h with
                | tuple len enough of => exact .inl ⟨_, .tupleVariant distinct decl called len hl.symm of⟩
              · exact .inr (.inl (.tupleVariant distinct decl called hl h))
              · exact .inr (.inr (.tupleVariant decl called h))
            · exact .inr (.inl (.any (.tupleLayout distinct decl called fun xs hxs hl => hx' ⟨xs, hxs, hl⟩)))
          | struct fs =>
            obtain ⟨hdf, look⟩ := fields name fs mem
            by_cases hx' : ∃ kvs, x = .dict kvs ∧ kvs.length = fs.length ∧ ∀ f ∈ fs, f.1.bytes ∈ kvs.map (·.1)
            · obtain ⟨kvs, rfl, hl, keys⟩ := hx'
              rcases h _ hx (.struct fs) (.struct hdf (struct name fs mem)) with ⟨y, h⟩ | h | h
              · cases h with
                | struct d once names of missing =>
                  exact .inl ⟨_, .structVariant distinct decl called d once hl keys look names of⟩
              · exact .inr (.inl (.structVariant distinct decl called look hl keys h))
              · exact .inr (.inr (.structVariant decl called h))
            · refine .inr (.inl (.any (.structLayout distinct decl called look fun kvs hk => ?_)))
              by_cases hl : kvs.length = fs.length
              · refine .inr (Classical.byContradiction fun hc => hx' ⟨kvs, hk, hl, fun f hf => ?_⟩)
                exact Classical.byContradiction fun hm => hc ⟨f, hf, hm⟩
              · exact .inl hl
      · refine .inr (.inl (.any (.noVariant ⟨fun s hs n hn e => ?_, fun i hi => absurd ⟨_, hi⟩ hnum⟩)))
        obtain ⟨⟨n', w⟩, hm, he⟩ := List.mem_map.mp hn
        dsimp only at he
        subst he e
        obtain ⟨i, hi⟩ := List.mem_iff_getElem?.mp hm
        exact hv ⟨i, n', w, hi, hs⟩

/-- **Every document fits, is refused, or is doubtful.** -/
theorem complete (hn : ∀ t ∈ types, t.Nominal ∧ t.Proper K) (hF : ∀ b, F.widen (F.narrow (F.widen b)) = F.widen b) {t : Tree}
    (hd : t.Distinct) (hu : t.Utf8) : ∀ {ty : Ty}, ty.Proper K → Out F N types K ty t := by
  -- types other than references and options, then these
  have lift : ∀ {t : Tree}, (∀ ty : Ty, ty.Nominal → ty.Proper K → Out F N types K ty t) → ∀ {ty : Ty}, ty.Proper K →
      Out F N types K ty t := by
    intro t core ty hp
    induction hp with
    | @named i =>
      cases hi : types[i]? with
      | none => exact .inr (.inr (.undeclared hi))
      | some ty =>
        obtain ⟨h1, h2⟩ := hn ty (List.mem_of_getElem? hi)
        rcases core ty h1 h2 with ⟨y, h⟩ | h | h
        · exact .inl ⟨y, .named hi h⟩
        · exact .inr (.inl (.named hi h))
        · exact .inr (.inr (.named hi h))
    | @option ty hp ih =>
      by_cases hnull : t = .null
      · subst hnull; exact .inl ⟨_, .none _⟩
      · rcases ih with ⟨y, h⟩ | h | h
        · exact .inl ⟨_, .some hnull h⟩
        · exact .inr (.inl (.some hnull h))
        · exact .inr (.inr (.some hnull h))
    | bool => exact core _ ⟨nofun, nofun⟩ .bool
    | int a => exact core _ ⟨nofun, nofun⟩ (.int a)
    | f32 => exact core _ ⟨nofun, nofun⟩ .f32
    | f64 => exact core _ ⟨nofun, nofun⟩ .f64
    | char => exact core _ ⟨nofun, nofun⟩ .char
    | string => exact core _ ⟨nofun, nofun⟩ .string
    | bytes => exact core _ ⟨nofun, nofun⟩ .bytes
    | unit => exact core _ ⟨nofun, nofun⟩ .unit
    | unitStruct => exact core _ ⟨nofun, nofun⟩ .unitStruct
    | newtypeStruct of => exact core _ ⟨nofun, nofun⟩ (.newtypeStruct of)
    | seq of => exact core _ ⟨nofun, nofun⟩ (.seq of)
    | tuple of => exact core _ ⟨nofun, nofun⟩ (.tuple of)
    | map of => exact core _ ⟨nofun, nofun⟩ (.map of)
    | struct d of => exact core _ ⟨nofun, nofun⟩ (.struct d of)
    | enum d a b c e => exact core _ ⟨nofun, nofun⟩ (.enum d a b c e)
  -- types that do not look inside
  have flat : ∀ {t : Tree} {ty : Ty}, ty.Mismatch t → Out F N types K ty t := fun h => .inr (.inl (.any (.mismatch h)))
  have simple : ∀ {t : Tree} {ty : Ty}, ty.Nominal → ty.Proper K → (∀ s, t = .str s → validUtf8 s = true) →
      ((∃ u, ty = .newtypeStruct u) ∨ (∃ us, ty = .tuple us) ∨ (∃ u, ty = .seq u) ∨ (∃ vs, ty = .enum vs) → ∀ xs, t ≠ .arr xs) →
      ((∃ u, ty = .map u) ∨ (∃ fs, ty = .struct fs) → ∀ kvs, t ≠ .dict kvs) → Out F N types K ty t := by
    intro t ty hnom hp hstr ha hdict
    cases hp with
    | named i => exact absurd rfl (hnom.2 i)
    | option => exact absurd rfl (hnom.1 _)
    | bool =>
      by_cases h : ∃ b, t = .bool b
      · obtain ⟨b, rfl⟩ := h; exact .inl ⟨_, .bool b⟩
      · exact flat fun b hb => h ⟨b, hb⟩
    | int a =>
      by_cases h : ∃ n, t = .int n ∧ a.Holds n
      · obtain ⟨n, rfl, h1⟩ := h; exact .inl ⟨_, .int h1⟩
      · exact flat fun n hb hc => h ⟨n, hb, hc⟩
    | f32 =>
      cases t with
      | float d => exact .inl ⟨_, .f32 d⟩
      | int n => exact .inl ⟨_, .f32Int n⟩
      | _ => exact flat ⟨nofun, nofun⟩
    | f64 =>
      cases t with
      | float d => exact .inl ⟨_, .f64 fun b hb => by rw [← hb]; exact hF b⟩
      | int n => exact .inl ⟨_, .f64Int n⟩
      | _ => exact flat ⟨nofun, nofun⟩
    | char =>
      by_cases h : ∃ s, t = .str s ∧ (utf8Decode? s).map (·.length) = some 1
      · obtain ⟨s, rfl, h1⟩ := h
        exact .inl ⟨_, .char (s := ⟨s, hstr s rfl⟩) h1⟩
      · exact flat fun s hs => ⟨hstr s hs, fun hc => h ⟨s, hs, hc⟩⟩
    | string =>
      cases t with
      | str s => exact .inl ⟨_, .string ⟨s, hstr s rfl⟩⟩
      | data d =>
        by_cases hv : validUtf8 d = true
        · exact .inl ⟨_, .stringData ⟨d, hv⟩⟩
        · refine flat ⟨nofun, fun e he => ?_⟩
          cases he; simpa using hv
      | _ => exact flat ⟨nofun, nofun⟩
    | bytes =>
      cases t with
      | str s => exact .inl ⟨_, .bytesStr s⟩
      | data d => exact .inl ⟨_, .bytes d⟩
      | _ => exact flat ⟨nofun, nofun⟩
    | unit =>
      by_cases h : t = .undefined
      · subst h; exact .inl ⟨_, .unit⟩
      · exact flat h
    | unitStruct =>
      by_cases h : t = .undefined
      · subst h; exact .inl ⟨_, .unitStruct⟩
      · exact flat h
    | newtypeStruct => exact flat (ha (.inl ⟨_, rfl⟩))
    | tuple => exact flat (ha (.inr (.inl ⟨_, rfl⟩)))
    | seq => exact .inr (.inl (.any (.notArray (ha (.inr (.inr (.inl ⟨_, rfl⟩)))))))
    | enum => exact .inr (.inl (.any (.notEnum (ha (.inr (.inr (.inr ⟨_, rfl⟩)))))))
    | map => exact .inr (.inl (.any (.notMap (hdict (.inl ⟨_, rfl⟩)))))
    | struct => exact .inr (.inl (.any (.notStruct (hdict (.inr ⟨_, rfl⟩)))))
  induction hd with
  | leaf na nd =>
    intro ty hp
    refine lift (fun ty hnom hp => simple hnom hp ?_ (fun _ => na) (fun _ => nd)) hp
    cases hu with
    | leaf _ _ str => exact str
    | arr => exact absurd rfl (na _)
    | dict => exact absurd rfl (nd _)
  | @arr xs of ih =>
    intro ty hp
    have hx : ∀ x ∈ xs, x.Utf8 := by
      cases hu with
      | leaf na => exact absurd rfl (na _)
      | arr of => exact of
    refine lift (fun ty hnom hp => ?_) hp
    cases hp with
    | seq of => exact .seq fun t ht => ih t ht (hx t ht) of
    | tuple of => exact .tuple fun ty hty t ht => ih t ht (hx t ht) (of ty hty)
    | @newtypeStruct u inner =>
      cases xs with
      | nil => exact .inr (.inl (.any .newtypeEmpty))
      | cons x xs =>
        rcases ih x (by simp) (hx x (by simp)) inner with ⟨y, h⟩ | h | h
        · exact .inl ⟨_, .newtypeStruct h⟩
        · exact .inr (.inl (.newtypeStruct h))
        · exact .inr (.inr (.newtypeStruct h))
    | enum d a b c e => exact .enum (.enum d a b c e) fun t ht ty hp => ih t ht (hx t ht) hp
    | map of => exact simple hnom (.map of) nofun (by rintro (⟨_, h⟩ | ⟨_, h⟩ | ⟨_, h⟩ | ⟨_, h⟩) <;> cases h) fun _ => nofun
    | struct d of => exact simple hnom (.struct d of) nofun (by rintro (⟨_, h⟩ | ⟨_, h⟩ | ⟨_, h⟩ | ⟨_, h⟩) <;> cases h) fun _ => nofun
    | named i => exact absurd rfl (hnom.2 i)
    | option => exact absurd rfl (hnom.1 _)
    | bool => exact simple hnom .bool nofun (by rintro (⟨_, h⟩ | ⟨_, h⟩ | ⟨_, h⟩ | ⟨_, h⟩) <;> cases h) fun _ => nofun
    | int a => exact simple hnom (.int a) nofun (by rintro (⟨_, h⟩ | ⟨_, h⟩ | ⟨_, h⟩ | ⟨_, h⟩) <;> cases h) fun _ => nofun
    | f32 => exact simple hnom .f32 nofun (by rintro (⟨_, h⟩ | ⟨_, h⟩ | ⟨_, h⟩ | ⟨_, h⟩) <;> cases h) fun _ => nofun
    | f64 => exact simple hnom .f64 nofun (by rintro (⟨_, h⟩ | ⟨_, h⟩ | ⟨_, h⟩ | ⟨_, h⟩) <;> cases h) fun _ => nofun
    | char => exact simple hnom .char nofun (by rintro (⟨_, h⟩ | ⟨_, h⟩ | ⟨_, h⟩ | ⟨_, h⟩) <;> cases h) fun _ => nofun
    | string => exact simple hnom .string nofun (by rintro (⟨_, h⟩ | ⟨_, h⟩ | ⟨_, h⟩ | ⟨_, h⟩) <;> cases h) fun _ => nofun
    | bytes => exact simple hnom .bytes nofun (by rintro (⟨_, h⟩ | ⟨_, h⟩ | ⟨_, h⟩ | ⟨_, h⟩) <;> cases h) fun _ => nofun
    | unit => exact simple hnom .unit nofun (by rintro (⟨_, h⟩ | ⟨_, h⟩ | ⟨_, h⟩ | ⟨_, h⟩) <;> cases h) fun _ => nofun
    | unitStruct => exact simple hnom .unitStruct nofun (by rintro (⟨_, h⟩ | ⟨_, h⟩ | ⟨_, h⟩ | ⟨_, h⟩) <;> cases h) fun _ => nofun
  | @dict kvs once of ih =>
    intro ty hp
    obtain ⟨hk, hx⟩ : (∀ e ∈ kvs, validUtf8 e.1 = true) ∧ ∀ e ∈ kvs, e.2.Utf8 := by
      cases hu with
      | leaf _ nd => exact absurd rfl (nd _)
      | dict key of => exact ⟨key, of⟩
    refine lift (fun ty hnom hp => ?_) hp
    by_cases hm : (∃ u, ty = .map u) ∨ ∃ fs, ty = .struct fs
    · rcases hm with ⟨u, rfl⟩ | ⟨fs, rfl⟩
      · cases hp with
        | map of => exact .map hk once fun e he => ih e he (hx e he) of
      · cases hp with
        | struct d of => exact .struct (fun t ht => (hn t ht).1) d once fun f hf e he => ih e he (hx e he) (of f hf)
    · exact simple hnom hp nofun (fun _ => nofun) fun h => absurd h hm

/-- Without doubtful places, what fits loosely fits. -/
theorem Fits.sure {ty : Ty} {t : Tree} {y : SVal} (h : Fits (looseRules F N types K) ty t y) (hd : ¬ Doubtful types ty t) :
    Fits (strictRules F N types K) ty t y := by
  -- the tag is a name
  have named : ∀ {i : Nat} {name : RStr} {tag : Tree} {rest : List Tree} {vs : List (RStr × Variant)}, tagLoose i name tag →
      ¬ Doubtful types (.enum vs) (.arr (tag :: rest)) → tagNamed name tag := by
    rintro i name tag rest vs (rfl | rfl | rfl) hd
    · exact .inl rfl
    · exact .inr rfl
    · exact absurd (.number _ _) hd
  induction h with
  | named decl _ ih => exact .named decl (ih fun h => hd (.named decl h))
  | bool b => exact .bool b
  | int h => exact .int h
  | f32 d => exact Fits.f32 (R := strictRules F N types K) d
  | f32Int i => exact Fits.f32Int (R := strictRules F N types K) i
  | f64 exact_ => exact Fits.f64 (R := strictRules F N types K) exact_
  | f64Int i => exact Fits.f64Int (R := strictRules F N types K) i
  | char one => exact .char one
  | string s => exact .string s
  | stringData s => exact .stringData s
  | bytes d => exact .bytes d
  | bytesStr s => exact .bytesStr s
  | none ty => exact .none ty
  | some there _ ih => exact .some there (ih fun h => hd (.some there h))
  | unit => exact .unit
  | unitStruct => exact .unitStruct
  | newtypeStruct _ ih => exact .newtypeStruct (ih fun h => hd (.newtypeStruct h))
  | seq len _ ih => exact .seq len fun i t y ht hy => ih i t y ht hy fun h => hd (.seq ht h)
  | tuple len enough _ ih => exact .tuple len enough fun i ty t y h1 h2 h3 => ih i ty t y h1 h2 h3 fun h => hd (.tuple h1 h2 h)
  | map sorted keys _ ih => exact .map sorted keys fun k t y h1 h2 => ih k t y h1 h2 fun h => hd (.map h1 h)
  | struct distinct once names _ missing ih =>
    exact .struct distinct once names (fun i f y t h1 h2 h3 => ih i f y t h1 h2 h3 fun h =>
      hd (.field (List.mem_of_getElem? h1) h3 h)) missing
  | unitVariant distinct decl called => exact .unitVariant distinct decl (named called hd)
  | newtypeVariant distinct decl called _ ih =>
    have hc := named called hd
    exact .newtypeVariant distinct decl hc (ih fun h => hd (.newtypeVariant decl hc h))
  | tupleVariant distinct decl called len len' _ ih =>
    have hc := named called hd
    exact .tupleVariant distinct decl hc len len' fun i ty t y h1 h2 h3 => ih i ty t y h1 h2 h3 fun h =>
      hd (.tupleVariant decl hc (.tuple h1 h2 h))
  | structVariant distinct decl called fields once len keys look names _ ih =>
    have hc := named called hd
    exact .structVariant distinct decl hc fields once len keys look names fun i f y t h1 h2 h3 => ih i f y t h1 h2 h3 fun h =>
      hd (.structVariant decl hc (.field (List.mem_of_getElem? h1) h3 h))
  | lost distinct decl data called _ => exact absurd (.bare decl data (named called hd)) hd

end

end Fleece
