import Verif.Proofs.MutRel

/-! # Mutable collections: what the client sees -/

namespace Fleece
open Res

variable {dbg : Bool} {F : FloatOps} {K : List UInt8 → Prop}

theorem perm_of_keys {α β : Type} {l l' : List (α × β)} (h : (l.map (·.1)).Nodup) (h' : (l'.map (·.1)).Nodup)
    (hm : ∀ x, x ∈ l ↔ x ∈ l') : l.Perm l' := by
  have nd : ∀ {l : List (α × β)}, (l.map (·.1)).Nodup → l.Nodup := fun h =>
    List.Pairwise.imp (fun hne e => hne (by rw [e])) (List.pairwise_map.mp h)
  exact (List.perm_ext_iff_of_nodup (nd h) (nd h')).mpr hm

/-- Iteration over a dict that holds only keys in `K`. -/
theorem pairsGo_spec {sk : Option SharedKeys} (fine : KeysFine K sk) {map : List (Key × Slot)} (hs : Sorted map)
    (hk : ∀ key s, (key, s) ∈ map → ∃ k, K k ∧ key = mutEncodeKey sk k) :
    (Slot.pairsGo sk map).length = map.length ∧ ((Slot.pairsGo sk map).map (·.1)).Nodup ∧
      ∀ k s, (k, s) ∈ Slot.pairsGo sk map ↔ K k ∧ (mutEncodeKey sk k, s) ∈ map := by
  induction map with
  | nil => simp [Slot.pairsGo]
  | cons e r ih =>
    obtain ⟨key, s0⟩ := e
    obtain ⟨h1, h2⟩ := List.pairwise_cons.mp hs
    obtain ⟨k0, hk0, rfl⟩ := hk key s0 (List.mem_cons_self ..)
    obtain ⟨g1, g2, g3⟩ := ih h2 (fun key s hm => hk key s (List.mem_cons_of_mem _ hm))
    simp only [Slot.pairsGo, fine.decode hk0]
    refine ⟨by simp [g1], ?_, ?_⟩
    · simp only [List.map_cons, List.nodup_cons]
      refine ⟨?_, g2⟩
      intro hm
      rw [List.mem_map] at hm
      obtain ⟨⟨k, s⟩, hm, rfl⟩ := hm
      exact Key.lt_irrefl _ (h1 (mutEncodeKey sk k, s) ((g3 k s).mp hm).2)
    · intro k s
      simp only [List.mem_cons, Prod.mk.injEq]
      rw [g3]
      constructor
      · rintro (⟨rfl, rfl⟩ | ⟨h, hm⟩)
        · exact ⟨hk0, .inl ⟨rfl, rfl⟩⟩
        · exact ⟨h, .inr hm⟩
      · rintro ⟨h, ⟨he, rfl⟩ | hm⟩
        · exact .inl ⟨fine.inj h hk0 he, rfl⟩
        · exact .inr ⟨h, hm⟩

/-- The two dicts have the same entries: the pairs, and their number. -/
theorem Rel.pairs {sk : Option SharedKeys} {map : List (Key × Slot)} {kvs : List (List UInt8 × Node)}
    (h : Rel dbg F K (.dict sk map) (.dict kvs)) :
    map.length = kvs.length ∧ ((Slot.pairsGo sk map).map (·.1)).Nodup ∧
      (∀ k s, (k, s) ∈ Slot.pairsGo sk map → ∃ n, (k, n) ∈ kvs ∧ Rel dbg F K s n) ∧
      (∀ k n, (k, n) ∈ kvs → ∃ s, (k, s) ∈ Slot.pairsGo sk map ∧ Rel dbg F K s n) := by
  cases h with
  | dict fine sorted nodup keys to of rel =>
    have hk : ∀ key s, (key, s) ∈ map → ∃ k, K k ∧ key = mutEncodeKey sk k := by
      intro key s hm
      obtain ⟨k, n, h1, h2⟩ := of key s hm
      exact ⟨k, keys _ _ h1, h2⟩
    obtain ⟨g1, g2, g3⟩ := pairsGo_spec fine sorted hk
    have hfwd : ∀ k s, (k, s) ∈ Slot.pairsGo sk map → ∃ n, (k, n) ∈ kvs ∧ Rel dbg F K s n := by
      intro k s hm
      obtain ⟨hkk, hm⟩ := (g3 k s).mp hm
      obtain ⟨k', n, h1, h2⟩ := of _ _ hm
      have := fine.inj hkk (keys _ _ h1) h2
      subst this
      exact ⟨n, h1, rel k s n hm h1⟩
    have hbwd : ∀ k n, (k, n) ∈ kvs → ∃ s, (k, s) ∈ Slot.pairsGo sk map ∧ Rel dbg F K s n := by
      intro k n hm
      obtain ⟨s, hs⟩ := to k n hm
      exact ⟨s, (g3 k s).mpr ⟨keys _ _ hm, hs⟩, rel k s n hs hm⟩
    refine ⟨?_, g2, hfwd, hbwd⟩
    have hp : ((Slot.pairsGo sk map).map (·.1)).Perm (kvs.map (·.1)) := by
      refine (List.perm_ext_iff_of_nodup g2 nodup).mpr fun k => ?_
      simp only [List.mem_map, Prod.exists, exists_and_right, exists_eq_right]
      constructor
      · rintro ⟨s, hm⟩
        obtain ⟨n, hn, _⟩ := hfwd k s hm
        exact ⟨n, hn⟩
      · rintro ⟨n, hm⟩
        obtain ⟨s, hs, _⟩ := hbwd k n hm
        exact ⟨s, hs⟩
    have := hp.length_eq
    simp only [List.length_map] at this
    omega

/-- An element seen from outside. -/
theorem Rel.shape {s : Slot} {n : Node} (h : Rel dbg F K s n) (base : Nat) : s.shape dbg base F = .ok n.shape := by
  cases h with
  | inline h => simp only [Slot.shape, Slot.value, h base, ok_bind, pure_eq, Node.shape]
  | boxed h => simp only [Slot.shape, Slot.value, h base, ok_bind, pure_eq, Node.shape]
  | arr len rel => simp [Slot.shape, Slot.value, Slot.array, Slot.len, Node.shape, len]
  | dict fine sorted nodup keys to of rel =>
    have := (Rel.dict fine sorted nodup keys to of rel).pairs.1
    simp [Slot.shape, Slot.value, Slot.array, Slot.len, Node.shape, this]

theorem Rel.follow (path : List Hop) {s : Slot} {n : Node} (hp : Hop.Keys K path) (h : Rel dbg F K s n) :
    (s.follow path = none ∧ n.follow path = none) ∨
      ∃ s' n', s.follow path = some s' ∧ n.follow path = some n' ∧ Rel dbg F K s' n' := by
  induction path generalizing s n with
  | nil => exact .inr ⟨s, n, rfl, rfl, h⟩
  | cons hop path ih =>
    have hsel : hop.sel.Ok K := fun k hk => hp hop (List.mem_cons_self ..) k hk
    have hp' : Hop.Keys K path := fun h' hm => hp h' (List.mem_cons_of_mem _ hm)
    simp only [Slot.follow, Node.follow]
    rcases h.child hsel with ⟨h1, h2⟩ | ⟨c, c', h1, h2, hc⟩
    · rw [h1, h2]; exact .inl ⟨rfl, rfl⟩
    · rw [h1, h2]
      dsimp only
      rw [hc.isKind]
      split
      · exact ih hp' hc
      · exact .inl ⟨rfl, rfl⟩

theorem shapes_eq {α : Type} {f : Slot → R Glimpse} {g : α → Slot} {h : α → Glimpse} {l : List α}
    (hl : ∀ a ∈ l, f (g a) = .ok (h a)) : shapes f g l = .ok (l.map fun a => (a, h a)) := by
  induction l with
  | nil => rfl
  | cons a r ih =>
    simp only [shapes, hl a (List.mem_cons_self ..), ok_bind, ih fun b hb => hl b (List.mem_cons_of_mem _ hb), pure_eq,
      List.map_cons]

/-- Every answer is right. -/
theorem Rel.answer {s : Slot} {n : Node} (h : Rel dbg F K s n) (base : Nat) {path : List Hop} (hp : Hop.Keys K path)
    {q : Query} (hq : q.Keys K) : ∃ a, s.answer dbg base F path q = .ok a ∧ a.Same (n.answer path q) := by
  unfold Slot.answer Node.answer
  rcases h.follow path hp with ⟨h1, h2⟩ | ⟨s', n', h1, h2, hr⟩
  · rw [h1, h2]; exact ⟨_, rfl, rfl⟩
  rw [h1, h2]
  cases q with
  | len =>
    refine ⟨_, rfl, ?_⟩
    cases hr with
    | inline h => exact rfl
    | boxed h => exact rfl
    | arr len rel => simp [Answer.Same, Slot.len, len]
    | dict fine sorted nodup keys to of rel =>
      have := (Rel.dict fine sorted nodup keys to of rel).pairs.1
      simp [Answer.Same, Slot.len, this]
  | «at» x =>
    have hx : x.Ok K := by
      rintro k rfl; exact hq
    dsimp only
    unfold Slot.get Slot.getArray Slot.getDict
    rcases hr.child hx with ⟨g1, g2⟩ | ⟨c, c', g1, g2, hc⟩
    · rw [g1, g2]; exact ⟨_, rfl, rfl⟩
    · rw [g1, g2]
      cases hc with
      | inline h =>
        refine ⟨.at (some (.value _)), ?_, rfl⟩
        simp only [Option.bind_some, Slot.value, Slot.shape, h base, ok_bind, pure_eq]
      | boxed h =>
        refine ⟨.at (some (.value _)), ?_, rfl⟩
        simp only [Option.bind_some, Slot.value, Slot.shape, h base, ok_bind, pure_eq]
      | arr len rel => exact ⟨_, rfl, by simp [Answer.Same, Node.shape, len]⟩
      | dict fine sorted nodup keys to of rel =>
        have := (Rel.dict fine sorted nodup keys to of rel).pairs.1
        exact ⟨_, rfl, by simp [Answer.Same, Node.shape, this]⟩
  | has k =>
    have hx : (Sel.key k).Ok K := by
      rintro k' ⟨⟩; exact hq
    dsimp only
    unfold Slot.containsKey
    rcases hr.child hx with ⟨g1, g2⟩ | ⟨c, c', g1, g2, hc⟩
    · rw [g1, g2]; exact ⟨_, rfl, rfl⟩
    · rw [g1, g2]; exact ⟨_, rfl, rfl⟩
  | items =>
    cases hr with
    | inline h => exact ⟨_, rfl, rfl⟩
    | boxed h => exact ⟨_, rfl, rfl⟩
    | dict fine sorted nodup keys to of rel => exact ⟨_, rfl, rfl⟩
    | @arr l xs len rel =>
      dsimp only [Slot.items]
      have hex : ∃ l' : List (Slot × Glimpse), shapes (Slot.shape dbg base F) id l = .ok l' ∧ l'.map (·.2) = xs.map Node.shape := by
        clear h1 h2 h hp hq
        induction l generalizing xs with
        | nil =>
          cases xs with
          | nil => exact ⟨[], rfl, rfl⟩
          | cons _ _ => simp at len
        | cons s r ih =>
          cases xs with
          | nil => simp at len
          | cons y ys =>
            obtain ⟨l', g1, g2⟩ := ih (xs := ys) (by simpa using len) fun i s n a b => rel (i + 1) s n (by simpa using a) (by simpa using b)
            refine ⟨(s, y.shape) :: l', ?_, by simp [g2]⟩
            simp only [shapes, id, (rel 0 s y rfl rfl).shape base, ok_bind, g1, pure_eq]
      obtain ⟨l', g1, g2⟩ := hex
      rw [g1]
      exact ⟨_, rfl, by simp [Answer.Same, g2]⟩
  | pairs =>
    cases hr with
    | inline h => exact ⟨_, rfl, List.Perm.refl _⟩
    | boxed h => exact ⟨_, rfl, List.Perm.refl _⟩
    | arr len rel => exact ⟨_, rfl, List.Perm.refl _⟩
    | @dict sk map kvs fine sorted nodup keys to of rel =>
      obtain ⟨_, g2, g3, g4⟩ := (Rel.dict fine sorted nodup keys to of rel).pairs
      have hsh := shapes_eq (f := Slot.shape dbg base F) (g := fun e : List UInt8 × Slot => e.2)
        (h := fun e => ((Node.lookup e.1 kvs).map Node.shape).getD (.arr 0)) (l := Slot.pairsGo sk map) (by
          rintro ⟨k, s⟩ hm
          obtain ⟨n, hn, hr⟩ := g3 k s hm
          simp only [(lookup_iff nodup).mpr hn, Option.map_some, Option.getD_some]
          exact hr.shape base)
      dsimp only [Slot.pairs]
      rw [hsh]
      refine ⟨_, rfl, ?_⟩
      simp only [Answer.Same, List.map_map]
      refine perm_of_keys ?_ ?_ ?_
      · rw [List.map_map]; exact g2
      · rw [List.map_map]; exact nodup
      · rintro ⟨k, sh⟩
        simp only [List.mem_map, Function.comp, Prod.mk.injEq, Prod.exists]
        constructor
        · rintro ⟨k', s, hm, rfl, rfl⟩
          obtain ⟨n, hn, _⟩ := g3 k' s hm
          exact ⟨k', n, hn, rfl, by simp [(lookup_iff nodup).mpr hn]⟩
        · rintro ⟨k', n, hn, rfl, rfl⟩
          obtain ⟨s, hm, _⟩ := g4 k' n hn
          exact ⟨k', s, hm, rfl, by simp [(lookup_iff nodup).mpr hn]⟩

/-! ## Scalars in slots -/

theorem holds_padded (bs : List UInt8) (pad base : Nat) :
    Holds ⟨bs ++ List.replicate pad 0, base, dbg⟩ ⟨0, (bs ++ List.replicate pad (0 : UInt8)).length⟩ bs := by
  refine ⟨?_, by simp, by simp⟩
  unfold Val.In; simp

theorem reads_padded {bs : List UInt8} {ty : ValueType} {t : Tree} (h : ScalarBytes F bs ty t) (pad : Nat) :
    Reads dbg F (bs ++ List.replicate pad 0) t := fun base => h.read _ _ _ 0 (holds_padded bs pad base)

/-- A value that is written in its announced size reads back from its slot. -/
theorem ofItem_rel {x : Item} {t : Tree}
    (h : ∀ buf, x.size ≤ buf → ∃ bs ty, x.writeTo dbg buf false = .ok (some bs) ∧ ScalarBytes F bs ty t) :
    ∃ s, Slot.ofItem dbg x = .ok s ∧ Rel dbg F K s (.leaf t) := by
  unfold Slot.ofItem
  split
  · next hs =>
    obtain ⟨bs, ty, h1, h2⟩ := h _ hs
    refine ⟨.inline (bs ++ List.replicate (Slot.inlineCapacity - bs.length) 0), ?_, .inline (reads_padded h2 _)⟩
    simp only [h1, ok_bind, pure_eq]
  · obtain ⟨bs, ty, h1, h2⟩ := h _ (Nat.le_refl _)
    refine ⟨.boxed (bs ++ List.replicate (x.size - bs.length) 0), ?_, .boxed (reads_padded h2 _)⟩
    simp only [h1, ok_bind, pure_eq]

theorem Scalar.slot_ok {x : Scalar} (hx : x.Kept) : ∃ s, Slot.new dbg x = .ok s ∧ Rel dbg F K s (.leaf (x.tree F)) := by
  by_cases hsv : x.Survives
  · refine ofItem_rel fun buf hb => ?_
    obtain ⟨bs, ty, h1, _, h3⟩ := Scalar.writeTo_ok (F := F) dbg hsv hb
    exact ⟨bs, ty, h1, h3⟩
  · cases x with
    | u16 n =>
      have hn : 2047 < n.toNat := by
        unfold Scalar.Survives at hsv; omega
      have hlt := n.toNat_lt
      have hw := wordKept_u32 (n := n.toNat) (by omega) (by omega)
      have hsz : u64Size n.toNat ≤ 15 := by unfold u64Size; split <;> omega
      obtain ⟨bs, ty, h1, h2, h3⟩ := writeU64_ok (F := F) dbg (n := n.toNat) (by omega) (.inr hw) hsz
      unfold writeU64 at h1
      rw [if_neg (by omega)] at h1
      refine ⟨.inline (bs ++ List.replicate (15 - bs.length) 0), ?_, .inline (reads_padded h3 _)⟩
      simp only [Slot.new, Slot.ofItem, Item.size, Scalar.size, Item.writeTo, Scalar.writeTo, writeU16, Slot.inlineCapacity]
      rw [if_pos (by omega), if_pos hn, h1]
      rfl
    | _ => exact absurd hx hsv

/-! ## Programs -/

/-- Every program does what it should. -/
theorem Prog.run_rel {β : Type} {load : β → Exec Slot} {means : β → Node} {base : β → Prop}
    (hbase : ∀ b, base b → RelOut dbg F K (load b) (some (means b))) (p : Prog β) (hp : p.Good K base) :
    RelOut dbg F K (p.eval dbg load) (p.spec F means) := by
  induction p with
  | array => exact ⟨_, rfl, .arr rfl (by simp)⟩
  | dict sk => exact ⟨_, rfl, .dict hp List.Pairwise.nil (by simp) (by simp) (by simp) (by simp) (by simp)⟩
  | scalar x => exact Scalar.slot_ok hp
  | base b => exact hbase b hp
  | clone p ih =>
    have := ih hp
    simp only [Prog.eval, Prog.spec]
    cases hs : p.spec F means with
    | none =>
      rw [hs] at this
      have this : p.eval dbg load = .panic := this
      rw [this]; rfl
    | some n =>
      rw [hs] at this
      obtain ⟨s, h1, h2⟩ := this
      rw [h1]
      exact ⟨_, rfl, h2.clone⟩
  | put t path place arg iht iha =>
    obtain ⟨ht, hpath, hplace, ha⟩ := hp
    have ht := iht ht
    have ha := iha ha
    simp only [Prog.eval, Prog.spec]
    cases hs : t.spec F means with
    | none =>
      rw [hs] at ht
      have ht : t.eval dbg load = .panic := ht
      rw [ht]; rfl
    | some n =>
      rw [hs] at ht
      obtain ⟨s, h1, h2⟩ := ht
      rw [h1]
      cases hs' : arg.spec F means with
      | none =>
        rw [hs'] at ha
        have ha : arg.eval dbg load = .panic := ha
        rw [ha]; rfl
      | some y =>
        rw [hs'] at ha
        obtain ⟨x, h1', h2'⟩ := ha
        rw [h1']
        exact Rel.update (fun s n h => h.put h2' hplace) path hpath h2
  | remove t path sel iht =>
    obtain ⟨ht, hpath, hsel⟩ := hp
    have ht := iht ht
    simp only [Prog.eval, Prog.spec]
    cases hs : t.spec F means with
    | none =>
      rw [hs] at ht
      have ht : t.eval dbg load = .panic := ht
      rw [ht]; rfl
    | some n =>
      rw [hs] at ht
      obtain ⟨s, h1, h2⟩ := ht
      rw [h1]
      exact Rel.update (fun s n h => h.remove hsel) path hpath h2

end Fleece
