import Verif.Proofs.HasFits
import Verif.Proofs.Refuses
import Verif.Proofs.Doubtful
import Verif.Props.C38

/-!
# C43 Reading a document as a type

Full claim: deserializing a document as a type gives the value the document stands for (`Fits`, with `strictRules`), whoever
wrote it and from whatever type, and fails if there is none. The first half is `C43_reads`; `C43_evolves_partial` is what it
means for a struct that has lost some fields and got new ones since it was written. Of the second half, `C43_refuses` gives the
kind of error for every kind of mismatch that is spelled out in `Refuses`; the whole of it is false of the code
(`C43_refuted`): a variant with data that is written without data, i.e. as an array with just the name, is read with whatever
follows the array in the buffer as its data. `C43_honest_partial` proves that this is the only way to get a value that is not
in the document (and that numbers may stand for variants). Documents without such places (`Doubtful`) are decided:
`C43_decides_partial` and `C43_exact_partial`.
-/

namespace Fleece.Props
open Fleece Res

/-- **C43, what fits is read.** -/
theorem C43_reads (F : FloatOps) (N : NumOps) (scope : Option SharedKeys) (types : List Ty) (probe : List UInt8 → Prop)
    (ty : Ty) (t : Tree) (y : SVal) (out : List UInt8) (hs : Shows F scope probe out t) (hk : t.Keyed fun k => k ≠ [])
    (hf : Fits (strictRules F N types fun k => probe k.bytes) ty t y) (m : Mem) (hm : m.data = out)
    (hb : m.base + out.length < 2 ^ 64) :
    ∃ depth, ∀ fuel, depth ≤ fuel → Ty.fromBytes ⟨m, F, N, scope, types⟩ fuel ty = .ok y := by
  obtain ⟨v, t', h1, h2, h3⟩ := hs m hm hb
  have hf' := hf.same (by rintro i name t (rfl | rfl) <;> exact ⟨nofun, nofun⟩) h2
  obtain ⟨d, hd⟩ := de_fits (X := ⟨m, F, N, scope, types⟩) (probe := probe) rfl rfl rfl (fun _ h => h) (fun _ _ _ h => h)
    (fun h => h) hf' h3 (hk.same h2)
  obtain ⟨vt, h4, h5⟩ := h3.direct
  refine ⟨d, fun fuel hf => ?_⟩
  unfold Ty.fromBytes
  simp only [h1, dread_ok, ok_bind, new_ok (X := ⟨m, F, N, scope, types⟩) h4 h5, hd fuel hf]

/-- **C43, what does not fit is refused, and how.** `Refuses` says which documents are refused as which types, and with what
kind of error: the wrong kind of thing, numbers out of range, a missing field, an unknown variant, data of the wrong shape
behind a variant, at any depth. -/
theorem C43_refuses (F : FloatOps) (N : NumOps) (scope : Option SharedKeys) (types : List Ty) (probe : List UInt8 → Prop)
    (ty : Ty) (t : Tree) (r : Refusal) (out : List UInt8) (hs : Shows F scope probe out t) (hk : t.Keyed fun k => k ≠ [])
    (hf : Refuses (strictRules F N types fun k => probe k.bytes) ty t r) (m : Mem) (hm : m.data = out)
    (hb : m.base + out.length < 2 ^ 64) :
    ∃ depth, ∀ fuel, depth ≤ fuel → ∃ e, Ty.fromBytes ⟨m, F, N, scope, types⟩ fuel ty = .err e ∧ r.Is e := by
  obtain ⟨v, t', h1, h2, h3⟩ := hs m hm hb
  have hf' := hf.same (by rintro i name t (rfl | rfl) <;> exact ⟨nofun, nofun⟩) h2
  obtain ⟨d, hd⟩ := de_refuses (X := ⟨m, F, N, scope, types⟩) (probe := probe) rfl rfl rfl (fun _ h => h) (fun _ _ _ h => h)
    (fun h => h) hf' h3 (hk.same h2)
  obtain ⟨vt, h4, h5⟩ := h3.direct
  refine ⟨d, fun fuel hf => ?_⟩
  unfold Ty.fromBytes
  simp only [h1, dread_ok, ok_bind, new_ok (X := ⟨m, F, N, scope, types⟩) h4 h5]
  exact hd fuel hf

/-- **C43, what is read fits.** Partial: under `looseRules`. The hypotheses are that no dict of the document has a key twice,
that names are distinct in the types (as Rust demands), that lookup works for the names of fields of struct variants, and
that narrowing a float that has been widened gives it back. -/
theorem C43_honest_partial (F : FloatOps) (N : NumOps) (scope : Option SharedKeys) (types : List Ty)
    (probe : List UInt8 → Prop) (ty : Ty) (t : Tree) (y : SVal) (out : List UInt8) (hs : Shows F scope probe out t)
    (hk : t.Keyed fun k => k ≠ []) (hd : t.Distinct) (hty : ty.Proper fun k => probe k.bytes)
    (htypes : ∀ t ∈ types, t.Nominal ∧ t.Proper fun k => probe k.bytes)
    (hF : ∀ b, F.widen (F.narrow (F.widen b)) = F.widen b) (m : Mem) (hm : m.data = out) (hb : m.base + out.length < 2 ^ 64)
    (fuel : Nat) (h : Ty.fromBytes ⟨m, F, N, scope, types⟩ fuel ty = .ok y) :
    Fits (looseRules F N types fun k => probe k.bytes) ty t y := by
  obtain ⟨v, t', h1, h2, h3⟩ := hs m hm hb
  obtain ⟨vt, h4, h5⟩ := h3.direct
  unfold Ty.fromBytes at h
  simp only [h1, dread_ok, ok_bind, new_ok (X := ⟨m, F, N, scope, types⟩) h4 h5] at h
  refine Fits.same ?_ (fits_de (X := ⟨m, F, N, scope, types⟩) (R := looseRules F N types fun k => probe k.bytes) rfl rfl rfl
    htypes (fun _ h => h) (fun _ _ _ h => h) trivial hF fuel h3 (hk.same h2) (hd.same h2) hty h) h2.symm
  rintro i name t (rfl | rfl | rfl) <;> exact ⟨nofun, nofun⟩

/-- **C43, decided.** If there is no doubtful enum in the document (an array without a name, a number for the name, a name without
its data), it is read as the value it stands for, or, if it stands for none, refused with an error. There is nothing else: no
panic, no read outside, no recursion without end. -/
theorem C43_decides_partial (F : FloatOps) (N : NumOps) (scope : Option SharedKeys) (types : List Ty) (probe : List UInt8 → Prop)
    (ty : Ty) (t : Tree) (out : List UInt8) (hs : Shows F scope probe out t) (hk : t.Keyed fun k => k ≠ []) (hd : t.Distinct)
    (hu : t.Utf8) (hty : ty.Proper fun k => probe k.bytes) (htypes : ∀ t ∈ types, t.Nominal ∧ t.Proper fun k => probe k.bytes)
    (hF : ∀ b, F.widen (F.narrow (F.widen b)) = F.widen b) (sure : ¬ Doubtful types ty t) (m : Mem) (hm : m.data = out)
    (hb : m.base + out.length < 2 ^ 64) :
    (∃ y, Fits (strictRules F N types fun k => probe k.bytes) ty t y ∧
      ∃ depth, ∀ fuel, depth ≤ fuel → Ty.fromBytes ⟨m, F, N, scope, types⟩ fuel ty = .ok y) ∨
    ((∀ y, ¬ Fits (strictRules F N types fun k => probe k.bytes) ty t y) ∧
      ∃ depth, ∀ fuel, depth ≤ fuel → ∃ e, Ty.fromBytes ⟨m, F, N, scope, types⟩ fuel ty = .err e) := by
  rcases complete (N := N) htypes hF hd hu hty with ⟨y, h⟩ | h | h
  · exact .inl ⟨y, h, C43_reads F N scope types probe ty t y out hs hk h m hm hb⟩
  · obtain ⟨d, hr⟩ := C43_refuses F N scope types probe ty t .any out hs hk h m hm hb
    refine .inr ⟨fun y hy => ?_, d, fun fuel hf => ?_⟩
    · obtain ⟨d', hy⟩ := C43_reads F N scope types probe ty t y out hs hk hy m hm hb
      obtain ⟨e, he, _⟩ := hr (max d d') (by omega)
      rw [hy (max d d') (by omega)] at he
      cases he
    · obtain ⟨e, he, _⟩ := hr fuel hf
      exact ⟨e, he⟩
  · exact absurd h sure

/-- **C43, exactly.** If there is no doubtful enum in the document, `from_bytes` returns a value if and only if it is the one the
document stands for. -/
theorem C43_exact_partial (F : FloatOps) (N : NumOps) (scope : Option SharedKeys) (types : List Ty) (probe : List UInt8 → Prop)
    (ty : Ty) (t : Tree) (y : SVal) (out : List UInt8) (hs : Shows F scope probe out t) (hk : t.Keyed fun k => k ≠ [])
    (hd : t.Distinct) (hty : ty.Proper fun k => probe k.bytes) (htypes : ∀ t ∈ types, t.Nominal ∧ t.Proper fun k => probe k.bytes)
    (hF : ∀ b, F.widen (F.narrow (F.widen b)) = F.widen b) (sure : ¬ Doubtful types ty t) (m : Mem) (hm : m.data = out)
    (hb : m.base + out.length < 2 ^ 64) :
    (∃ fuel, Ty.fromBytes ⟨m, F, N, scope, types⟩ fuel ty = .ok y) ↔
      Fits (strictRules F N types fun k => probe k.bytes) ty t y := by
  constructor
  · rintro ⟨fuel, h⟩
    exact (C43_honest_partial F N scope types probe ty t y out hs hk hd hty htypes hF m hm hb fuel h).sure sure
  · intro h
    obtain ⟨d, hr⟩ := C43_reads F N scope types probe ty t y out hs hk h m hm hb
    exact ⟨d, hr d (Nat.le_refl _)⟩

/-- A struct is not read from a document that lacks a field, unless that is an `Option`. -/
theorem C43_missing_partial (F : FloatOps) (N : NumOps) (scope : Option SharedKeys) (types : List Ty)
    (probe : List UInt8 → Prop) (fs : List (RStr × Ty)) (kvs : List (List UInt8 × Tree)) (out : List UInt8)
    (hs : Shows F scope probe out (.dict kvs)) (hk : (Tree.dict kvs).Keyed fun k => k ≠ []) (hd : (Tree.dict kvs).Distinct)
    (hty : (Ty.struct fs).Proper fun k => probe k.bytes)
    (htypes : ∀ t ∈ types, t.Nominal ∧ t.Proper fun k => probe k.bytes)
    (hF : ∀ b, F.widen (F.narrow (F.widen b)) = F.widen b) (f : RStr × Ty) (hf : f ∈ fs)
    (required : ∀ t, f.2 ≠ .option t) (missing : f.1.bytes ∉ kvs.map (·.1)) (m : Mem) (hm : m.data = out)
    (hb : m.base + out.length < 2 ^ 64) (fuel : Nat) (y : SVal) :
    Ty.fromBytes ⟨m, F, N, scope, types⟩ fuel (.struct fs) ≠ .ok y := by
  intro h
  have := C43_honest_partial F N scope types probe _ _ y out hs hk hd hty htypes hF m hm hb fuel h
  cases this with
  | struct distinct once names of miss =>
    rename_i ys
    obtain ⟨i, hi, rfl⟩ := List.mem_iff_getElem.mp hf
    have hl : ys.length = fs.length := by simpa using congrArg List.length names
    obtain ⟨⟨t, ht⟩, _⟩ := miss i fs[i] (ys[i]'(by omega)) (by simp) (by simp) missing
    exact required t ht

/-- **C43, repeated keys.** A dict with any entries, in the order in which they are stored, of which every value is one that
can be read: the map has exactly the keys of the dict, ascending, each with the value of its last entry. -/
theorem C43_map_last_partial (F : FloatOps) (N : NumOps) (scope : Option SharedKeys) (types : List Ty) (probe : List UInt8 → Prop)
    (ty : Ty) (kvs : List (List UInt8 × Tree)) (es : List (RStr × SVal)) (m : Mem) (v : Val)
    (hm : Matches m F scope probe v (.dict kvs)) (hk : (Tree.dict kvs).Keyed fun k => k ≠ [])
    (keys : kvs.map (·.1) = es.map fun e => e.1.bytes)
    (each : ∀ (j : Nat) (e : List UInt8 × Tree) (a : RStr × SVal), kvs[j]? = some e → es[j]? = some a →
      Fits (strictRules F N types fun k => probe k.bytes) ty e.2 a.2) :
    ∃ (ys : List (RStr × SVal)) (depth : Nat), (∀ fuel, depth ≤ fuel → Ty.de ⟨m, F, N, scope, types⟩ fuel (.map ty) ⟨v, false⟩ =
        .ok (.map (ys.map fun e => (.prim (.str e.1), e.2)))) ∧
      ys.Pairwise (fun a b => a.1.bytes < b.1.bytes) ∧
      ∀ k y, (k, y) ∈ ys ↔ ∃ l r, es = l ++ (k, y) :: r ∧ k ∉ r.map (·.1) := by
  obtain ⟨d, hd⟩ := map_read (X := ⟨m, F, N, scope, types⟩) (probe := probe) (ty := ty) keys (by
    intro j e a h1 h2
    exact de_fits rfl rfl rfl (fun _ h => h) (fun _ _ _ h => h) (fun h => h) (each j e a h1 h2)) hm hk
  obtain ⟨h1, h2⟩ := foldl_insert_last es (acc := []) (by simp [Ascends])
  exact ⟨_, d, hd, h1, fun k y => by rw [h2]; simp⟩

theorem evolves_fits (F : FloatOps) (N : NumOps) (types : List Ty) (fs gs : List (RStr × Ty))
    (xs zs : List (RStr × SVal)) (hty : HasTy types (.struct fs) (.struct xs)) (hret : (SVal.struct xs).Returns F)
    (he : (SVal.struct xs).Every (fun _ => True) fun _ => True) (distinct : (gs.map (·.1)).Nodup)
    (names : zs.map (·.1) = gs.map (·.1))
    (each : ∀ (i : Nat) (g : RStr × Ty) (z : RStr × SVal), gs[i]? = some g → zs[i]? = some z →
      (∃ j : Nat, fs[j]? = some g ∧ xs[j]? = some (g.1, z.2)) ∨
      g.1 ∉ fs.map (·.1) ∧ (∃ t, g.2 = .option t) ∧ z.2 = .none) :
    Fits (strictRules F N types fun _ => True) (.struct gs) ((SVal.struct xs).tree F) (.struct zs) := by
  rw [SVal.tree]
  rw [SVal.Returns, returnsFields_mem] at hret
  rw [SVal.Every, everyField_mem] at he
  cases hty with
  | struct xnames xdistinct of =>
    have hkeys := fieldTrees_keys F xs
    rw [xnames] at hkeys
    have hx : (xs.map (·.1)).Nodup := by rw [xnames]; exact xdistinct
    refine .struct distinct ?_ names ?_ ?_
    · rw [hkeys, List.map_map]
      exact names_bytes xdistinct
    · intro i g z t hg hz ht
      rcases each i g z hg hz with ⟨j, hj, hxj⟩ | ⟨hn, _⟩
      · have ht := fieldTrees_mem (x := (g.1, z.2)) hx hxj ht
        subst ht
        have hmem := List.mem_of_getElem? hxj
        exact hasTy_fits (of j g _ hj hxj) (hret _ hmem)
          (every_mono (fun _ _ => trivial) (fun _ _ => trivial) _ (he _ hmem).2)
      · have : g.1.bytes ∈ (SVal.fieldTrees F xs).map (·.1) := List.mem_map.mpr ⟨_, ht, rfl⟩
        rw [hkeys] at this
        obtain ⟨n, hn', hne⟩ := List.mem_map.mp this
        exact absurd (RStr.ext_bytes hne ▸ hn') hn
    · intro i g z hg hz hn
      rcases each i g z hg hz with ⟨j, hj, hxj⟩ | ⟨_, hopt, hnone⟩
      · rw [hkeys] at hn
        exact absurd (List.mem_map.mpr ⟨g.1, List.mem_map.mpr ⟨g, List.mem_of_getElem? hj, rfl⟩, rfl⟩) hn
      · exact ⟨hopt, hnone⟩

/-- **C43, across versions of a struct.** A value of a struct is serialized; the struct it is read as has some of the fields,
in any order, and new ones, which are `Option`s. The fields it still has are read back, the new ones are `None`. -/
theorem C43_evolves_partial (c : Cfg) (F : FloatOps) (N : NumOps) (types : List Ty) (fs gs : List (RStr × Ty))
    (xs zs : List (RStr × SVal)) (hty : HasTy types (.struct fs) (.struct xs)) (hret : (SVal.struct xs).Returns F)
    (he : (SVal.struct xs).Every Scalar.Plain (RStr.PlainKey false))
    (hsize : ((SVal.struct xs).tree F).weight ≤ SizedValue.maxNarrow) (distinct : (gs.map (·.1)).Nodup)
    (names : zs.map (·.1) = gs.map (·.1))
    (each : ∀ (i : Nat) (g : RStr × Ty) (z : RStr × SVal), gs[i]? = some g → zs[i]? = some z →
      (∃ j : Nat, fs[j]? = some g ∧ xs[j]? = some (g.1, z.2)) ∨
      g.1 ∉ fs.map (·.1) ∧ (∃ t, g.2 = .option t) ∧ z.2 = .none) :
    ∃ out, Ser.toBytes c none (.struct xs) = .ok (.ok (out, none)) ∧
      ∀ m : Mem, m.data = out → m.base + out.length < 2 ^ 64 →
        ∃ depth, ∀ fuel, depth ≤ fuel → Ty.fromBytes ⟨m, F, N, none, types⟩ fuel (.struct gs) = .ok (.struct zs) := by
  obtain ⟨out, h1, h2⟩ := ser_shows_small c F (.struct xs) (hasTy_noBadKey hty) rfl he hsize
  refine ⟨out, h1, C43_reads F N none types (fun _ => True) (.struct gs) _ _ out h2 ?_ ?_⟩
  · exact tree_keyed _ (every_mono (fun _ _ => trivial) (fun k hk => plainKey_ne hk) _ he)
  · exact evolves_fits F N types fs gs xs zs hty hret (every_mono (fun _ _ => trivial) (fun _ _ => trivial) _ he) distinct names each

/-! ## Examples -/

/-- `struct { name: String, role: u8 }`, written, then read as `struct { tags: Option<bool>, role: u8 }`. -/
example (F : FloatOps) (N : NumOps) :
    ∃ out, Ser.toBytes exampleCfg none (.struct [(sName, .prim (.str sTags)), (sRole, .prim (.int .u8 7))]) = .ok (.ok (out, none)) ∧
      ∀ m : Mem, m.data = out → m.base + out.length < 2 ^ 64 → ∃ depth, ∀ fuel, depth ≤ fuel →
        Ty.fromBytes ⟨m, F, N, none, []⟩ fuel (.struct [(sTags, .option .bool), (sRole, .int .u8)]) =
          .ok (.struct [(sTags, .none), (sRole, .prim (.int .u8 7))]) := by
  refine C43_evolves_partial exampleCfg F N [] [(sName, .string), (sRole, .int .u8)] _ _ _ ?_ ?_ ?_ ?_ (by decide) rfl ?_
  · refine .struct rfl (by decide) ?_
    intro i f x hf hx
    match i with
    | 0 => cases hf; cases hx; exact .string _
    | 1 => cases hf; cases hx; exact .int (holds_iff.mpr (by decide))
    | n + 2 => cases hf
  · simp [SVal.Returns, SVal.ReturnsFields]
  · simp [SVal.Every, SVal.EveryField, Scalar.Plain, RStr.PlainKey, Prim.scalar, IntTy.scalar, Scalar.Survives, Scalar.Tiny,
      sName, sRole, sTags]
  · simp [SVal.tree, SVal.fieldTrees, Tree.weight, Tree.entryWeights, sName, sRole, sTags, Prim.scalar, IntTy.scalar,
      Scalar.tree, SizedValue.maxNarrow]
  · intro i g z hg hz
    match i with
    | 0 => cases hg; cases hz; exact .inr ⟨by decide, ⟨_, rfl⟩, rfl⟩
    | 1 => cases hg; cases hz; exact .inl ⟨1, rfl, rfl⟩
    | n + 2 => cases hg

/-- `["Role", [1, 2]]` is refused as `enum { Role(u8, u8, u8) }` (layout), as `enum { Name }` (no such variant), as
`Vec<String>` (the second element), as a struct (not a dict); `{"Role": 300}` is refused as `struct { Role: u8 }` (range) and
as `struct { Name: u8 }` (missing field). -/
example (F : FloatOps) (N : NumOps) (types : List Ty) (K : RStr → Prop) : let R := strictRules F N types K
    let doc := Tree.arr [.str sRole.bytes, .arr [.int 1, .int 2]]
    let rec_ := Tree.dict [(sRole.bytes, .int 300)]
    Refuses R (.enum [(sRole, .tuple [.int .u8, .int .u8, .int .u8])]) doc .enumLayout ∧
    Refuses R (.enum [(sName, .unit)]) doc .message ∧ Refuses R (.seq .string) doc .message ∧
    Refuses R (.struct []) doc .notDict ∧ Refuses R (.struct [(sRole, .int .u8)]) rec_ .message ∧
    Refuses R (.struct [(sName, .int .u8)]) rec_ .message := by
  refine ⟨.tupleLayout (i := 0) (by decide) rfl (.inl rfl) ?_, .noVariant ?_, .seq (i := 1) rfl (.mismatch ?_) ?_, .notStruct nofun,
    .field (fun _ => True) (by decide) (by decide) ⟨_, List.mem_singleton.mpr rfl, trivial, by simp⟩ ?_ (fun _ _ h => absurd trivial h),
    .missing (f := (sName, .int .u8)) (by decide) (by decide) (by simp) ⟨nofun, nofun⟩ (by decide) ?_⟩
  · rintro xs h; cases h; decide
  · refine ⟨?_, nofun⟩
    rintro s (h | h) <;> cases h
    decide
  · exact ⟨nofun, nofun⟩
  · intro j t hj ht
    have : j = 0 := by omega
    subst this
    cases ht
    exact ⟨_, .string sRole⟩
  · intro f hf _ t ht
    simp only [List.mem_singleton, Prod.mk.injEq] at hf ht
    subst hf
    obtain ⟨_, rfl⟩ := ht
    refine .mismatch ?_
    intro n hn
    cases hn
    rw [holds_iff]; decide
  · intro f hf t ht
    simp only [List.mem_singleton, Prod.mk.injEq] at hf ht
    subst hf
    exact absurd ht.1 (by decide)

/-- `["Role", [1, 2]]` is not doubtful as `enum { Role(Vec<u8>) }`, nor as anything that has no enums; `["Role"]` is. -/
example : ¬ Doubtful [] (.enum [(sRole, .newtype (.seq (.int .u8)))]) (.arr [.str sRole.bytes, .arr [.int 1, .int 2]]) ∧
    Doubtful [] (.enum [(sRole, .newtype (.seq (.int .u8)))]) (.arr [.str sRole.bytes]) := by
  refine ⟨fun h => ?_, .bare (i := 0) rfl nofun (.inl rfl)⟩
  cases h with
  | newtypeVariant decl called of =>
    rename_i i name ty
    match i with
    | 0 =>
      cases decl
      cases of with
      | seq _ of => cases of
    | i + 1 => cases decl
  | @tupleVariant _ i _ _ _ _ _ decl =>
    match i with
    | 0 => cases decl
    | i + 1 => cases decl

/-- Documents without arrays are not doubtful, whatever the type, as long as it has no undeclared types. -/
example : ¬ Doubtful [] (.struct [(sName, .string), (sRole, .enum [(sAdmin, .unit)])]) (.dict [(sName.bytes, .str [0x61])]) := by
  intro h
  cases h with
  | field known mem of =>
    simp only [List.mem_cons, Prod.mk.injEq, List.not_mem_nil, or_false] at known mem
    obtain ⟨_, rfl⟩ := mem
    rcases known with rfl | rfl <;> cases of

/-! ## Refutation -/

/-- `vec![5u8]` -/
def vecFive : SVal := .seq (some 1) [.prim (.int .u8 5)]

/-- `(Role::Admin, vec![5])`, where `Admin` has no data. -/
def bareAdmin : SVal := .tuple [.unitVariant sAdmin, vecFive]

/-- `(Role, Vec<u8>)` with `enum Role { Admin(Vec<u8>) }`. -/
def adminTy : Ty := .tuple [.enum [(sAdmin, .newtype (.seq (.int .u8)))], .seq (.int .u8)]

/-- `(Role::Admin(vec![5]), vec![5])` -/
def madeUp : SVal := .tuple [.newtypeVariant sAdmin vecFive, vecFive]

def bareBytes : List UInt8 := [69, 65, 100, 109, 105, 110, 96, 1, 128, 4, 96, 1, 0, 5, 96, 2, 128, 5, 128, 4, 128, 3]

/-- To evaluate, as there is no decidable equality of `SVal`. -/
def isMadeUp : D SVal → Bool
  | .ok (.tuple [.newtypeVariant n (.seq (some 1) [.prim (.int .u8 5)]), .seq (some 1) [.prim (.int .u8 5)]]) => n = sAdmin
  | _ => false

theorem isMadeUp_eq {r : D SVal} (h : isMadeUp r = true) : r = .ok madeUp := by
  unfold isMadeUp at h
  split at h
  · simp only [decide_eq_true_eq] at h
    subst h; rfl
  · cases h

/-- **C43 is false of the code.** `(Role::Admin, vec![5])` is written by the serializer, and read as `(Role, Vec<u8>)` by a
program in which `Admin` has a `Vec<u8>`: instead of an error this gives `(Role::Admin(vec![5]), vec![5])`, which does not
fit the document under any rules that demand the data. -/
theorem C43_refuted : ∃ (F : FloatOps) (N : NumOps), Ser.toBytes exampleCfg none bareAdmin = .ok (.ok (bareBytes, none)) ∧
    Shows F none (fun _ => True) bareBytes (bareAdmin.tree F) ∧
    Ty.fromBytes (plainCtx F N bareBytes) 10 adminTy = .ok madeUp ∧
    ∀ R : Rules, ¬ R.lax → ¬ Fits R adminTy (bareAdmin.tree F) madeUp := by
  have hb : Ser.toBytes exampleCfg none bareAdmin = .ok (.ok (bareBytes, none)) := rfl
  refine ⟨zeroFloat, ⟨fun _ => 0, fun _ => 0⟩, hb, ?_, isMadeUp_eq (by decide +kernel), ?_⟩
  · obtain ⟨out, h1, h2⟩ := ser_shows_small exampleCfg zeroFloat bareAdmin rfl rfl
      (by simp [bareAdmin, vecFive, SVal.Every, SVal.EveryOf, Scalar.Plain, Prim.scalar, IntTy.scalar, Scalar.Survives,
        Scalar.Tiny, sAdmin])
      (by simp [bareAdmin, vecFive, SVal.tree, SVal.trees, Tree.weight, Tree.weights, sAdmin, Prim.scalar, IntTy.scalar,
        Scalar.tree, SizedValue.maxNarrow])
    rw [hb] at h1
    cases h1
    exact h2
  · intro R hR h
    simp only [bareAdmin, SVal.tree, SVal.trees, adminTy, madeUp] at h
    cases h with
    | tuple len enough of =>
      have := of 0 _ _ _ rfl rfl rfl
      cases this with
      | lost _ _ _ _ lax => exact hR lax

/-- The hypotheses of `C43_honest_partial` hold of this document: what is read fits, by the rule for lost data. -/
example : Fits (looseRules zeroFloat ⟨fun _ => 0, fun _ => 0⟩ [] fun _ => True) adminTy (bareAdmin.tree zeroFloat) madeUp := by
  obtain ⟨out, h1, h2⟩ := ser_shows_small exampleCfg zeroFloat bareAdmin rfl rfl
    (by simp [bareAdmin, vecFive, SVal.Every, SVal.EveryOf, Scalar.Plain, Prim.scalar, IntTy.scalar, Scalar.Survives,
      Scalar.Tiny, sAdmin])
    (by simp [bareAdmin, vecFive, SVal.tree, SVal.trees, Tree.weight, Tree.weights, sAdmin, Prim.scalar, IntTy.scalar,
      Scalar.tree, SizedValue.maxNarrow])
  rw [show Ser.toBytes exampleCfg none bareAdmin = .ok (.ok (bareBytes, none)) from rfl] at h1
  cases h1
  have hd : ∀ (P : Tree → Prop), (∀ t, (∀ xs, t ≠ .arr xs) → (∀ kvs, t ≠ .dict kvs) → P t) →
      (∀ xs, (∀ x ∈ xs, P x) → P (.arr xs)) → P (bareAdmin.tree zeroFloat) := by
    intro P hl ha
    simp only [bareAdmin, vecFive, SVal.tree, SVal.trees, Prim.scalar, IntTy.scalar, Scalar.tree]
    refine ha _ fun x hx => ?_
    simp only [List.mem_cons, List.not_mem_nil, or_false] at hx
    rcases hx with rfl | rfl <;> refine ha _ fun x hx => ?_ <;> simp only [List.mem_cons, List.not_mem_nil, or_false] at hx <;>
      subst hx <;> exact hl _ nofun nofun
  refine C43_honest_partial zeroFloat ⟨fun _ => 0, fun _ => 0⟩ none [] (fun _ => True) adminTy _ madeUp bareBytes h2
    (hd _ (fun t => .leaf) fun xs => .arr) (hd _ (fun t => .leaf) fun xs => .arr) ?_ nofun (fun _ => rfl)
    ⟨bareBytes, 0, true⟩ rfl (by decide) 10 (isMadeUp_eq (by decide +kernel))
  refine .tuple fun t ht => ?_
  simp only [List.mem_cons, List.not_mem_nil, or_false] at ht
  rcases ht with rfl | rfl
  · refine .enum (by decide) ?_ ?_ ?_ ?_
    · intro name t ht
      simp only [List.mem_cons, List.not_mem_nil, or_false, Prod.mk.injEq, Variant.newtype.injEq] at ht
      rw [ht.2]
      exact .seq (.int _)
    all_goals intro name ts ht; simp at ht
  · exact .seq (.int _)

/-- The dict `{"ab": 1, "ab": 2}`, as the encoder writes it. -/
def twiceBytes : List UInt8 := [0x42, 0x61, 0x62, 0x00, 0x42, 0x61, 0x62, 0x00, 0x70, 0x02, 0x80, 0x05, 0x00, 0x01, 0x80, 0x05, 0x00, 0x02, 0x80, 0x05]

def isTwice : D SVal → Bool
  | .ok (.map [(.prim (.str k), .prim (.int .u8 2))]) => k = sab
  | _ => false

set_option maxRecDepth 20000 in
/-- Read as a `BTreeMap<String, u8>`, it is `{"ab": 2}`. -/
example : (∃ e rs, Enc.new.run exampleCfg [.beginDict, .key sab, .value (.u8 1), .key sab, .value (.u8 2), .endDict] = .ok (e, rs) ∧
      e.finish exampleCfg = .ok twiceBytes) ∧
    isTwice (Ty.fromBytes (plainCtx zeroFloat ⟨fun _ => 0, fun _ => 0⟩ twiceBytes) 10 (.map (.int .u8))) = true :=
  ⟨⟨_, _, rfl, by decide +kernel⟩, by decide +kernel⟩

end Fleece.Props
