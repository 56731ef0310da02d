import Verif.Model.Arith
import Verif.Proofs.Reader

/-! # Pointer arithmetic of the decoder (C52) -/

namespace Fleece
open Res

/-- The complaint about a target before the start of the data. -/
def DecodeError.Before : DecodeError → Prop
  | .pointerTargetOutOfBounds _ _ _ => True
  | _ => False

/-- How the strict outcome `x` and the ordinary outcome `y` of the same call are related. -/
def Strictly {α : Type} (x y : R α) : Prop :=
  match y with
  | .ok a => x = .ok a
  | .err e => (e.Before ∧ x = .ub) ∨ (¬ e.Before ∧ x = .err e)
  | .panic => x = .panic ∨ x = .ub
  | .ub => x = .ub
  | .diverge => x = .diverge

theorem Strictly.bind {α β : Type} {x y : R α} {f g : α → R β} (h : Strictly x y)
    (hf : ∀ a, y = .ok a → Strictly (f a) (g a)) : Strictly (x >>= f) (y >>= g) := by
  cases y with
  | ok a => cases h; exact hf a rfl
  | err e =>
    rcases h with ⟨h, rfl⟩ | ⟨h, rfl⟩
    · exact Or.inl ⟨h, rfl⟩
    · exact Or.inr ⟨h, rfl⟩
  | panic =>
    rcases h with rfl | rfl
    · exact Or.inl rfl
    · exact Or.inr rfl
  | ub => cases h; rfl
  | diverge => cases h; rfl

/-- A call that does no arithmetic and never complains in that way. -/
def NotBefore {α : Type} (y : R α) : Prop := ∀ e, y = .err e → ¬ e.Before

theorem Strictly.refl {α : Type} {y : R α} (h : NotBefore y) : Strictly y y := by
  cases y with
  | ok a => rfl
  | err e => exact Or.inr ⟨h e rfl, rfl⟩
  | panic => exact Or.inl rfl
  | ub => rfl
  | diverge => rfl

theorem NotBefore.bind {α β : Type} {x : R α} {f : α → R β} (h : NotBefore x)
    (hf : ∀ a, NotBefore (f a)) : NotBefore (x >>= f) := by
  cases x with
  | ok a => exact hf a
  | err e => intro e' he; cases he; exact h e rfl
  | panic => intro e he; cases he
  | ub => intro e he; cases he
  | diverge => intro e he; cases he

theorem NotBefore.ite {α : Type} {c : Prop} [Decidable c] {x y : R α} (hx : NotBefore x) (hy : NotBefore y) :
    NotBefore (if c then x else y) := by
  split <;> assumption

theorem notBefore_ok {α : Type} (a : α) : NotBefore (.ok a : R α) := fun _ h => by cases h
theorem notBefore_panic {α : Type} : NotBefore (.panic : R α) := fun _ h => by cases h
theorem notBefore_ub {α : Type} : NotBefore (.ub : R α) := fun _ h => by cases h

theorem notBefore_byte (m : Mem) (v : Val) (i : Nat) : NotBefore (v.byte m i) := by
  unfold Val.byte
  split
  · split
    · exact notBefore_ok _
    · exact notBefore_ub
  · exact notBefore_panic

theorem notBefore_type (m : Mem) (v : Val) : NotBefore (v.type m) :=
  (notBefore_byte m v 0).bind fun _ => notBefore_ok _

theorem notBefore_isWide (m : Mem) (v : Val) : NotBefore (v.isWide m) :=
  (notBefore_byte m v 0).bind fun _ => notBefore_ok _

theorem notBefore_rawRead (m : Mem) (p n : Nat) : NotBefore (rawRead m p n) :=
  .ite (notBefore_ok _) notBefore_ub

theorem notBefore_mkSlice (m : Mem) (p n : Nat) : NotBefore (mkSlice m p n) :=
  .ite (notBefore_ok _) notBefore_ub

theorem notBefore_slice (m : Mem) (v : Val) (a b : Nat) : NotBefore (v.slice m a b) :=
  .ite (notBefore_rawRead m _ _) notBefore_panic

theorem notBefore_usizeMul (dbg : Bool) (a b : Nat) : NotBefore (usizeMul dbg a b) :=
  .ite (notBefore_ok _) (.ite notBefore_panic (notBefore_ok _))

theorem notBefore_usizeAdd (dbg : Bool) (a b : Nat) : NotBefore (usizeAdd dbg a b) :=
  .ite (notBefore_ok _) (.ite notBefore_panic (notBefore_ok _))

theorem notBefore_usizeSub (dbg : Bool) (a b : Nat) : NotBefore (usizeSub dbg a b) :=
  .ite (notBefore_ok _) (.ite notBefore_panic (notBefore_ok _))

theorem notBefore_readLoop (dbg : Bool) (bs : List UInt8) (i s r : Nat) :
    NotBefore (Varint.readLoop (ε := DecodeError) dbg bs i s r) := by
  induction bs generalizing i s r with
  | nil => exact notBefore_ok _
  | cons b bs ih =>
    unfold Varint.readLoop
    exact .ite notBefore_panic (.ite (ih _ _ _) (.ite (notBefore_ok _) (notBefore_ok _)))

theorem notBefore_varint (dbg : Bool) (bs : List UInt8) : NotBefore (Varint.read (ε := DecodeError) dbg bs) := by
  unfold Varint.read
  split
  · exact notBefore_ok _
  · exact .ite (notBefore_ok _) (notBefore_readLoop _ _ _ _ _)

theorem notBefore_getShort (m : Mem) (v : Val) : NotBefore (v.getShort m) := by
  unfold Val.getShort
  refine (notBefore_slice m v 0 2).bind fun bs => ?_
  split
  · exact notBefore_ok _
  · exact notBefore_panic

theorem notBefore_getData (m : Mem) (v : Val) : NotBefore (v.getData m) := by
  unfold Val.getData
  refine .ite (notBefore_ok _) ((notBefore_byte m v 0).bind fun b => ?_)
  dsimp only
  refine .ite ((notBefore_slice m v _ _).bind fun rest => (notBefore_varint _ _).bind fun r => ?_) (notBefore_slice m v _ _)
  exact .ite (notBefore_ok _) ((notBefore_usizeAdd _ _ _).bind fun _ => notBefore_slice m v _ _)

theorem notBefore_requiredSize (m : Mem) (v : Val) : NotBefore (v.requiredSize m) := by
  unfold Val.requiredSize
  refine (notBefore_type m v).bind fun t => ?_
  have hd : NotBefore (do
      let d ← v.getData m
      let len := d.length
      if len ≤ 1 then pure 2
      else if len ≤ 0x0E then pure (1 + len)
      else pure (1 + Varint.sizeRequired len + len) : R Nat) :=
    (notBefore_getData m v).bind fun _ => .ite (notBefore_ok _) (.ite (notBefore_ok _) (notBefore_ok _))
  have hi : NotBefore (do
      let b ← v.byte m 0
      pure (2 + (b &&& 0x07).toNat) : R Nat) := (notBefore_byte m v 0).bind fun _ => notBefore_ok _
  cases t
  case string => exact hd
  case data => exact hd
  case int => exact hi
  case unsignedInt => exact hi
  all_goals exact notBefore_ok _

theorem notBefore_arrayLen (m : Mem) (v : Val) : NotBefore (v.arrayLen m) := by
  have ht : ∀ n, NotBefore (do
      let t ← v.type m
      if t = .dict then usizeMul m.dbg n 2 else pure n : R Nat) := fun n =>
    (notBefore_type m v).bind fun _ => .ite (notBefore_usizeMul _ _ _) (notBefore_ok _)
  unfold Val.arrayLen
  refine (notBefore_getShort m v).bind fun s => ?_
  dsimp only
  refine .ite ((notBefore_slice m v _ _).bind fun rest => (notBefore_varint _ _).bind fun r => ?_) (ht _)
  exact .ite (notBefore_ok _) (ht _)

theorem notBefore_firstPos (m : Mem) (v : Val) : NotBefore (v.firstPos m) := by
  unfold Val.firstPos
  refine .ite (notBefore_ok _) ((notBefore_getShort m v).bind fun s => ?_)
  dsimp only
  refine .ite ((notBefore_slice m v _ _).bind fun rest => (notBefore_varint _ _).bind fun r => ?_) (notBefore_ok _)
  exact .ite (notBefore_ok _) (notBefore_ok _)

theorem notBefore_getOffset (m : Mem) (v : Val) (w : Bool) : NotBefore (v.getOffset m w) := by
  unfold Val.getOffset
  exact .ite ((notBefore_rawRead _ _ _).bind fun _ => notBefore_ok _)
    ((notBefore_rawRead _ _ _).bind fun _ => notBefore_ok _)

theorem notBefore_err {α : Type} {e : DecodeError} (h : ¬ e.Before) : NotBefore (.err e : R α) := by
  intro e' he; cases he; exact h

theorem notBefore_fromRaw (m : Mem) (p w : Nat) : NotBefore (fromRaw m p w) := by
  unfold fromRaw
  refine (notBefore_mkSlice m p w).bind fun v => ?_
  refine .ite ((notBefore_type m v).bind fun _ => (notBefore_requiredSize m v).bind fun _ => notBefore_err (fun h => h))
    ((notBefore_requiredSize m v).bind fun _ => .ite ((notBefore_type m v).bind fun _ => notBefore_err (fun h => h))
      (notBefore_ok _))

/-! ## The places that do arithmetic -/

theorem ptrTo_ok {m : Mem} {i : Int} (h0 : 0 ≤ i) (h1 : i ≤ m.data.length) : ptrTo m i = .ok () := if_pos ⟨h0, h1⟩

theorem derefCheckedStrictGo_rel (m : Mem) (fuel : Nat) (wide : Bool) (v : Val) (hv : v.pos ≤ m.data.length) :
    Strictly (derefCheckedStrictGo m fuel wide v) (derefCheckedGo m fuel wide v) := by
  induction fuel generalizing wide v with
  | zero => rfl
  | succ f ih =>
    unfold derefCheckedStrictGo derefCheckedGo
    split
    · exact Or.inr ⟨fun h => h, rfl⟩
    · refine (Strictly.refl (notBefore_getOffset m v wide)).bind fun off hoff => ?_
      split
      · exact Or.inr ⟨fun h => h, rfl⟩
      · by_cases hp : v.pos < off
        · have hu : ptrTo m ((v.pos : Int) - off) = .ub := by
            unfold ptrTo; rw [if_neg (by omega)]
          rw [hu, ub_bind]
          have hb := notBefore_byte m v 0
          cases hx : v.byte m 0 with
          | ok b =>
            simp only [ok_bind]
            split
            · exact Or.inr rfl
            · exact Or.inl ⟨trivial, rfl⟩
          | err e =>
            unfold Val.byte at hx
            repeat' split at hx
            all_goals cases hx
          | panic => exact Or.inr rfl
          | ub => rfl
          | diverge =>
            unfold Val.byte at hx
            repeat' split at hx
            all_goals cases hx
        · rw [ptrTo_ok (by omega) (by omega), ok_bind]
          refine (Strictly.refl (notBefore_byte m v 0)).bind fun b _ => ?_
          split
          · exact Or.inl rfl
          · refine (Strictly.refl (notBefore_mkSlice m _ _)).bind fun t ht => ?_
            obtain ⟨rfl, _⟩ := mkSlice_ok ht
            refine (Strictly.refl (notBefore_type m _)).bind fun ty _ => ?_
            split
            · exact ih _ _ (by dsimp only; omega)
            · rfl

theorem derefCheckedStrict_rel (m : Mem) (wide : Bool) (v : Val) (hv : v.pos ≤ m.data.length) :
    Strictly (derefCheckedStrict m wide v) (derefChecked m wide v) := derefCheckedStrictGo_rel m _ wide v hv

theorem readLoop_len {ε : Type} (dbg : Bool) (bs : List UInt8) (i s r n x : Nat)
    (h : Varint.readLoop (ε := ε) dbg bs i s r = .ok (n, x)) : n ≤ i + 1 + bs.length := by
  induction bs generalizing i s r with
  | nil => cases h; omega
  | cons b bs ih =>
    unfold Varint.readLoop at h
    repeat' split at h
    · cases h
    · have := ih _ _ _ h; simp; omega
    · cases h; omega
    · cases h; simp; omega

theorem varint_len {ε : Type} (dbg : Bool) (bs : List UInt8) (n x : Nat)
    (h : Varint.read (ε := ε) dbg bs = .ok (n, x)) : n ≤ bs.length := by
  unfold Varint.read at h
  split at h
  · cases h; simp
  · split at h
    · cases h; simp
    · have := readLoop_len _ _ _ _ _ _ _ h
      simp at this ⊢
      omega

/-- A collection of even length has its first element inside itself, or right behind it. -/
theorem firstPos_le {m : Mem} {v : Val} {n : Nat} (hl : v.len % 2 = 0) (h : v.firstPos m = .ok n) : n ≤ v.len := by
  unfold Val.firstPos at h
  split at h
  · cases h; omega
  · rw [bind_eq_ok] at h; obtain ⟨s, _, h⟩ := h
    dsimp only at h
    split at h
    · rw [bind_eq_ok] at h; obtain ⟨rest, hrest, h⟩ := h
      rw [bind_eq_ok] at h; obtain ⟨⟨rd, x⟩, hr, h⟩ := h
      have hn := varint_len _ _ _ _ hr
      have hlen : rest.length = v.len - 2 := by
        unfold Val.slice at hrest
        split at hrest
        · exact rawRead_length hrest
        · cases hrest
      dsimp only at h
      split at h <;> cases h <;> omega
    · cases h; omega

theorem validateElemsStrict_rel (m : Mem) (recS rec : Val → Nat → R Unit) (w n cur : Nat)
    (hrec : ∀ e d, e.In m → e.len = w → Strictly (recS e d) (rec e d)) :
    Strictly (validateElemsStrict m recS w n cur) (validateElems m rec w n cur) := by
  induction n generalizing cur with
  | zero => rfl
  | succ n ih =>
    unfold validateElemsStrict validateElems
    by_cases hc : cur + w ≤ m.data.length
    · rw [ptrTo_ok (by omega) (by omega), ok_bind]
      refine (Strictly.refl (notBefore_fromRaw m cur w)).bind fun e he => ?_
      obtain ⟨rfl, hin, _⟩ := fromRaw_ok he
      exact (hrec _ _ hin rfl).bind fun _ _ => ih _
    · have hu : ptrTo m ((cur : Int) + w) = .ub := by unfold ptrTo; rw [if_neg (by omega)]
      have hf : fromRaw m cur w = .ub := by
        unfold fromRaw mkSlice; rw [if_neg (by omega)]; rfl
      rw [hu, hf]; rfl

theorem validateStrictGo_rel (m : Mem) (fuel : Nat) (a w : Bool) (v : Val) (de : Nat) (hv : v.In m)
    (hl : v.len % 2 = 0) : Strictly (validateStrictGo m fuel a w v de) (validateGo m fuel a w v de) := by
  induction fuel generalizing a w v de with
  | zero => rfl
  | succ f ih =>
    have arr : Strictly (arrayValidateStrict m (fun w => validateStrictGo m f true w) v de)
        (arrayValidate m (fun w => validateGo m f true w) v de) := by
      unfold arrayValidateStrict arrayValidate
      refine (Strictly.refl (notBefore_isWide m v)).bind fun wd _ => ?_
      dsimp only
      refine (Strictly.refl (notBefore_arrayLen m v)).bind fun n _ => ?_
      refine (Strictly.refl (notBefore_firstPos m v)).bind fun fp hfp => ?_
      have hle := firstPos_le hl hfp
      unfold Val.In at hv
      rw [ptrTo_ok (by omega) (by omega), ok_bind]
      refine (Strictly.refl (notBefore_usizeMul _ _ _)).bind fun b _ => ?_
      refine (Strictly.refl (notBefore_usizeAdd _ _ _)).bind fun e _ => ?_
      split
      · exact Strictly.refl ((notBefore_usizeSub _ _ _).bind fun _ => notBefore_err (fun h => h))
      · refine validateElemsStrict_rel m _ _ _ _ _ fun e d hin hlen => ih true wd e d hin ?_
        rw [hlen]; split <;> rfl
    have scalar : Strictly (if a then pure () else do
        let r ← v.requiredSize m
        if m.base + v.pos + r ≤ m.base + de then pure ()
        else do
          let t ← v.type m
          let avail ← usizeSub m.dbg (m.base + de) (m.base + v.pos)
          .err (.valueOutOfBounds t r avail) : R Unit) (if a then pure () else do
        let r ← v.requiredSize m
        if m.base + v.pos + r ≤ m.base + de then pure ()
        else do
          let t ← v.type m
          let avail ← usizeSub m.dbg (m.base + de) (m.base + v.pos)
          .err (.valueOutOfBounds t r avail)) := by
      refine Strictly.refl (.ite (notBefore_ok _) ((notBefore_requiredSize m v).bind fun r => ?_))
      exact .ite (notBefore_ok _) ((notBefore_type m v).bind fun _ =>
        (notBefore_usizeSub _ _ _).bind fun _ => notBefore_err (fun h => h))
    unfold validateStrictGo validateGo
    refine (Strictly.refl (notBefore_type m v)).bind fun t _ => ?_
    cases t
    case array => exact arr
    case dict => exact arr
    case pointer =>
      refine (derefCheckedStrict_rel m w v (by unfold Val.In at hv; omega)).bind fun tg htg => ?_
      obtain ⟨hin, _, _, he, _⟩ := derefChecked_ok htg
      exact ih false w tg v.pos hin he
    all_goals exact scalar

theorem findRootStrict_rel (m : Mem) : Strictly (findRootStrict m) (findRoot m) := by
  unfold findRootStrict findRoot
  dsimp only
  split
  · exact Or.inr ⟨fun h => h, rfl⟩
  · refine (Strictly.refl (notBefore_type m _)).bind fun t _ => ?_
    split
    · exact derefCheckedStrict_rel m _ _ (by dsimp only; omega)
    · split
      · rfl
      · exact Or.inr ⟨fun h => h, rfl⟩

theorem fromBytesStrict_rel (m : Mem) : Strictly (fromBytesStrict m) (fromBytes m) := by
  unfold fromBytesStrict fromBytes fromBytesGo
  refine (findRootStrict_rel m).bind fun r hr => ?_
  obtain ⟨hin, _, _, he, _⟩ := findRoot_ok hr
  refine (validateStrictGo_rel m _ false false r _ hin he).bind fun _ _ => rfl

end Fleece
