import Verif.Proofs.Debug
import Verif.Proofs.Collect
import Verif.Proofs.Text

/-! # Formatting finds what a traversal finds, and says so -/

namespace Fleece
open Res Spec

/-! ## The pieces -/

theorem toDigits_digits {b : Nat} (hb : 1 < b) (n : Nat) : Digits b n (Nat.toDigits b n) := by
  induction n using Nat.strongRecOn with
  | ind n ih =>
    rw [Nat.toDigits_eq_if hb]
    split
    · exact .one ‹_›
    · have h1 : 0 < n / b := Nat.div_pos (by omega) (by omega)
      have h := Digits.more (d := n % b) h1 (Nat.mod_lt n (by omega)) (ih (n / b) (Nat.div_lt_self (by omega) hb))
      rwa [Nat.div_add_mod] at h

theorem natText_numeral (n : Nat) : Numeral n (natText n) := .nonneg (toDigits_digits (by omega) n)

theorem intText_numeral : ∀ z : Int, Numeral z (intText z)
  | .ofNat n => natText_numeral n
  | .negSucc n => Numeral.neg (n := n + 1) (toDigits_digits (by omega) (n + 1)) (by omega)

theorem escape_escaped (P : Printer) (c : Char) : Escaped P c (P.escape c) := by
  have short : ∀ {x y : Char}, c = x → (x, y) ∈ escapes → Escaped P c ['\\', y] := by
    intro x y h1 h2
    exact .short (h1 ▸ h2)
  unfold Printer.escape
  split
  · exact short ‹_› (by decide)
  split
  · exact short ‹_› (by decide)
  split
  · exact short ‹_› (by decide)
  split
  · exact short ‹_› (by decide)
  split
  · exact short ‹_› (by decide)
  split
  · exact short ‹_› (by decide)
  have hn : ∀ x, (c, x) ∉ escapes := by
    intro x hx
    simp only [escapes, List.mem_cons, Prod.mk.injEq, List.not_mem_nil, or_false] at hx
    rcases hx with ⟨h, _⟩ | ⟨h, _⟩ | ⟨h, _⟩ | ⟨h, _⟩ | ⟨h, _⟩ | ⟨h, _⟩ <;> contradiction
  split
  · exact .plain hn ‹_›
  · exact .hex hn (by simpa using ‹¬ P.plain c = true›) (toDigits_digits (by omega) _)

theorem strText_quoted (P : Printer) {s : List UInt8} (h : validUtf8 s = true) : Quoted P s (P.strText s) := by
  obtain ⟨ns, hn⟩ := Option.isSome_iff_exists.mp h
  obtain ⟨cs, h1, h2⟩ := utf8Decode_some s hn
  unfold Printer.strText
  rw [hn, h1, h2]
  have all : ∀ cs : List Char, EscapedAll P cs ((cs.map Char.toNat).flatMap fun n => P.escape (Char.ofNat n)) := by
    intro cs
    induction cs with
    | nil => exact .nil
    | cons c cs ih =>
      rw [List.map_cons, List.flatMap_cons, Char.ofNat_toNat]
      exact .cons (escape_escaped P c) ih
  exact .intro (all cs)

theorem separated_joined : ∀ xs : List Text, Joined xs (separated xs)
  | [] => .nil
  | [_] => .one
  | x :: y :: ys => by
    unfold separated
    rw [List.append_assoc]
    exact .more (separated_joined (y :: ys))

/-! ## What iterators hand out -/

theorem derefUncheckedGo_type {m : Mem} : ∀ {fuel : Nat} {w : Bool} {v x : Val}, derefUncheckedGo m fuel w v = .ok x →
    x.type m ≠ .ok .pointer
  | 0, _, _, _ => fun h => by cases h
  | fuel + 1, w, v, x => fun h => by
    unfold derefUncheckedGo at h
    obtain ⟨off, _, h⟩ := bind_eq_ok.mp h
    split at h
    · cases h
    split at h
    · cases h
    obtain ⟨tgt, _, h⟩ := bind_eq_ok.mp h
    obtain ⟨t, ht, h⟩ := bind_eq_ok.mp h
    split at h
    · exact derefUncheckedGo_type h
    · cases h
      rw [ht]
      intro e
      injection e with e
      contradiction

theorem step_type {m : Mem} {it it' : Iter} {x : Val} (h : it.step m = .ok (some x, it')) : x.type m ≠ .ok .pointer := by
  have fin : ∀ {y : Val} {t : ValueType} {w : Bool} {r : Val}, y.type m = .ok t →
      (if t = .pointer then derefUnchecked m w y else pure y) = .ok r → r.type m ≠ .ok .pointer := by
    intro y t w r ht h
    split at h
    · exact derefUncheckedGo_type h
    · cases h
      rw [ht]
      intro e
      injection e with e
      contradiction
  unfold Iter.step at h
  split at h
  · cases h
  rename_i current _
  split at h
  · cases h
  obtain ⟨t, ht, h⟩ := bind_eq_ok.mp h
  have last : ∀ {r : Val}, r.type m ≠ .ok .pointer →
      (if it.index + 1 < it.len then do
          let n ← mkSlice m (current.pos + it.width) it.width
          pure (some r, { it with next := some n, index := it.index + 1 })
        else pure (some r, { it with next := none, index := it.index + 1 }) : R (Option Val × Iter)) = .ok (some x, it') →
      x.type m ≠ .ok .pointer := by
    intro r hr h
    split at h
    · obtain ⟨_, _, h⟩ := bind_eq_ok.mp h
      cases h; exact hr
    · cases h; exact hr
  dsimp only at h
  split at h
  · rename_i hp
    obtain ⟨r, hr, h⟩ := bind_eq_ok.mp h
    exact last (fin ht (by rw [if_pos hp]; exact hr)) h
  · rename_i hp
    obtain ⟨r, hr, h⟩ := bind_eq_ok.mp h
    exact last (fin ht (w := it.width == 4) (by rw [if_neg hp]; exact hr)) h

theorem collect_types {m : Mem} : ∀ {n : Nat} {it : Iter} {xs : List Val}, collect m .ok n it = .ok xs →
    ∀ x ∈ xs, x.type m ≠ .ok .pointer
  | 0, _, _ => fun h => by cases h
  | n + 1, it, xs => fun h => by
    unfold collect at h
    obtain ⟨⟨x, it'⟩, hs, h⟩ := bind_eq_ok.mp h
    cases x with
    | none => cases h; simp
    | some x =>
      obtain ⟨t, ht, h⟩ := bind_eq_ok.mp h
      obtain ⟨rest, hr, h⟩ := bind_eq_ok.mp h
      cases ht; cases h
      intro y hy
      rcases List.mem_cons.mp hy with rfl | hy
      · exact step_type hs
      · exact collect_types hr y hy

/-- The names of the table are text. -/
def Legible (scope : Option SharedKeys) : Prop := ∀ sk, scope = some sk → ∀ e ∈ sk.entries, validUtf8 e.1 = true

theorem toStr_text {m : Mem} {v : Val} {s : List UInt8} (h : v.toStr m = .ok s) : validUtf8 s = true := by
  unfold Val.toStr at h
  obtain ⟨t, _, h⟩ := bind_eq_ok.mp h
  split at h
  · obtain ⟨d, _, h⟩ := bind_eq_ok.mp h
    cases h
    split
    · assumption
    · rfl
  · cases h; rfl

theorem dictStep_types {m : Mem} {scope : Option SharedKeys} {it it' : Iter} {k : List UInt8} {x : Val}
    (h : it.dictStep m scope = .ok (some (k, x), it')) :
    x.type m ≠ .ok .pointer ∧ (Legible scope → validUtf8 k = true) := by
  unfold Iter.dictStep at h
  obtain ⟨⟨y, it1⟩, h1, h⟩ := bind_eq_ok.mp h
  cases y with
  | none => cases h
  | some y =>
    obtain ⟨t, ht, h⟩ := bind_eq_ok.mp h
    have fin : ∀ {key : Option (List UInt8)}, (key = some k → Legible scope → validUtf8 k = true) →
        (match key with
          | none => pure (none, it1)
          | some key => do
            let (x, it2) ← it1.step m
            match x with
            | none => pure (none, it2)
            | some x => pure (some (key, x), it2) : R (Option (List UInt8 × Val) × Iter)) = .ok (some (k, x), it') →
        x.type m ≠ .ok .pointer ∧ (Legible scope → validUtf8 k = true) := by
      intro key hk h
      cases key with
      | none => cases h
      | some key =>
        obtain ⟨⟨z, it2⟩, h2, h⟩ := bind_eq_ok.mp h
        cases z with
        | none => cases h
        | some z =>
          simp only [pure_eq, ok.injEq, Prod.mk.injEq, Option.some.injEq] at h
          obtain ⟨⟨rfl, rfl⟩, rfl⟩ := h
          exact ⟨step_type h2, hk rfl⟩
    dsimp only at h
    split at h
    · split at h
      · obtain ⟨n, _, h⟩ := bind_eq_ok.mp h
        simp only [pure_eq, ok_bind] at h
        refine fin (fun hd hl => ?_) h
        unfold SharedKeys.decode at hd
        rw [Option.map_eq_some_iff] at hd
        obtain ⟨e, h3, rfl⟩ := hd
        exact hl _ rfl e (List.mem_of_getElem? h3)
      · simp only [pure_eq, ok_bind] at h
        cases h
    · obtain ⟨s, hs, h⟩ := bind_eq_ok.mp h
      simp only [pure_eq, ok_bind] at h
      exact fin (key := some s) (fun hd _ => by cases hd; exact toStr_text hs) h

theorem collectDict_types {m : Mem} {scope : Option SharedKeys} : ∀ {n : Nat} {it : Iter} {xs : List (List UInt8 × Val)},
    collectDict m scope .ok n it = .ok xs →
    ∀ x ∈ xs, x.2.type m ≠ .ok .pointer ∧ (Legible scope → validUtf8 x.1 = true)
  | 0, _, _ => fun h => by cases h
  | n + 1, it, xs => fun h => by
    unfold collectDict at h
    obtain ⟨⟨x, it'⟩, hs, h⟩ := bind_eq_ok.mp h
    cases x with
    | none => cases h; simp
    | some x =>
      obtain ⟨k, x⟩ := x
      obtain ⟨t, ht, h⟩ := bind_eq_ok.mp h
      obtain ⟨rest, hr, h⟩ := bind_eq_ok.mp h
      cases ht; cases h
      intro y hy
      rcases List.mem_cons.mp hy with rfl | hy
      · exact dictStep_types hs
      · exact collectDict_types hr y hy

/-! ## Values -/

theorem type_len {m : Mem} {v : Val} {ty : ValueType} (h : v.type m = .ok ty) : v.len ≠ 0 := by
  unfold Val.type at h
  obtain ⟨b, hb, _⟩ := bind_eq_ok.mp h
  unfold Val.byte at hb
  split at hb
  · omega
  · cases hb

theorem debug_step {P : Printer} {m : Mem} {F : FloatOps} {scope : Option SharedKeys} {fuel : Nat} {v : Val} {ty : ValueType}
    (h : v.type m = .ok ty) : v.debug P m F scope (fuel + 1) = (do
      let field ← v.debugField P m F scope (Val.debug P m F scope fuel) ty
      pure (ty.name ++ '(' :: (field ++ [')']))) := by
  unfold Val.debug
  simp only [h, ok_bind, if_neg (type_len h), List.nil_append, tupleText, separated, List.append_assoc, List.cons_append]

/-- A traversal that succeeds is one that formatting makes too. -/
theorem debug_of_read (P : Printer) {m : Mem} {F : FloatOps} {scope : Option SharedKeys} : ∀ {fuel : Nat} {v : Val} {t : Tree},
    readTree m F scope fuel v = .ok t → ∃ s, v.debug P m F scope fuel = .ok s ∧ (Legible scope → Renders P t s)
  | 0, _, _ => fun h => by cases h
  | fuel + 1, v, t => fun h => by
    unfold readTree at h
    obtain ⟨ty, ht, h⟩ := bind_eq_ok.mp h
    rw [debug_step ht]
    cases ty with
    | null => cases h; exact ⟨_, rfl, fun _ => .null⟩
    | undefined => cases h; exact ⟨_, rfl, fun _ => .undefined⟩
    | false => cases h; exact ⟨_, rfl, fun _ => .false⟩
    | true => cases h; exact ⟨_, rfl, fun _ => .true⟩
    | short =>
      obtain ⟨i, hi, h⟩ := bind_eq_ok.mp h
      cases h
      refine ⟨_, by simp only [Val.debugField, toShort_of_toInt ht hi, ok_bind, pure_eq]; rfl, fun _ => ?_⟩
      exact .int (by decide) (intText_numeral i)
    | int =>
      obtain ⟨i, hi, h⟩ := bind_eq_ok.mp h
      cases h
      refine ⟨_, by simp only [Val.debugField, hi, ok_bind, pure_eq]; rfl, fun _ => ?_⟩
      exact .int (by decide) (intText_numeral i)
    | unsignedInt =>
      obtain ⟨i, hi, h⟩ := bind_eq_ok.mp h
      cases h
      refine ⟨_, by simp only [Val.debugField, hi, ok_bind, pure_eq]; rfl, fun _ => ?_⟩
      exact .int (by decide) (natText_numeral i)
    | float =>
      obtain ⟨i, hi, h⟩ := bind_eq_ok.mp h
      cases h
      exact ⟨_, by simp only [Val.debugField, hi, ok_bind, pure_eq]; rfl, fun _ => .float (by decide)⟩
    | double32 =>
      obtain ⟨i, hi, h⟩ := bind_eq_ok.mp h
      cases h
      exact ⟨_, by simp only [Val.debugField, hi, ok_bind, pure_eq]; rfl, fun _ => .float (by decide)⟩
    | double64 =>
      obtain ⟨i, hi, h⟩ := bind_eq_ok.mp h
      cases h
      exact ⟨_, by simp only [Val.debugField, hi, ok_bind, pure_eq]; rfl, fun _ => .float (by decide)⟩
    | string =>
      obtain ⟨i, hi, h⟩ := bind_eq_ok.mp h
      cases h
      refine ⟨_, by simp only [Val.debugField, hi, ok_bind, pure_eq]; rfl, fun _ => ?_⟩
      exact .str (strText_quoted P (toStr_text hi))
    | data =>
      obtain ⟨d, hi, h⟩ := bind_eq_ok.mp h
      cases h
      refine ⟨_, by simp only [Val.debugField, hi, ok_bind, pure_eq]; rfl, fun _ => ?_⟩
      have hr := Renders.data (P := P) (d := d) (ss := d.map fun b => natText b.toNat) (by simp) (fun i b x hb hx => by
        rw [List.getElem?_map, hb] at hx
        cases hx
        exact natText_numeral b.toNat) (separated_joined _)
      rw [List.append_assoc] at hr
      unfold dataText listText
      rw [List.append_assoc]
      exact hr
    | array =>
      obtain ⟨it, hi, h⟩ := bind_eq_ok.mp h
      obtain ⟨ts, hc, h⟩ := bind_eq_ok.mp h
      cases h
      obtain ⟨xs, h1, h2, h3⟩ := collect_values hc
      obtain ⟨ss, h4, h5⟩ := list_pick (g := Val.debug P m F scope fuel) (P := fun t s => Legible scope → Renders P t s) h2
        (fun i x t hx ht => debug_of_read P (h3 i x t hx ht))
      have hlen : ∀ {i : Nat} {x : Val}, xs[i]? = some x → ∃ t, ts[i]? = some t := by
        intro i x hx
        have : i < xs.length := by
          rcases Nat.lt_or_ge i xs.length with h | h
          · exact h
          · rw [List.getElem?_eq_none h] at hx; cases hx
        exact ⟨_, List.getElem?_eq_getElem (by omega)⟩
      have hd := collect_of_values (g := Val.debug P m F scope fuel) (ss := ss) h1 (by omega) (fun i x s hx hs => by
        obtain ⟨t, ht⟩ := hlen hx
        exact (h5 i x t s hx ht hs).1)
      refine ⟨_, by
        simp only [Val.debugField, Val.debugArray, hi, ok_bind, debugItems_eq, hd, pure_eq]; rfl, fun hl => ?_⟩
      have hr := Renders.arr (P := P) (xs := ts) (ss := ss) h4 (fun i t x ht hx => by
        have : i < xs.length := by
          rcases Nat.lt_or_ge i ts.length with h | h
          · omega
          · rw [List.getElem?_eq_none h] at ht; cases ht
        exact (h5 i _ t x (List.getElem?_eq_getElem this) ht hx).2 hl) (separated_joined _)
      rw [List.append_assoc] at hr
      unfold listText
      rw [List.append_assoc]
      exact hr
    | dict =>
      obtain ⟨it, hi, h⟩ := bind_eq_ok.mp h
      obtain ⟨ts, hc, h⟩ := bind_eq_ok.mp h
      cases h
      obtain ⟨xs, h1, h2, h3⟩ := collectDict_values hc
      obtain ⟨ss, h4, h5⟩ := list_pick (g := fun x : List UInt8 × Val => Val.debug P m F scope fuel x.2)
        (P := fun (t : List UInt8 × Tree) s => Legible scope → Renders P t.2 s) h2
        (fun i x t hx ht => debug_of_read P (h3 i x t hx ht).2)
      have hd := collectDict_of_values (g := Val.debug P m F scope fuel) (ss := (ts.map Prod.fst).zip ss) h1
        (by simp; omega) (fun i x s hx hs => by
          rw [List.getElem?_zip_eq_some] at hs
          obtain ⟨g1, g2⟩ := hs
          rw [List.getElem?_map, Option.map_eq_some_iff] at g1
          obtain ⟨t, g3, g4⟩ := g1
          exact ⟨by rw [(h3 i x t hx g3).1, g4], (h5 i x t s.2 hx g3 g2).1⟩)
      refine ⟨_, by
        simp only [Val.debugField, Val.debugDict, hi, ok_bind, debugEntries_eq, hd, pure_eq]; rfl, fun hl => ?_⟩
      have at_ : ∀ {i : Nat} {k : List UInt8 × Tree}, ts[i]? = some k → ∃ x, xs[i]? = some x := by
        intro i k hk
        have : i < xs.length := by
          rcases Nat.lt_or_ge i ts.length with h | h
          · omega
          · rw [List.getElem?_eq_none h] at hk; cases hk
        exact ⟨_, List.getElem?_eq_getElem this⟩
      have hr := Renders.dict (P := P) (kvs := ts) (ks := ts.map fun kv => P.strText kv.1) (vs := ss) (by simp) h4
        (fun i k x hk hx => by
          rw [List.getElem?_map, hk] at hx
          cases hx
          obtain ⟨x, hx⟩ := at_ hk
          show Quoted P k.1 (P.strText k.1)
          rw [← (h3 i x k hx hk).1]
          exact strText_quoted P ((collectDict_types h1 x (List.mem_of_getElem? hx)).2 hl))
        (fun i k x hk hx => by
          obtain ⟨y, hy⟩ := at_ hk
          exact (h5 i y k x hy hk hx).2 hl) (separated_joined _)
      rw [List.append_assoc] at hr
      unfold mapText
      have e : ((((ts.map Prod.fst).zip ss).map fun kv => (P.strText kv.1, kv.2)).map fun kv => kv.1 ++ [':', ' '] ++ kv.2) =
          List.zipWith (fun k v => k ++ ':' :: ' ' :: v) (ts.map fun kv => P.strText kv.1) ss := by
        rw [List.map_map, List.zip, List.map_zipWith, List.zipWith_map_left, List.zipWith_map_left]
        simp
      rw [e, List.append_assoc]
      exact hr
    | pointer => cases h

/-- And conversely. -/
theorem read_of_debug {P : Printer} {m : Mem} {F : FloatOps} {scope : Option SharedKeys} : ∀ {fuel : Nat} {v : Val} {s : Text},
    v.type m ≠ .ok .pointer → v.debug P m F scope fuel = .ok s → ∃ t, readTree m F scope fuel v = .ok t
  | 0, _, _ => fun _ h => by cases h
  | fuel + 1, v, s => fun hp h => by
    have h0 := h
    unfold Val.debug at h0
    obtain ⟨ty, ht, _⟩ := bind_eq_ok.mp h0
    rw [debug_step ht] at h
    unfold readTree
    simp only [ht, ok_bind]
    obtain ⟨field, hf, _⟩ := bind_eq_ok.mp h
    unfold Val.debugField at hf
    cases ty with
    | null => exact ⟨_, rfl⟩
    | undefined => exact ⟨_, rfl⟩
    | false => exact ⟨_, rfl⟩
    | true => exact ⟨_, rfl⟩
    | short =>
      obtain ⟨i, hi, _⟩ := bind_eq_ok.mp hf
      refine ⟨.int i, ?_⟩
      have : v.toInt m F = .ok i := by
        unfold Val.toShort at hi
        unfold Val.toInt
        simpa only [ht, ok_bind] using hi
      simp only [this, ok_bind, pure_eq]
    | int => obtain ⟨i, hi, _⟩ := bind_eq_ok.mp hf; exact ⟨.int i, by simp only [hi, ok_bind, pure_eq]⟩
    | unsignedInt => obtain ⟨i, hi, _⟩ := bind_eq_ok.mp hf; exact ⟨.int i, by simp only [hi, ok_bind, pure_eq]⟩
    | float => obtain ⟨i, hi, _⟩ := bind_eq_ok.mp hf; exact ⟨.float i, by simp only [hi, ok_bind, pure_eq]⟩
    | double32 => obtain ⟨i, hi, _⟩ := bind_eq_ok.mp hf; exact ⟨.float i, by simp only [hi, ok_bind, pure_eq]⟩
    | double64 => obtain ⟨i, hi, _⟩ := bind_eq_ok.mp hf; exact ⟨.float i, by simp only [hi, ok_bind, pure_eq]⟩
    | string => obtain ⟨i, hi, _⟩ := bind_eq_ok.mp hf; exact ⟨.str i, by simp only [hi, ok_bind, pure_eq]⟩
    | data => obtain ⟨i, hi, _⟩ := bind_eq_ok.mp hf; exact ⟨.data i, by simp only [hi, ok_bind, pure_eq]⟩
    | array =>
      unfold Val.debugArray at hf
      obtain ⟨it, hi, hf⟩ := bind_eq_ok.mp hf
      obtain ⟨ss, hc, _⟩ := bind_eq_ok.mp hf
      rw [debugItems_eq] at hc
      obtain ⟨xs, h1, h2, h3⟩ := collect_values hc
      have hty := collect_types h1
      obtain ⟨ts, h4, h5⟩ := list_pick (g := readTree m F scope fuel) (P := fun _ _ => True) h2
        (fun i x s hx hs => by
          obtain ⟨t, ht⟩ := read_of_debug (hty x (List.mem_of_getElem? hx)) (h3 i x s hx hs)
          exact ⟨t, ht, trivial⟩)
      have hd := collect_of_values (g := readTree m F scope fuel) (ss := ts) h1 (by omega) (fun i x t hx hs => by
        have : i < xs.length := by
          rcases Nat.lt_or_ge i xs.length with h | h
          · exact h
          · rw [List.getElem?_eq_none h] at hx; cases hx
        exact (h5 i x _ t hx (List.getElem?_eq_getElem (by omega)) hs).1)
      exact ⟨.arr ts, by simp only [hi, ok_bind, hd, pure_eq]⟩
    | dict =>
      unfold Val.debugDict at hf
      obtain ⟨it, hi, hf⟩ := bind_eq_ok.mp hf
      obtain ⟨ss, hc, _⟩ := bind_eq_ok.mp hf
      rw [debugEntries_eq] at hc
      obtain ⟨es, hc, _⟩ := bind_eq_ok.mp hc
      obtain ⟨xs, h1, h2, h3⟩ := collectDict_values hc
      have hty := collectDict_types h1
      obtain ⟨ts, h4, h5⟩ := list_pick (g := fun x : List UInt8 × Val => readTree m F scope fuel x.2) (P := fun _ _ => True) h2
        (fun i x s hx hs => by
          obtain ⟨t, ht⟩ := read_of_debug (hty x (List.mem_of_getElem? hx)).1 (h3 i x s hx hs).2
          exact ⟨t, ht, trivial⟩)
      have hd := collectDict_of_values (g := readTree m F scope fuel) (ss := (xs.map Prod.fst).zip ts) h1
        (by simp; omega) (fun i x s hx hs => by
          rw [List.getElem?_zip_eq_some] at hs
          obtain ⟨g1, g2⟩ := hs
          rw [List.getElem?_map, hx] at g1
          simp only [Option.map_some, Option.some.injEq] at g1
          have : i < xs.length := by
            rcases Nat.lt_or_ge i xs.length with h | h
            · exact h
            · rw [List.getElem?_eq_none h] at hx; cases hx
          exact ⟨g1, (h5 i x _ s.2 hx (List.getElem?_eq_getElem (by omega)) g2).1⟩)
      exact ⟨.dict ((xs.map Prod.fst).zip ts), by simp only [hi, ok_bind, hd, pure_eq]⟩
    | pointer => exact absurd ht hp

end Fleece
