import Verif.Proofs.RepRoot

/-! # What the slots of open collections stand for; closing a collection -/

namespace Fleece
open Res

variable {P : List UInt8 → Prop}

/-! ## Lists -/

/-- Element by element. -/
inductive All2 {α β : Type} (R : α → β → Prop) : List α → List β → Prop where
  | nil : All2 R [] []
  | cons {a : α} {b : β} {as : List α} {bs : List β} (h : R a b) (t : All2 R as bs) : All2 R (a :: as) (b :: bs)

namespace All2
variable {α β γ : Type} {R : α → β → Prop}

theorem length {as : List α} {bs : List β} (h : All2 R as bs) : as.length = bs.length := by
  induction h with
  | nil => rfl
  | cons _ _ ih => simp [ih]

theorem get {as : List α} {bs : List β} (h : All2 R as bs) : ∀ {i : Nat} {a : α} {b : β}, as[i]? = some a → bs[i]? = some b →
    R a b := by
  induction h with
  | nil => intro i a b h; simp at h
  | cons h _ ih =>
    intro i a b h1 h2
    cases i with
    | zero => simp at h1 h2; subst h1; subst h2; exact h
    | succ i => simp at h1 h2; exact ih h1 h2

theorem snoc {as : List α} {bs : List β} {a : α} {b : β} (h : All2 R as bs) (hab : R a b) : All2 R (as ++ [a]) (bs ++ [b]) := by
  induction h with
  | nil => exact .cons hab .nil
  | cons h _ ih => exact .cons h ih

theorem imp {S : α → β → Prop} {as : List α} {bs : List β} (h : All2 R as bs) (hRS : ∀ a b, R a b → S a b) :
    All2 S as bs := by
  induction h with
  | nil => exact .nil
  | cons h _ ih => exact .cons (hRS _ _ h) ih

theorem choose {S : α → γ → Prop} {T : β → γ → Prop} {as : List α} {bs : List β}
    (h : All2 (fun a b => ∃ c, S a c ∧ T b c) as bs) : ∃ cs, All2 S as cs ∧ All2 T bs cs := by
  induction h with
  | nil => exact ⟨[], .nil, .nil⟩
  | cons h _ ih =>
    obtain ⟨c, h1, h2⟩ := h
    obtain ⟨cs, h3, h4⟩ := ih
    exact ⟨c :: cs, .cons h1 h3, .cons h2 h4⟩

theorem perm {as as' : List α} (hp : as'.Perm as) : ∀ {bs : List β}, All2 R as bs → ∃ bs', bs.Perm bs' ∧ All2 R as' bs' := by
  induction hp with
  | nil => intro bs h; exact ⟨bs, .refl _, h⟩
  | cons x _ ih =>
    intro bs h
    cases h with
    | cons h t =>
      obtain ⟨bs', h1, h2⟩ := ih t
      exact ⟨_, h1.cons _, .cons h h2⟩
  | swap x y l =>
    intro bs h
    cases h with
    | cons h t =>
      cases t with
      | cons h' t =>
        exact ⟨_, .swap _ _ _, .cons h' (.cons h t)⟩
  | trans _ _ ih1 ih2 =>
    intro bs h
    obtain ⟨b1, h1, h2⟩ := ih2 h
    obtain ⟨b2, h3, h4⟩ := ih1 h2
    exact ⟨b2, h1.trans h3, h4⟩

theorem map_eq {δ : Type} {f : α → δ} {g : β → δ} {as : List α} {bs : List β} (h : All2 (fun a b => f a = g b) as bs) :
    as.map f = bs.map g := by
  induction h with
  | nil => rfl
  | cons h _ ih => simp [h, ih]

end All2

/-- Position of an element in a concatenation of pieces of one length. -/
theorem At_flatten {pre : List UInt8} {l : List (List UInt8)} {w : Nat} (hw : ∀ x ∈ l, x.length = w) :
    ∀ {i : Nat} {x : List UInt8}, l[i]? = some x → At (pre ++ l.flatten) (pre.length + i * w) x := by
  induction l generalizing pre with
  | nil => intro i x h; simp at h
  | cons a l ih =>
    intro i x h
    cases i with
    | zero =>
      simp at h; subst h
      exact ⟨pre, l.flatten, by simp, by simp⟩
    | succ i =>
      simp at h
      have := ih (pre := pre ++ a) (fun x hx => hw x (List.mem_cons_of_mem _ hx)) h
      have ha := hw a (by simp)
      simp only [List.flatten_cons, ← List.append_assoc]
      rw [List.length_append, ha] at this
      rw [Nat.add_mul, Nat.one_mul]
      rwa [show pre.length + (i * w + w) = pre.length + w + i * w by omega]

/-! ## Slots -/

/-- A slot of an open collection stands for `t`. -/
inductive SlotFor (out : List UInt8) (F : FloatOps) (P : List UInt8 → Prop) (scope : Option SharedKeys) (s : SizedValue) (t : Tree) : Prop where
  | inline (h : SlotBytes F s t)
  | pointer {p e : Nat} (ht : s.type = .pointer) (ho : s.pointerOffset = p) (even : p % 2 = 0)
      (rep : Rep out F P scope none p e t)

/-- A key of an open dict stands for the text `k`. -/
inductive KeyFor (out : List UInt8) (F : FloatOps) (P : List UInt8 → Prop) (scope : Option SharedKeys) : DictKey → List UInt8 → Prop where
  | inline {s : SizedValue} {k : List UInt8} (h : SlotBytes F s (.str k)) (hs : s.str = k)
      (hp : P k) : KeyFor out F P scope (.inline s) k
  | shared {c : Nat} {sk : SharedKeys} {k : List UInt8} (hc : c ≤ 2047) (hsk : scope = some sk)
      (hd : sk.decode c = some k) : KeyFor out F P scope (.shared c) k
  | pointer {off : Nat} {bs : List UInt8} {ty : ValueType} {k : List UInt8} (hat : At out off bs)
      (hs : ScalarBytes F bs ty (.str k)) (even : off % 2 = 0) (hp : P k) : KeyFor out F P scope (.pointer k off) k

theorem SlotFor.mono {out out' : List UInt8} {F : FloatOps} {scope scope' : Option SharedKeys} {s : SizedValue} {t : Tree}
    (h : SlotFor out F P scope s t) (hd : out <+: out') (hs : ScopeLe scope scope') : SlotFor out' F P scope' s t := by
  cases h with
  | inline h => exact .inline h
  | pointer ht ho even rep => exact .pointer ht ho even (rep.mono hd hs)

theorem KeyFor.mono {out out' : List UInt8} {F : FloatOps} {scope scope' : Option SharedKeys} {dk : DictKey} {k : List UInt8}
    (h : KeyFor out F P scope dk k) (hd : out <+: out') (hs : ScopeLe scope scope') : KeyFor out' F P scope' dk k := by
  cases h with
  | inline h hs hp => exact .inline h hs hp
  | shared hc hsk hd' =>
    obtain ⟨sk', h1, h2⟩ := hs _ hsk
    exact .shared hc h1 (h2.decode hd')
  | pointer hat hs' even hp => exact .pointer (hat.mono hd) hs' even hp

theorem KeyFor.text {out : List UInt8} {F : FloatOps} {scope : Option SharedKeys} {dk : DictKey} {k : List UInt8}
    (h : KeyFor out F P scope dk k) : dk.key.Text scope k := by
  cases h with
  | inline h hs hp => exact hs
  | shared hc hsk hd => exact ⟨_, hsk, hd⟩
  | pointer => rfl

theorem KeyFor.str {out : List UInt8} {F : FloatOps} {scope : Option SharedKeys} {dk : DictKey} {k s : List UInt8}
    (h : KeyFor out F P scope dk k) (hs : dk.key = .string s) : P s := by
  cases h with
  | inline h hk hp => cases hs; rw [hk]; exact hp
  | shared hc hsk hd => cases hs
  | pointer hat hb even hp => cases hs; exact hp

/-- A slot that a narrow collection can hold at position `q`: not a one-byte string or data, and no pointer to far. -/
def SizedValue.FitsNarrow (s : SizedValue) (q : Nat) : Prop :=
  (s.type ≠ .pointer → s.b0.toNat < 64) ∧ (s.type = .pointer → q - s.pointerOffset ≤ SizedValue.maxNarrow)

/-- The same for keys. -/
def DictKey.FitsNarrow (k : DictKey) (q : Nat) : Prop :=
  match k with
  | .inline _ => False
  | .shared _ => True
  | .pointer _ off => q - off ≤ SizedValue.maxNarrow

/-- The largest offset that the encoder writes. -/
def maxEnc (w : Bool) : Nat := if w then SizedValue.maxWide else SizedValue.maxNarrow

theorem maxEnc_le (w : Bool) : maxEnc w ≤ SizedValue.maxWide := by cases w <;> decide
theorem maxEnc_off (w : Bool) : maxEnc w ≤ maxOff w := by cases w <;> decide

theorem relSlot_ptr {s : SizedValue} {q : Nat} (ht : s.type = .pointer) (hq : q ≤ SizedValue.maxWide) :
    Enc.relSlot s q = ptrSlot (q - s.pointerOffset) := by
  unfold Enc.relSlot
  rw [if_pos ht]
  obtain ⟨h1, _⟩ := ptrSlot_spec (off := q - s.pointerOffset) (by omega)
  rw [h1]; rfl

theorem slotBytes_ptr_fits {w : Bool} {off : Nat} (h : off ≤ maxEnc w) : slotBytes w (ptrSlot off) = ptrBytes w off := by
  rw [slotBytes_ptr (Nat.le_trans h (maxEnc_le w))]
  cases w with
  | true => rfl
  | false =>
    have h' : off ≤ SizedValue.maxNarrow := h
    have : decide (SizedValue.maxNarrow < off) = false := decide_eq_false (by omega)
    rw [Bool.false_or]; exact congrArg (ptrBytes · off) this

theorem slot_rep {out : List UInt8} {F : FloatOps} {scope : Option SharedKeys} {s : SizedValue} {t : Tree} {w : Bool} {q : Nat}
    (h : SlotFor out F P scope s t) (hle : out.length ≤ q) (heven : q % 2 = 0) (hq : q ≤ SizedValue.maxWide)
    (hn : w = false → s.FitsNarrow q) :
    (slotBytes w (Enc.relSlot s q)).length = wof w ∧
      ∀ data, out <+: data → At data q (slotBytes w (Enc.relSlot s q)) → Rep data F P scope (some w) q (q + wof w) t := by
  cases h with
  | inline h =>
    have hrel : Enc.relSlot s q = s := by unfold Enc.relSlot; rw [if_neg h.notPointer]
    rw [hrel]
    have hb : ∃ ty, ScalarBytes F (slotBytes w s) ty t := by
      unfold slotBytes
      rw [if_neg h.notPointer]
      cases w with
      | true => exact h.wide
      | false => exact h.narrow ((hn rfl).1 h.notPointer)
    have hl : (slotBytes w s).length = wof w := by
      unfold slotBytes
      rw [if_neg h.notPointer]
      cases w <;> rfl
    obtain ⟨ty, hb⟩ := hb
    exact ⟨hl, fun data _ hat => .inline hat hl hb⟩
  | @pointer p e ht ho even rep =>
    subst ho
    have hpe := rep.le
    rw [relSlot_ptr ht hq]
    have hmax : q - s.pointerOffset ≤ maxEnc w := by
      cases w with
      | false => exact (hn rfl).2 ht
      | true => show _ ≤ SizedValue.maxWide; omega
    rw [slotBytes_ptr_fits hmax]
    refine ⟨by rw [ptrBytes_length]; cases w <;> rfl, fun data hd hat => ?_⟩
    exact .ptr hat (by omega) (by omega) (by omega) (Nat.le_trans hmax (maxEnc_off w)) (rep.mono hd (.refl _))

theorem key_rep {out : List UInt8} {F : FloatOps} {scope : Option SharedKeys} {dk : DictKey} {k : List UInt8} {w : Bool} {q : Nat}
    (h : KeyFor out F P scope dk k) (hle : out.length ≤ q) (heven : q % 2 = 0) (hq : q ≤ SizedValue.maxWide)
    (hn : w = false → dk.FitsNarrow q) :
    (slotBytes w (Enc.keySlotVal (Enc.relKey dk q))).length = wof w ∧
      ∀ data, out <+: data → At data q (slotBytes w (Enc.keySlotVal (Enc.relKey dk q))) → KeyAt data F w q dk.key := by
  cases h with
  | @inline s _ h hs =>
    subst hs
    cases w with
    | false => exact (hn rfl).elim
    | true =>
      obtain ⟨ty, hb⟩ := h.wide
      have hsb : slotBytes true (Enc.keySlotVal (Enc.relKey (.inline s) q)) = s.bytes := by
        show slotBytes true s = _
        unfold slotBytes; rw [if_neg h.notPointer]; rfl
      rw [hsb]
      exact ⟨rfl, fun data _ hat => .inline hat rfl hb⟩
  | @shared c sk _ hc hsk hd =>
    have hb0 : (UInt8.ofNat (c / 256)).toNat = c / 256 := by rw [ofNat_toNat]; omega
    have hnp : ValueType.fromByte (UInt8.ofNat (c / 256)) ≠ .pointer := small_notPointer _ (by omega)
    have hsb : ∃ tl, slotBytes w (Enc.keySlotVal (Enc.relKey (.shared c) q)) =
        UInt8.ofNat (c / 256) :: UInt8.ofNat c :: tl ∧ 2 + tl.length = wof w := by
      show ∃ tl, slotBytes w (SizedValue.newNarrow (UInt8.ofNat (c / 256)) (UInt8.ofNat c)) = _ ∧ _
      unfold slotBytes
      rw [if_neg (by exact hnp)]
      cases w with
      | true => exact ⟨_, rfl, rfl⟩
      | false =>
        refine ⟨[], ?_, rfl⟩
        simp only [Bool.false_eq_true, if_false, SizedValue.newNarrow]
        rw [and_bf_small _ (by omega)]
    obtain ⟨tl, h1, h2⟩ := hsb
    rw [h1]
    refine ⟨by simp only [List.length_cons]; omega, fun data _ hat => .shared hat h2 (by omega) ?_⟩
    rw [hb0, ofNat_toNat]; omega
  | @pointer off bs ty _ hat hs even =>
    have hle' := hat.le
    have hmax : q - off ≤ maxEnc w := by
      cases w with
      | false => exact hn rfl
      | true => show _ ≤ SizedValue.maxWide; omega
    have hsb : slotBytes w (Enc.keySlotVal (Enc.relKey (.pointer k off) q)) = ptrBytes w (q - off) :=
      slotBytes_ptr_fits hmax
    rw [hsb]
    refine ⟨by rw [ptrBytes_length]; cases w <;> rfl, fun data hd hat' => ?_⟩
    exact .pointer (hat.mono hd) hs (by omega) (by omega) (Nat.le_trans hmax (maxEnc_off w)) hat'

/-! ## Arrays -/

theorem relArray_get (w : Bool) (vs : List SizedValue) : ∀ {len i : Nat},
    (Enc.relArray w len vs)[i]? = (vs[i]?).map fun v => Enc.relSlot v (len + i * wof w) := by
  induction vs with
  | nil => intro len i; simp [Enc.relArray]
  | cons v vs ih =>
    intro len i
    cases i with
    | zero => simp [Enc.relArray]
    | succ i =>
      simp only [Enc.relArray, List.getElem?_cons_succ, ih]
      have : len + Enc.slotWidth w + i * wof w = len + (i + 1) * wof w := by
        rw [Nat.add_mul]
        have : Enc.slotWidth w = wof w := by cases w <;> rfl
        omega
      rw [this]

/-- An array that its width can hold. -/
def ArrFits (out : List UInt8) (vs : List SizedValue) : Prop :=
  vs.any (Enc.slotFar out.length) = false → ∀ (i : Nat) (v : SizedValue), vs[i]? = some v →
    v.FitsNarrow (out.length + hdrLen vs.length + i * 2)

theorem padHeader_length {out : List UInt8} (he : out.length % 2 = 0) (tag : UInt8) {n : Nat} (hn : n < 2 ^ 64) (w : Bool) :
    (padEven (out ++ headerBytes tag n w)).length = out.length + hdrLen n := by
  rw [padEven_length, List.length_append, headerBytes_length tag hn]
  unfold hdrLen; omega

theorem padHeader_at (out : List UInt8) (tag : UInt8) (n : Nat) (w : Bool) (rest : List UInt8) :
    At (padEven (out ++ headerBytes tag n w) ++ rest) out.length (headerBytes tag n w) := by
  have : At (out ++ headerBytes tag n w) out.length (headerBytes tag n w) := ⟨out, [], by simp, rfl⟩
  exact (this.mono (padEven_prefix _)).append rest

theorem close_arr {out : List UInt8} {F : FloatOps} {scope : Option SharedKeys} {vs : List SizedValue} {ts : List Tree}
    (he : out.length % 2 = 0) (hsl : All2 (SlotFor out F P scope) vs ts) (hf : ArrFits out vs)
    (hsz : out.length + 12 + 4 * vs.length ≤ SizedValue.maxWide) :
    Rep (Enc.arrOut out vs) F P scope none out.length (Enc.arrOut out vs).length (.arr ts) := by
  have hmw : SizedValue.maxWide < 2 ^ 32 := by decide
  have hlen := hsl.length
  unfold ArrFits at hf
  unfold Enc.arrOut
  generalize hw : vs.any (Enc.slotFar out.length) = w at hf
  dsimp only
  have hol := padHeader_length he 0x60 (n := vs.length) (by omega) w
  generalize ho : padEven (out ++ headerBytes 0x60 vs.length w) = o at hol
  have hh : hdrLen vs.length ≤ 12 := hdrLen_le (by omega)
  have hoe : o.length % 2 = 0 := by rw [← ho]; exact padEven_even _
  have hpre : out <+: o := by rw [← ho]; exact (List.prefix_append _ _).trans (padEven_prefix _)
  have h4 : wof w ≤ 4 := by cases w <;> simp [wof]
  have hw2 : wof w % 2 = 0 := by cases w <;> rfl
  -- every slot
  have key : ∀ (i : Nat) (v : SizedValue) (t : Tree), vs[i]? = some v → ts[i]? = some t →
      (slotBytes w (Enc.relSlot v (o.length + i * wof w))).length = wof w ∧
      ∀ data, out <+: data → At data (o.length + i * wof w) (slotBytes w (Enc.relSlot v (o.length + i * wof w))) →
        Rep data F P scope (some w) (o.length + i * wof w) (o.length + i * wof w + wof w) t := by
    intro i v t hv ht
    have hi : i < vs.length := (List.getElem?_eq_some_iff.mp hv).1
    have him : i * wof w ≤ i * 4 := Nat.mul_le_mul_left _ h4
    have hie : (i * wof w) % 2 = 0 := by rw [Nat.mul_mod, hw2]; simp
    refine slot_rep (hsl.get hv ht) (by omega) (by omega) (by omega) ?_
    intro hwf
    have := hf hwf i v hv
    rw [hwf, hol]
    exact this
  have hall : ∀ x ∈ (Enc.relArray w o.length vs).map (slotBytes w), x.length = wof w := by
    intro x hx
    obtain ⟨i, hi⟩ := List.mem_iff_getElem?.mp hx
    rw [List.getElem?_map, relArray_get] at hi
    simp only [Option.map_map, Option.map_eq_some_iff] at hi
    obtain ⟨v, hv, rfl⟩ := hi
    have hi : i < vs.length := (List.getElem?_eq_some_iff.mp hv).1
    exact (key i v _ hv (List.getElem?_eq_getElem (by omega))).1
  have hfl : ((Enc.relArray w o.length vs).map (slotBytes w)).flatten.length = ts.length * wof w := by
    have := List.length_flatten (L := (Enc.relArray w o.length vs).map (slotBytes w))
    rw [this, List.map_map]
    have hc : ∀ l : List (List UInt8), (∀ x ∈ l, x.length = wof w) → (l.map List.length).sum = l.length * wof w := by
      intro l
      induction l with
      | nil => intro; simp
      | cons a l ih =>
        intro h
        simp only [List.map_cons, List.sum_cons, List.length_cons, Nat.add_mul]
        rw [h a (by simp), ih fun x hx => h x (List.mem_cons_of_mem _ hx)]; omega
    have := hc _ hall
    rw [List.map_map, List.length_map, Enc.relArray_length] at this
    rw [this, hlen]
  have htot : (o ++ ((Enc.relArray w o.length vs).map (slotBytes w)).flatten).length =
      out.length + hdrLen ts.length + ts.length * wof w := by
    rw [List.length_append, hfl, hol, hlen]
  rw [htot]
  refine Rep.arr (w := w) ?_ (by omega) (by rw [htot]; exact Nat.le_refl _) ?_
  · rw [← ho, ← hlen]
    exact padHeader_at _ _ _ _ _
  · intro i t ht
    have hi : i < ts.length := (List.getElem?_eq_some_iff.mp ht).1
    have hv := List.getElem?_eq_getElem (l := vs) (i := i) (by omega)
    rw [← hlen, ← hol]
    refine (key i _ t hv ht).2 _ (hpre.trans (List.prefix_append _ _)) ?_
    refine At_flatten hall ?_
    rw [List.getElem?_map, relArray_get, hv]
    rfl

/-! ## Dicts -/

theorem relDict_get (w : Bool) (els : List DictElem) : ∀ {len i : Nat},
    (Enc.relDict w len els)[i]? = (els[i]?).map fun el =>
      ⟨Enc.relKey el.key (len + 2 * i * wof w), Enc.relSlot el.val (len + (2 * i + 1) * wof w)⟩ := by
  induction els with
  | nil => intro len i; simp [Enc.relDict]
  | cons v vs ih =>
    intro len i
    have hs : Enc.slotWidth w = wof w := by cases w <;> rfl
    cases i with
    | zero => simp [Enc.relDict, hs]
    | succ i =>
      simp only [Enc.relDict, List.getElem?_cons_succ, ih, hs]
      have h1 : len + wof w + wof w + 2 * i * wof w = len + 2 * (i + 1) * wof w := by
        rw [show 2 * (i + 1) = 2 * i + 1 + 1 by omega, Nat.add_mul, Nat.add_mul]; omega
      have h2 : len + wof w + wof w + (2 * i + 1) * wof w = len + (2 * (i + 1) + 1) * wof w := by
        rw [show 2 * (i + 1) + 1 = (2 * i + 1) + 1 + 1 by omega, Nat.add_mul (2 * i + 1 + 1), Nat.add_mul (2 * i + 1)]; omega
      rw [h1, h2]

/-- A dict (pairs in their final order) that its width can hold. -/
def DictFits (out : List UInt8) (w : Bool) (els : List DictElem) : Prop :=
  w = false → ∀ (i : Nat) (el : DictElem), els[i]? = some el →
    el.key.FitsNarrow (out.length + hdrLen els.length + 2 * i * 2) ∧
      el.val.FitsNarrow (out.length + hdrLen els.length + (2 * i + 1) * 2)

/-- A pair of an open dict. -/
def PairFor (out : List UInt8) (F : FloatOps) (P : List UInt8 → Prop) (scope : Option SharedKeys) (el : DictElem) (kv : List UInt8 × Tree) : Prop :=
  KeyFor out F P scope el.key kv.1 ∧ SlotFor out F P scope el.val kv.2

theorem close_dict {out : List UInt8} {F : FloatOps} {scope : Option SharedKeys} {els : List DictElem}
    {kvs : List (List UInt8 × Tree)} {w : Bool} (he : out.length % 2 = 0) (hsl : All2 (PairFor out F P scope) els kvs)
    (hf : DictFits out w els) (hsz : out.length + 12 + 8 * els.length ≤ SizedValue.maxWide)
    (hsort : els.Pairwise fun a b => DictKey.cmp a.key b.key ≠ .gt) :
    Rep (Enc.dictOut out w els) F P scope none out.length (Enc.dictOut out w els).length (.dict kvs) := by
  have hmw : SizedValue.maxWide < 2 ^ 32 := by decide
  have hlen := hsl.length
  unfold DictFits at hf
  unfold Enc.dictOut
  dsimp only
  have hol := padHeader_length he 0x70 (n := els.length) (by omega) w
  generalize ho : padEven (out ++ headerBytes 0x70 els.length w) = o at hol
  have hh : hdrLen els.length ≤ 12 := hdrLen_le (by omega)
  have hoe : o.length % 2 = 0 := by rw [← ho]; exact padEven_even _
  have hpre : out <+: o := by rw [← ho]; exact (List.prefix_append _ _).trans (padEven_prefix _)
  have h4 : wof w ≤ 4 := by cases w <;> simp [wof]
  have hw2 : wof w % 2 = 0 := by cases w <;> rfl
  have pos : ∀ i j, i < els.length → j ≤ 2 * i + 1 → out.length ≤ o.length + j * wof w ∧ (o.length + j * wof w) % 2 = 0 ∧
      o.length + j * wof w ≤ SizedValue.maxWide := by
    intro i j hi hj
    have h1 : j * wof w ≤ (2 * els.length) * 4 := Nat.mul_le_mul (by omega) h4
    have h2 : (j * wof w) % 2 = 0 := by rw [Nat.mul_mod, hw2]; simp
    omega
  have key : ∀ (i : Nat) (el : DictElem) (kv : List UInt8 × Tree), els[i]? = some el → kvs[i]? = some kv →
      ((slotBytes w (Enc.keySlotVal (Enc.relKey el.key (o.length + 2 * i * wof w)))).length = wof w ∧
      ∀ data, out <+: data →
        At data (o.length + 2 * i * wof w) (slotBytes w (Enc.keySlotVal (Enc.relKey el.key (o.length + 2 * i * wof w)))) →
        KeyAt data F w (o.length + 2 * i * wof w) el.key.key) ∧
      ((slotBytes w (Enc.relSlot el.val (o.length + (2 * i + 1) * wof w))).length = wof w ∧
      ∀ data, out <+: data →
        At data (o.length + (2 * i + 1) * wof w) (slotBytes w (Enc.relSlot el.val (o.length + (2 * i + 1) * wof w))) →
        Rep data F P scope (some w) (o.length + (2 * i + 1) * wof w) (o.length + (2 * i + 1) * wof w + wof w) kv.2) := by
    intro i el kv hel hkv
    have hi : i < els.length := (List.getElem?_eq_some_iff.mp hel).1
    obtain ⟨p1, p2, p3⟩ := pos i (2 * i) hi (by omega)
    obtain ⟨q1, q2, q3⟩ := pos i (2 * i + 1) hi (by omega)
    obtain ⟨hk, hv⟩ := hsl.get hel hkv
    constructor
    · refine key_rep hk p1 p2 p3 fun hwf => ?_
      have := (hf hwf i el hel).1
      rw [hwf, hol]; exact this
    · refine slot_rep hv q1 q2 q3 fun hwf => ?_
      have := (hf hwf i el hel).2
      rw [hwf, hol]; exact this
  let piece := fun el : DictElem => slotBytes w (Enc.keySlotVal el.key) ++ slotBytes w el.val
  have getp : ∀ i, ((Enc.relDict w o.length els).map piece)[i]? = (els[i]?).map fun el =>
      slotBytes w (Enc.keySlotVal (Enc.relKey el.key (o.length + 2 * i * wof w))) ++
        slotBytes w (Enc.relSlot el.val (o.length + (2 * i + 1) * wof w)) := by
    intro i
    rw [List.getElem?_map, relDict_get, Option.map_map]
    rfl
  have hall : ∀ x ∈ (Enc.relDict w o.length els).map piece, x.length = 2 * wof w := by
    intro x hx
    obtain ⟨i, hi⟩ := List.mem_iff_getElem?.mp hx
    rw [getp] at hi
    simp only [Option.map_eq_some_iff] at hi
    obtain ⟨el, hel, rfl⟩ := hi
    have hi : i < els.length := (List.getElem?_eq_some_iff.mp hel).1
    have := key i el _ hel (List.getElem?_eq_getElem (by omega))
    rw [List.length_append, this.1.1, this.2.1]; omega
  have hfl : ((Enc.relDict w o.length els).map piece).flatten.length = kvs.length * 2 * wof w := by
    rw [List.length_flatten]
    have hc : ∀ l : List (List UInt8), (∀ x ∈ l, x.length = 2 * wof w) →
        (l.map List.length).sum = l.length * (2 * wof w) := by
      intro l
      induction l with
      | nil => intro; simp
      | cons a l ih =>
        intro h
        simp only [List.map_cons, List.sum_cons, List.length_cons, Nat.add_mul]
        rw [h a (by simp), ih fun x hx => h x (List.mem_cons_of_mem _ hx)]; omega
    rw [hc _ hall, List.length_map, relDict_length, hlen, Nat.mul_assoc]
  have hpb : Enc.pairsBytes w (Enc.relDict w o.length els) = ((Enc.relDict w o.length els).map piece).flatten := rfl
  rw [hpb]
  have htot : (o ++ ((Enc.relDict w o.length els).map piece).flatten).length =
      out.length + hdrLen kvs.length + kvs.length * 2 * wof w := by
    rw [List.length_append, hfl, hol, hlen]
  rw [htot]
  refine Rep.dict (w := w) (ks := els.map (·.key.key)) ?_ (by omega) (by rw [htot]; exact Nat.le_refl _)
    (by rw [List.length_map, hlen]) ?_ ?_ ?_ ?_ ?_
  · rw [← ho, ← hlen]
    exact padHeader_at _ _ _ _ _
  · intro i k hk
    rw [List.getElem?_map, Option.map_eq_some_iff] at hk
    obtain ⟨el, hel, rfl⟩ := hk
    have hi : i < els.length := (List.getElem?_eq_some_iff.mp hel).1
    have hkv := List.getElem?_eq_getElem (l := kvs) (i := i) (by omega)
    rw [← hlen, ← hol]
    refine (key i el _ hel hkv).1.2 _ (hpre.trans (List.prefix_append _ _)) ?_
    have := At_flatten (pre := o) hall (i := i) (by rw [getp, hel]; rfl)
    rw [show i * (2 * wof w) = 2 * i * wof w by rw [Nat.mul_comm 2 i, Nat.mul_assoc]] at this
    have h2 := At.sub (a := []) (by simpa using this)
    simpa using h2
  · intro i k s t hk hkv
    rw [List.getElem?_map, Option.map_eq_some_iff] at hk
    obtain ⟨el, hel, rfl⟩ := hk
    exact (hsl.get hel hkv).1.text
  · rw [List.pairwise_map]
    exact hsort.imp fun h => DictKey.cmp_not_gt.mp h
  · intro i s hk
    rw [List.getElem?_map, Option.map_eq_some_iff] at hk
    obtain ⟨el, hel, hk⟩ := hk
    have hi : i < els.length := (List.getElem?_eq_some_iff.mp hel).1
    exact (hsl.get hel (List.getElem?_eq_getElem (l := kvs) (i := i) (by omega))).1.str hk
  · intro i s t hkv
    have hi : i < kvs.length := (List.getElem?_eq_some_iff.mp hkv).1
    have hel := List.getElem?_eq_getElem (l := els) (i := i) (by omega)
    rw [← hlen, ← hol]
    refine (key i _ _ hel hkv).2.2 _ (hpre.trans (List.prefix_append _ _)) ?_
    have hk1 := (key i _ _ hel hkv).1.1
    have := At_flatten (pre := o) hall (i := i) (by rw [getp, hel]; rfl)
    have h2 := At.sub (c := []) (by simpa using this)
    rw [hk1] at h2
    rw [show o.length + i * (2 * wof w) + wof w = o.length + (2 * i + 1) * wof w by
      rw [Nat.add_mul, Nat.mul_comm 2 i, Nat.mul_assoc]; omega] at h2
    exact h2

end Fleece
