import Verif.Spec.Liberal
import Verif.Proofs.Groups
import Verif.Proofs.Number
import Verif.Proofs.EncBasic
import Verif.Proofs.Deep

/-! # What the reader reads is what the bytes say -/

namespace Fleece
open Res Spec

theorem Varint.readLoop_lt {ε : Type} (dbg : Bool) : ∀ (bs : List UInt8) (i shift res : Nat) {k n : Nat}, res < 2 ^ 64 →
    readLoop (ε := ε) dbg bs i shift res = .ok (k, n) → n < 2 ^ 64
  | [], _, _, _, _, _, _, h => by cases h; decide
  | b :: bs, i, shift, res, k, n, hr, h => by
    have hlt : res ||| (((b &&& 0x7F).toNat <<< (shift % 64)) % 2 ^ 64) < 2 ^ 64 :=
      Nat.or_lt_two_pow hr (Nat.mod_lt _ (by decide))
    unfold readLoop at h
    split at h
    · cases h
    · dsimp only at h
      split at h
      · exact readLoop_lt dbg bs _ _ _ hlt h
      · split at h
        · cases h; decide
        · cases h; exact hlt

theorem Varint.read_lt {ε : Type} {dbg : Bool} {bs : List UInt8} {k n : Nat} (h : read (ε := ε) dbg bs = .ok (k, n)) :
    n < 2 ^ 64 := by
  cases bs with
  | nil => cases h; decide
  | cons b bs =>
    simp only [read] at h
    split at h
    · cases h; have := b.toNat_lt; omega
    · exact readLoop_lt dbg _ _ _ _ (by rw [byte_and7f]; omega) h

namespace Liberal

/-- What the code reads: all oddities. -/
def code (m : Mem) (F : FloatOps) (scope : Option SharedKeys) : Reader := ⟨F, scope, m.dbg, fun _ => True⟩

section
variable {m : Mem} {F : FloatOps} {scope : Option SharedKeys} {v : Val}

theorem read_sound {ε : Type} {bs : List UInt8} {k n : Nat} (h : Varint.read (ε := ε) m.dbg bs = .ok (k, n)) :
    (k = 0 ∧ NoSize (code m F scope) bs) ∨ (k ≠ 0 ∧ Size (code m F scope) bs k n) := by
  rcases Varint.groups_or bs with ⟨g, n', rest, rfl, hg⟩ | hall
  · have hpos := Varint.Groups.pos hg
    by_cases hl : g.length ≤ 10
    · rw [Varint.read_groups m.dbg hg hl] at h
      cases h
      refine .inr ⟨by omega, ?_⟩
      by_cases hb : n' < 2 ^ 64
      · rw [Nat.mod_eq_of_lt hb]; exact .plain hg (List.prefix_append _ _) hl hb
      · exact .large trivial hg (List.prefix_append _ _) hl (by omega)
    · obtain ⟨h1, h2, h3⟩ := Varint.read_long (ε := ε) hg (by omega) rest
      cases hd : m.dbg with
      | true => rw [hd, h1] at h; cases h
      | false =>
        by_cases h11 : g.length = 11
        · have hlt := Varint.read_lt h
          obtain ⟨x, hx⟩ := h3 h11
          rw [hd, hx] at h; cases h
          exact .inr ⟨by omega, .eleven trivial hd hg (List.prefix_append _ _) h11 hlt⟩
        · rw [hd, h2 (by omega)] at h; cases h
          exact .inl ⟨rfl, .long trivial hd hg (List.prefix_append _ _) (by omega)⟩
  · rw [Varint.read_all m.dbg bs hall] at h
    split at h
    · cases h
    · rename_i hn
      cases h
      refine .inl ⟨rfl, .endless trivial hall fun hd => ?_⟩
      have hd : m.dbg = true := hd
      rcases Nat.lt_or_ge 10 bs.length with hlt | hge
      · exact absurd ⟨hd, hlt⟩ hn
      · exact hge

theorem slice_ok {a b : Nat} {bs : List UInt8} (h : v.slice m a b = .ok bs) :
    a ≤ b ∧ b ≤ v.len ∧ v.pos + b ≤ m.data.length ∧ bs.length = b - a ∧ bs = (m.data.drop (v.pos + a)).take (b - a) := by
  unfold Val.slice at h
  split at h
  · rename_i hc
    obtain ⟨h1, h2⟩ := rawRead_ok h
    have := rawRead_length h
    exact ⟨hc.1, hc.2, by omega, this, h2⟩
  · cases h

theorem slice_here {a b : Nat} {bs : List UInt8} (h : v.slice m a b = .ok bs) : Format.Here m.data (v.pos + a) bs := by
  obtain ⟨_, _, _, _, rfl⟩ := slice_ok h
  exact List.take_prefix _ _

theorem slice_between {a : Nat} {bs : List UInt8} (h : v.slice m a v.len = .ok bs) :
    bs = between m.data (v.pos + a) (v.pos + v.len) := by
  obtain ⟨h1, _, _, _, rfl⟩ := slice_ok h
  unfold between
  rw [show v.pos + v.len - (v.pos + a) = v.len - a by omega]

theorem getData_sound {tag : Nat} {b : UInt8} {s : List UInt8} (hl : 2 ≤ v.len) (h0 : m.data[v.pos]? = some b)
    (ht : b.toNat / 16 = tag) (h : v.getData m = .ok s) : Counted (code m F scope) m.data tag v.pos (v.pos + v.len) s := by
  unfold Val.getData at h
  rw [if_neg (by omega)] at h
  simp only [pure_eq] at h
  obtain ⟨b', hb', h⟩ := bind_eq_ok.mp h
  have := (byte_ok hb').2
  rw [Nat.add_zero, h0] at this
  cases this
  split at h
  · rename_i hc
    have hc : (b &&& 0x0F).toNat = 15 := hc
    rw [byte_and0f] at hc
    have his : b.toNat = tag * 16 + 15 := by omega
    obtain ⟨rest, hr, h⟩ := bind_eq_ok.mp h
    obtain ⟨⟨k, n⟩, hk, h⟩ := bind_eq_ok.mp h
    dsimp only at h
    have hrest := slice_between hr
    have hlt := Varint.read_lt hk
    rcases read_sound (F := F) (scope := scope) hk with ⟨rfl, hno⟩ | ⟨hk0, hsz⟩
    · rw [if_pos rfl] at h
      cases h
      rw [hrest] at hno
      exact .none h0 his hno
    · rw [if_neg hk0] at h
      obtain ⟨e, he, h⟩ := bind_eq_ok.mp h
      obtain ⟨h1, h2, h3, h4, h5⟩ := slice_ok h
      have hee : e = 1 + k + n := by
        unfold usizeAdd at he
        split at he
        · cases he; rfl
        · split at he
          · cases he
          · cases he; omega
      have hn : s.length = n := by omega
      have hh := slice_here h
      subst hn
      rw [hrest] at hsz
      exact .long h0 his hsz (by rw [Nat.add_assoc]; exact hh) (by omega)
  · rename_i hc
    have hc : ¬ (b &&& 0x0F).toNat = 15 := hc
    have h1 := slice_ok h
    rw [byte_and0f] at hc h1
    exact .short h0 (by omega) (by omega) (slice_here h) (by omega)

/-- The first bytes of the types. -/
def Tag (b : UInt8) : ValueType → Prop
  | .null => b = 0x30 ∨ b.toNat / 16 = 3 ∧ b.toNat % 4 ≠ 0
  | .undefined => b = 0x3C
  | .false => b = 0x34
  | .true => b = 0x38
  | .short => b.toNat < 16
  | .int => 16 ≤ b.toNat ∧ b.toNat < 24
  | .unsignedInt => 24 ≤ b.toNat ∧ b.toNat < 32
  | .float => b.toNat / 8 = 4
  | .double32 => b.toNat / 8 = 4
  | .double64 => b.toNat / 8 = 5
  | .string => b.toNat / 16 = 4
  | .data => b.toNat / 16 = 5
  | .array => b.toNat / 16 = 6
  | .dict => b.toNat / 16 = 7
  | .pointer => 128 ≤ b.toNat

instance (b : UInt8) (t : ValueType) : Decidable (Tag b t) := by
  cases t <;> (unfold Tag; infer_instance)

theorem fromByte_sound (b : UInt8) : Tag b (ValueType.fromByte b) := by
  revert b; exact forall_byte (by decide +kernel)

theorem toInt_sound {b : UInt8} {z : Int} (hin : v.In m) (hl : 2 ≤ v.len) (h0 : m.data[v.pos]? = some b) (ht : b.toNat < 32)
    (h : v.toInt m F = .ok z) : ∃ z', Stores m.data v.pos z' := by
  unfold Val.In at hin
  obtain ⟨b1, h1⟩ : ∃ b1, m.data[v.pos + 1]? = some b1 := ⟨_, List.getElem?_eq_getElem (by omega)⟩
  by_cases hs : b.toNat < 16
  · exact ⟨_, .short h0 hs h1⟩
  · have hty := type0 hin hl h0
    have htab : ∀ b : UInt8, ¬ b.toNat < 16 → b.toNat < 32 →
        (ValueType.fromByte b = .int ∧ b = UInt8.ofNat (16 + b.toNat % 8)) ∨
        (ValueType.fromByte b = .unsignedInt ∧ b = UInt8.ofNat (24 + b.toNat % 8)) :=
      forall_byte (by decide +kernel)
    have hraw : ∃ bs, rawRead m (v.pos + 1) (b.toNat % 8 + 1) = .ok bs := by
      unfold Val.toInt at h
      rw [hty] at h
      rcases htab b hs ht with ⟨h1, _⟩ | ⟨h1, _⟩ <;>
      · rw [h1] at h
        simp only [ok_bind, byte0 hin hl h0, byte_and07] at h
        obtain ⟨bs, hbs, _⟩ := bind_eq_ok.mp h
        exact ⟨bs, hbs⟩
    obtain ⟨bs, hbs⟩ := hraw
    have hlen := rawRead_length hbs
    obtain ⟨_, hbs⟩ := rawRead_ok hbs
    have hpre : bs <+: m.data.drop (v.pos + 1) := by rw [hbs]; exact List.take_prefix _ _
    rcases htab b hs ht with ⟨_, h1⟩ | ⟨_, h1⟩
    · exact ⟨_, .int (c := b.toNat % 8) (by omega) (by rw [← h1]; exact h0) hlen hpre⟩
    · exact ⟨_, .unsigned (c := b.toNat % 8) (by omega) (by rw [← h1]; exact h0) hlen hpre⟩

/-- A traversal of a value that is not a collection. -/
theorem scalar_sound {fuel : Nat} {ty : ValueType} {t : Tree} (hin : v.In m) (hl : 2 ≤ v.len) (ht : v.type m = .ok ty)
    (na : ty ≠ .array) (nd : ty ≠ .dict) (h : readTree m F scope (fuel + 1) v = .ok t) :
    Scalar (code m F scope) m.data v.pos (v.pos + v.len) t := by
  obtain ⟨b, hb, hty⟩ := type_ok_iff.mp ht
  have h0 := (byte_ok hb).2
  rw [Nat.add_zero] at h0
  have hf := fromByte_sound b
  rw [hty] at hf
  unfold readTree at h
  simp only [ht, ok_bind] at h
  cases ty
  case array => exact absurd rfl na
  case dict => exact absurd rfl nd
  case pointer => cases h
  case null =>
    cases h
    rcases hf with rfl | ⟨h1, h2⟩
    · exact .null h0
    · exact .constant trivial h0 h1 h2
  case undefined => cases h; rw [show b = 0x3C from hf] at h0; exact .undefined h0
  case false => cases h; rw [show b = 0x34 from hf] at h0; exact .false h0
  case true => cases h; rw [show b = 0x38 from hf] at h0; exact .true h0
  case short =>
    obtain ⟨z, hz, h⟩ := bind_eq_ok.mp h
    cases h
    have hf : b.toNat < 16 := hf
    obtain ⟨z', hs⟩ := toInt_sound hin hl h0 (by omega) hz
    rcases stores_toInt F hin hl hs with ⟨_, h1, _, _, _, _, h2, _⟩ | ⟨_, _, h1, _⟩ | ⟨h1, _⟩
    · rw [h1] at hz; cases hz
      exact .int hs fun hn => absurd hn h2
    · rw [h1] at ht; cases ht
    · rw [h1] at ht; cases ht
  case int =>
    obtain ⟨z, hz, h⟩ := bind_eq_ok.mp h
    cases h
    have hf : 16 ≤ b.toNat ∧ b.toNat < 24 := hf
    obtain ⟨z', hs⟩ := toInt_sound hin hl h0 (by omega) hz
    rcases stores_toInt F hin hl hs with ⟨h1, _⟩ | ⟨c, hc, h1, _, h3, h4, h5, h6⟩ | ⟨h1, _⟩
    · rw [h1] at ht; cases ht
    · rw [h6] at hz
      by_cases hneg : c < 7 ∧ z' < 0
      · rw [if_pos hneg] at hz
        cases hz
        have hn := h3.mpr hneg.1
        have hn' := hn
        obtain ⟨b', hb', hb2⟩ := hn'
        rw [h0] at hb'; cases hb'
        have hp : z' + 2 ^ (8 * (c + 1)) = z' + 256 ^ (b.toNat - 15) := by
          cases hs with
          | short g0 tag _ => rw [h0] at g0; cases g0; omega
          | unsigned hc' g0 _ _ =>
            rw [h0] at g0; cases g0
            rw [UInt8.toNat_ofNat'] at hf; omega
          | @int c' bs hc' g0 len pre =>
            rw [h0] at g0; cases g0
            obtain ⟨ft, _, hcount, _⟩ := fromByte_int c' hc'
            have hi := word_toInt F hin hl h0 (Or.inl ft) hcount len pre
            rw [UInt8.toNat_ofNat'] at hb2 ⊢
            rw [h6, if_pos hneg, bmod_small (by have := leNat_small (bs := bs) (by omega); omega)] at hi
            have hi := Res.ok.inj hi
            have h2 := hneg.2
            rw [hi, littleEndian_eq]
            rw [littleEndian_eq] at h2
            unfold twos at h2 ⊢
            split at h2
            · omega
            · rename_i hge
              rw [if_neg hge]
              rw [show (16 + c') % 2 ^ 8 - 15 = c' + 1 by omega, Int.pow_mul]
              have : (2 : Int) ^ 8 = 256 := rfl
              rw [this]; omega
        rw [hp]
        exact .negative trivial hs h0 hn hneg.2
      · rw [if_neg hneg] at hz
        cases hz
        exact .int hs fun hn => by
          have := h3.mp hn
          omega
    · rw [h1] at ht; cases ht
  case unsignedInt =>
    obtain ⟨z, hz, h⟩ := bind_eq_ok.mp h
    cases h
    unfold Val.toUnsignedInt at hz
    obtain ⟨i, hi, hz⟩ := bind_eq_ok.mp hz
    cases hz
    have hf : 24 ≤ b.toNat ∧ b.toNat < 32 := hf
    obtain ⟨z', hs⟩ := toInt_sound hin hl h0 (by omega) hi
    rcases stores_toInt F hin hl hs with ⟨h1, _⟩ | ⟨_, _, h1, _⟩ | ⟨_, _, h2, h3, h4, h5⟩
    · rw [h1] at ht; cases ht
    · rw [h1] at ht; cases ht
    · rw [h5] at hi
      have : (((i % 2 ^ 64).toNat : Nat) : Int) = z' := by
        split at hi <;> cases hi <;> omega
      rw [this]
      exact .int hs fun hn => absurd hn h2
  case float =>
    obtain ⟨d, hd, h⟩ := bind_eq_ok.mp h
    cases h
    unfold Val.toDouble at hd
    simp only [ht, ok_bind, Val.floatBits, Bool.false_eq_true, if_false] at hd
    obtain ⟨bs, hbs, hd⟩ := bind_eq_ok.mp hd
    cases hd
    have hsl := slice_ok hbs
    rw [← littleEndian_eq]
    exact .float h0 hf hsl.2.2.2.1 (slice_here hbs) (by omega)
  case double32 =>
    obtain ⟨d, hd, h⟩ := bind_eq_ok.mp h
    cases h
    unfold Val.toDouble at hd
    simp only [ht, ok_bind, Val.floatBits, Bool.false_eq_true, if_false] at hd
    obtain ⟨bs, hbs, hd⟩ := bind_eq_ok.mp hd
    cases hd
    have hsl := slice_ok hbs
    rw [← littleEndian_eq]
    exact .float h0 hf hsl.2.2.2.1 (slice_here hbs) (by omega)
  case double64 =>
    obtain ⟨d, hd, h⟩ := bind_eq_ok.mp h
    cases h
    unfold Val.toDouble at hd
    simp only [ht, ok_bind, Val.floatBits, if_true] at hd
    obtain ⟨bs, hbs, hd⟩ := bind_eq_ok.mp hd
    cases hd
    have hsl := slice_ok hbs
    rw [← littleEndian_eq]
    exact .double h0 hf hsl.2.2.2.1 (slice_here hbs) (by omega)
  case string =>
    obtain ⟨s, hs, h⟩ := bind_eq_ok.mp h
    cases h
    unfold Val.toStr at hs
    simp only [ht, ok_bind] at hs
    obtain ⟨d, hd, hs⟩ := bind_eq_ok.mp hs
    cases hs
    have hc := getData_sound (F := F) (scope := scope) hl h0 hf hd
    split
    · exact .str hc (by assumption)
    · exact .text trivial hc (by simpa using ‹¬ validUtf8 d = Bool.true›)
  case data =>
    obtain ⟨s, hs, h⟩ := bind_eq_ok.mp h
    cases h
    unfold Val.toData at hs
    simp only [ht, ok_bind] at hs
    exact .data (getData_sound hl h0 hf hs)

/-! ## Pointers -/

theorem beNat_big (bs : List UInt8) : beNat bs = Format.bigEndian bs := by
  have h : ∀ (bs : List UInt8) (a : Nat), bs.foldl (fun acc b => acc * 256 + b.toNat) a =
      littleEndian (bs.reverse ++ [UInt8.ofNat 0]) + a * 256 ^ bs.length := by
    intro bs
    induction bs with
    | nil => intro a; simp [littleEndian]
    | cons b bs ih =>
      intro a
      have hl : ∀ (l : List UInt8) (x : UInt8) (i : Nat), l.foldr (fun b acc => acc * 256 + b.toNat) i =
          l.foldr (fun b acc => acc * 256 + b.toNat) 0 + i * 256 ^ l.length := by
        intro l _ i
        induction l with
        | nil => simp
        | cons c l ih' => simp only [List.foldr_cons, List.length_cons, ih', Nat.pow_succ]; grind
      rw [List.foldl_cons, ih]
      simp only [littleEndian, List.reverse_cons, List.foldr_append, List.foldr_cons, List.foldr_nil, List.length_cons,
        Nat.pow_succ]
      rw [hl bs.reverse b (0 * 256 + _), hl bs.reverse b ((_ * 256) + _)]
      simp
      grind
  have h0 := h bs 0
  unfold beNat Format.bigEndian
  rw [h0]
  simp [littleEndian]

theorem width_eq_wof (w : Bool) : Format.width w = wof w := rfl

theorem getOffset_sound {w : Bool} {off : Nat} {b : UInt8} (h0 : m.data[v.pos]? = some b) (hb : 128 ≤ b.toNat)
    (h : v.getOffset m w = .ok off) (hpos : off ≠ 0) (hle : off ≤ v.pos) :
    2 ≤ off ∧ v.pos + Format.width w ≤ m.data.length ∧ Back (code m F scope) m.data w v.pos (v.pos - off) := by
  have key : ∃ bs, rawRead m v.pos (Format.width w) = .ok bs ∧ off = beNat bs % 2 ^ (8 * Format.width w - 2) * 2 := by
    unfold Val.getOffset at h
    cases w with
    | true => obtain ⟨bs, hbs, h⟩ := bind_eq_ok.mp h; cases h; exact ⟨bs, hbs, rfl⟩
    | false => obtain ⟨bs, hbs, h⟩ := bind_eq_ok.mp h; cases h; exact ⟨bs, hbs, rfl⟩
  obtain ⟨bs, hbs, hoff⟩ := key
  have hlen := rawRead_length hbs
  obtain ⟨hfit, hbs⟩ := rawRead_ok hbs
  have here : Format.Here m.data v.pos bs := by rw [hbs]; exact List.take_prefix _ _
  have hfirst : bs[0]? = some b := by
    rw [hbs, List.getElem?_take, if_pos (by cases w <;> simp [Format.width]), List.getElem?_drop]; exact h0
  refine ⟨by omega, hfit, ?_⟩
  have hbig : 2 ^ (8 * Format.width w - 1) ≤ beNat bs ∧ beNat bs < 2 ^ (8 * Format.width w) := by
    cases w with
    | false =>
      match bs, hlen with
      | [a, c], _ =>
        cases hfirst
        rw [beNat2]
        have := byte_lt b
        have := byte_lt c
        simp [Format.width]; omega
    | true =>
      match bs, hlen with
      | [a, c, d, e], _ =>
        cases hfirst
        rw [beNat4]
        have := byte_lt b
        have := byte_lt c
        have := byte_lt d
        have := byte_lt e
        simp [Format.width]; omega
  rw [beNat_big] at hoff hbig
  by_cases hext : Format.bigEndian bs < 3 * 2 ^ (8 * Format.width w - 2)
  · refine .inside ⟨bs, off / 2, here, hlen, ?_, ?_, by omega⟩ (by omega) <;>
    · cases w <;> simp [Format.width] at * <;> omega
  · refine .external (off := off / 2) trivial here hlen ?_ ?_ (by omega) (by omega) <;>
    · cases w <;> simp [Format.width] at * <;> omega

theorem pointer_of_type {t : ValueType} (h : v.type m = .ok t) : t = .pointer ↔ IsPointer m.data v.pos := by
  obtain ⟨b, hb, ht⟩ := type_ok_iff.mp h
  have h0 := (byte_ok hb).2
  rw [Nat.add_zero] at h0
  have htab : ∀ b : UInt8, ValueType.fromByte b = .pointer ↔ 128 ≤ b.toNat := forall_byte (by decide +kernel)
  rw [← ht, htab]
  exact ⟨fun h => ⟨b, h0, h⟩, fun ⟨b', h', hb'⟩ => by rw [h0] at h'; cases h'; exact hb'⟩

theorem deref_sound : ∀ (fuel : Nat) {w : Bool} {v x : Val}, IsPointer m.data v.pos → derefUncheckedGo m fuel w v = .ok x →
    v.pos + Format.width w ≤ m.data.length ∧ Leads (code m F scope) m.data w v.pos x.pos (x.pos + x.len) ∧ x.In m ∧ 2 ≤ x.len
  | 0, _, _, _, _, h => nomatch h
  | fuel + 1, w, v, x, hp, h => by
    obtain ⟨b, h0, hb⟩ := hp
    unfold derefUncheckedGo at h
    obtain ⟨off, hoff, h⟩ := bind_eq_ok.mp h
    split at h
    · cases h
    · split at h
      · cases h
      · rename_i hle
        obtain ⟨tg, htg, h⟩ := bind_eq_ok.mp h
        obtain ⟨rfl, hin⟩ := mkSlice_ok htg
        obtain ⟨ty, hty, h⟩ := bind_eq_ok.mp h
        have hne := type_ok_len hty
        dsimp only at hne
        obtain ⟨h2, hfit, hback⟩ := getOffset_sound (F := F) (scope := scope) h0 hb hoff (by omega) (by omega)
        have hiff := pointer_of_type hty
        refine ⟨hfit, ?_⟩
        split at h
        · rename_i hpt
          obtain ⟨_, g1, g2, g3⟩ := deref_sound fuel (hiff.mp hpt) h
          exact ⟨.more hback g1, g2, g3⟩
        · rename_i hpt
          cases h
          have : v.pos - off + off = v.pos := by omega
          refine ⟨?_, hin, h2⟩
          dsimp only
          rw [this]
          exact .one hback fun hh => hpt (hiff.mpr hh)

theorem Leads.not_pointer {r : Reader} {data : List UInt8} {w : Bool} {q p e : Nat} (h : Leads r data w q p e) :
    ¬ IsPointer data p := by
  induction h with
  | one _ no => exact no
  | more _ _ ih => exact ih

theorem Slot.not_pointer {r : Reader} {data : List UInt8} {w : Bool} {q p e : Nat} (h : Slot r data w q p e) :
    ¬ IsPointer data p := by
  cases h with
  | inline _ no => exact no
  | pointer _ hl => exact hl.not_pointer

theorem resolve_sound {w : Bool} {s x : Val} (hin : s.In m) (hl : s.len = Format.width w) (h : resolve m w s = .ok x) :
    Slot (code m F scope) m.data w s.pos x.pos (x.pos + x.len) ∧ x.In m ∧ 2 ≤ x.len := by
  unfold resolve at h
  obtain ⟨ty, hty, h⟩ := bind_eq_ok.mp h
  have hiff := pointer_of_type hty
  split at h
  · rename_i hpt
    obtain ⟨h1, h2, h3, h4⟩ := deref_sound (F := F) (scope := scope) _ (hiff.mp hpt) h
    exact ⟨.pointer h1 h2, h3, h4⟩
  · rename_i hpt
    cases h
    refine ⟨?_, hin, by rw [hl]; cases w <;> simp [Format.width]⟩
    unfold Val.In at hin
    rw [hl] at hin ⊢
    exact .inline hin fun hh => hpt (hiff.mpr hh)

/-! ## Headers -/

theorem header_sound {ty : ValueType} {d : Bool} {n : Nat} (hin : v.In m) (hl : 2 ≤ v.len) (ht : v.type m = .ok ty)
    (hd : ty = if d then .dict else .array) (h : v.arrayLen m = .ok n) :
    ∃ w c size, Header (code m F scope) m.data (if d then 7 else 6) v.pos (v.pos + v.len) w c size ∧
      (if d then ∃ p, Pairs (code m F scope) c p ∧ n = p * 2 else n = c) ∧ v.isWide m = .ok w ∧
      (n ≠ 0 → v.firstPos m = .ok size) := by
  obtain ⟨b0, b1, h0, h1, hb, hs⟩ := getShort_bytes hin hl
  have hf := fromByte_sound b0
  have hty : ValueType.fromByte b0 = ty := by rw [type0 hin hl h0] at ht; cases ht; rfl
  have hkind : b0.toNat / 16 = if d then 7 else 6 := by rw [hty, hd] at hf; cases d <;> exact hf
  have hcf := count_field b0 b1
  have hw : v.isWide m = .ok (decide (b0 &&& 0x08 ≠ 0)) := by unfold Val.isWide; rw [hb]; rfl
  have hbit : ∀ b : UInt8, b.toNat = b.toNat / 16 * 16 + (if decide (b &&& 0x08 ≠ 0) = true then 8 else 0) + b.toNat % 8 :=
    forall_byte (by decide +kernel)
  have hb0 := hbit b0
  rw [hkind] at hb0
  have hcount : ∀ c : Nat, c < 2 ^ 64 → (if ty = .dict then usizeMul (ε := DecodeError) m.dbg c 2 else pure c) = .ok n →
      if d then ∃ p, Pairs (code m F scope) c p ∧ n = p * 2 else n = c := by
    intro c hc h
    cases d with
    | false => rw [hd, if_neg (by decide)] at h; cases h; rfl
    | true =>
      rw [hd, if_pos (by rfl)] at h
      simp only [if_true]
      unfold usizeMul at h
      split at h
      · cases h; exact ⟨c, .plain (by omega), rfl⟩
      · split at h
        · cases h
        · rename_i hdbg
          cases h
          exact ⟨c - 2 ^ 63, .large trivial (by simpa [code] using hdbg) (by omega), by omega⟩
  unfold Val.arrayLen at h
  simp only [hs, ok_bind, hcf, ht] at h
  split at h
  · rename_i hc
    have := byte_lt b1
    have hb1 : b1 = 255 := by apply UInt8.toNat_inj.mp; show b1.toNat = 255; omega
    have h7 : b0.toNat % 8 = 7 := by omega
    rw [hb1] at h1
    rw [h7] at hb0
    obtain ⟨rest, hr, h⟩ := bind_eq_ok.mp h
    obtain ⟨⟨k, c⟩, hk, h⟩ := bind_eq_ok.mp h
    dsimp only at h
    have hrest := slice_between hr
    have hlt := Varint.read_lt hk
    have hfp : v.firstPos m = .ok (2 + k + k % 2) := by
      unfold Val.firstPos
      rw [if_neg (by omega)]
      simp only [pure_eq, hs, ok_bind, hcf, hc, if_true, hr, hk]
      split
      · exact congrArg Res.ok (by omega)
      · exact congrArg Res.ok (by omega)
    rcases read_sound (F := F) (scope := scope) hk with ⟨rfl, hno⟩ | ⟨hk0, hsz⟩
    · rw [if_pos rfl] at h
      cases h
      rw [hrest] at hno
      refine ⟨_, 0, 2, .none h0 h1 hb0 hno, ?_, hw, fun hne => absurd rfl hne⟩
      cases d with
      | false => rfl
      | true => exact ⟨0, .plain (by decide), rfl⟩
    · rw [if_neg hk0] at h
      rw [hrest] at hsz
      exact ⟨_, c, _, .long h0 h1 hb0 hsz, hcount c hlt h, hw, fun _ => hfp⟩
  · rename_i hc
    have := byte_lt b1
    refine ⟨_, _, 2, .short h0 h1 hb0 (by omega) (by omega), hcount _ (by omega) h, hw, fun _ => ?_⟩
    unfold Val.firstPos
    rw [if_neg (by omega)]
    simp only [pure_eq, hs, ok_bind, hcf, if_neg hc]

/-! ## Iteration -/

theorem step_sound {first n i : Nat} {w : Bool} {x : Option Val} {it : Iter}
    (h : (iterAt first (wof w) n i).step m = .ok (x, it)) :
    (¬ i < n ∧ x = none) ∨ (i < n ∧ ∃ e, x = some e ∧ resolve m w (slotAt first (wof w) i) = .ok e ∧
      it = iterAt first (wof w) n (i + 1) ∧ (i + 1 < n → (slotAt first (wof w) (i + 1)).In m)) := by
  by_cases hi : i < n
  · refine .inr ⟨hi, ?_⟩
    unfold Iter.step iterAt at h
    simp only [if_pos hi] at h
    rw [if_neg (by simp; omega)] at h
    obtain ⟨t, ht, h⟩ := bind_eq_ok.mp h
    rw [wof_eq4] at h
    have hres : ∀ e, (if t = .pointer then derefUnchecked m w (slotAt first (wof w) i) else pure (slotAt first (wof w) i)) = .ok e →
        resolve m w (slotAt first (wof w) i) = .ok e := by
      intro e he
      unfold resolve
      rw [ht]; exact he
    have h' : (if t = .pointer then derefUnchecked m w (slotAt first (wof w) i) else pure (slotAt first (wof w) i)) >>= (fun resolved =>
        if i + 1 < n then (do
          let nx ← mkSlice m ((slotAt first (wof w) i).pos + wof w) (wof w)
          pure (some resolved, ({ next := some nx, width := wof w, index := i + 1, len := n } : Iter)))
        else pure (some resolved, { next := none, width := wof w, index := i + 1, len := n })) = .ok (x, it) := by
      rw [ite_bind']; exact h
    obtain ⟨e, he, h'⟩ := bind_eq_ok.mp h'
    refine ⟨e, ?_⟩
    split at h'
    · rename_i hi'
      obtain ⟨nx, hnx, h'⟩ := bind_eq_ok.mp h'
      obtain ⟨rfl, hin⟩ := mkSlice_ok hnx
      cases h'
      have hpos : (slotAt first (wof w) i).pos + wof w = (slotAt first (wof w) (i + 1)).pos := by
        simp only [slotAt, Nat.add_mul]; omega
      rw [hpos] at hin ⊢
      refine ⟨rfl, hres e he, ?_, fun _ => hin⟩
      simp only [iterAt, if_pos hi']; rfl
    · rename_i hi'
      cases h'
      refine ⟨rfl, hres e he, ?_, fun h => absurd h hi'⟩
      simp only [iterAt, if_neg hi']
  · rw [iterAt_step_end hi] at h
    cases h
    exact .inl ⟨hi, rfl⟩

theorem collect_sound {α : Type} {f : Val → R α} {first n : Nat} {w : Bool} : ∀ (fuel : Nat) {i : Nat} {xs : List α},
    (i < n → (slotAt first (wof w) i).In m) → collect m f fuel (iterAt first (wof w) n i) = .ok xs →
    xs.length = n - i ∧ ∀ j x, xs[j]? = some x → ∃ e, (slotAt first (wof w) (i + j)).In m ∧
      resolve m w (slotAt first (wof w) (i + j)) = .ok e ∧ f e = .ok x
  | 0, _, _, _, h => nomatch h
  | fuel + 1, i, xs, hin, h => by
    unfold collect at h
    obtain ⟨⟨x, it⟩, hs, h⟩ := bind_eq_ok.mp h
    rcases step_sound hs with ⟨hi, rfl⟩ | ⟨hi, e, rfl, he, rfl, hnext⟩
    · cases h
      exact ⟨by simp; omega, fun j x hx => by simp at hx⟩
    · dsimp only at h
      obtain ⟨a, ha, h⟩ := bind_eq_ok.mp h
      obtain ⟨rest, hr, h⟩ := bind_eq_ok.mp h
      cases h
      obtain ⟨h1, h2⟩ := collect_sound fuel hnext hr
      refine ⟨by simp only [List.length_cons]; omega, fun j x hx => ?_⟩
      cases j with
      | zero => cases hx; exact ⟨e, hin hi, he, ha⟩
      | succ j =>
        obtain ⟨e', g⟩ := h2 j x hx
        rw [show i + (j + 1) = i + 1 + j by omega]
        exact ⟨e', g⟩

/-- The text of a key, as the dict iterator finds it. -/
def keyOf (m : Mem) (scope : Option SharedKeys) (ty : ValueType) (k : Val) : R (Option (List UInt8)) :=
  if ty = .short then
    match scope with
    | some sk => do
      let n ← k.getShort m
      pure (sk.decode n)
    | none => pure none
  else do
    let s ← k.toStr m
    pure (some s)

theorem dictStep_split {it it1 it' : Iter} {k : Val} {ty : ValueType} {x : Option (List UInt8 × Val)}
    (hs : it.step m = .ok (some k, it1)) (hty : k.type m = .ok ty) (h : it.dictStep m scope = .ok (x, it')) :
    ∃ key, keyOf m scope ty k = .ok key ∧ match key with
      | none => x = none
      | some key => ∃ y it2, it1.step m = .ok (y, it2) ∧ match y with
        | none => x = none
        | some y => x = some (key, y) ∧ it' = it2 := by
  have fin : ∀ key : Option (List UInt8), (match key with
        | none => (pure (none, it1) : R (Option (List UInt8 × Val) × Iter))
        | some key => do
          let (x, it2) ← it1.step m
          match x with
          | none => pure (none, it2)
          | some x => pure (some (key, x), it2)) = .ok (x, it') → match key with
      | none => x = none
      | some key => ∃ y it2, it1.step m = .ok (y, it2) ∧ match y with
        | none => x = none
        | some y => x = some (key, y) ∧ it' = it2 := by
    intro key h
    cases key with
    | none => cases h; rfl
    | some key =>
      obtain ⟨⟨y, it2⟩, hy, h⟩ := bind_eq_ok.mp h
      refine ⟨y, it2, hy, ?_⟩
      cases y with
      | none => cases h; rfl
      | some y => cases h; exact ⟨rfl, rfl⟩
  unfold Iter.dictStep at h
  simp only [hs, ok_bind, hty] at h
  unfold keyOf
  split at h
  · rename_i hsh
    rw [if_pos hsh]
    cases scope with
    | none => exact ⟨none, rfl, fin none h⟩
    | some sk =>
      obtain ⟨n, hn, h⟩ := bind_eq_ok.mp h
      exact ⟨sk.decode n, by simp only [hn, ok_bind, pure_eq], fin _ h⟩
  · rename_i hsh
    rw [if_neg hsh]
    obtain ⟨n, hn, h⟩ := bind_eq_ok.mp h
    exact ⟨some n, by simp only [hn, ok_bind, pure_eq], fin (some n) h⟩

/-- One step of a dict iterator. -/
theorem dictStep_sound {first n i : Nat} {w : Bool} {x : Option (List UInt8 × Val)} {it : Iter}
    (hin : 2 * i < 2 * n → (slotAt first (wof w) (2 * i)).In m)
    (h : (iterAt first (wof w) (2 * n) (2 * i)).dictStep m scope = .ok (x, it)) :
    (¬ i < n ∧ x = none) ∨
    (i < n ∧ x = none ∧ Nameless (code m F scope) m.data w (first + 2 * i * Format.width w)) ∨
    (i < n ∧ ∃ s e, x = some (s, e) ∧ KeySlot (code m F scope) m.data w (first + 2 * i * Format.width w) s ∧
      (slotAt first (wof w) (2 * i + 1)).In m ∧ resolve m w (slotAt first (wof w) (2 * i + 1)) = .ok e ∧
      it = iterAt first (wof w) (2 * n) (2 * (i + 1)) ∧
      (2 * (i + 1) < 2 * n → (slotAt first (wof w) (2 * (i + 1))).In m)) := by
  have h' := h
  unfold Iter.dictStep at h'
  obtain ⟨⟨k, it1⟩, hs, h'⟩ := bind_eq_ok.mp h'
  rcases step_sound hs with ⟨hi, rfl⟩ | ⟨hi, k, rfl, hk, rfl, hnext⟩
  · cases h'; exact .inl ⟨by omega, rfl⟩
  · refine .inr ?_
    have hvin := hnext (by omega)
    obtain ⟨hslot, hkin, hkl⟩ := resolve_sound (F := F) (scope := scope) (hin hi) rfl hk
    obtain ⟨ty, hty⟩ := type_eq hkin (show 0 < k.len by omega)
    obtain ⟨b, hb, hbt⟩ := type_ok_iff.mp hty
    have h0 := (byte_ok hb).2
    rw [Nat.add_zero] at h0
    have hf := fromByte_sound b
    rw [hbt] at hf
    obtain ⟨key, hkey, h⟩ := dictStep_split hs hty h
    unfold keyOf at hkey
    have hname : (key = none ∧ Nameless (code m F scope) m.data w (first + 2 * i * Format.width w)) ∨
        ∃ s, key = some s ∧ Named (code m F scope) m.data k.pos (k.pos + k.len) s := by
      by_cases hsh : ty = .short
      · subst hsh
        rw [if_pos rfl] at hkey
        have hf : b.toNat < 16 := hf
        obtain ⟨c0, b1, g0, g1, _, gs⟩ := getShort_bytes hkin hkl
        rw [h0] at g0; cases g0
        rw [byte_and0f, Nat.mod_eq_of_lt hf] at gs
        have hcode : Code m.data k.pos (b.toNat * 256 + b1.toNat) := ⟨b, b1, h0, hf, g1, rfl⟩
        have hroom : first + 2 * i * Format.width w + Format.width w + Format.width w ≤ m.data.length := by
          unfold Val.In slotAt at hvin
          simp only [Nat.add_mul, Nat.one_mul, width_eq_wof] at hvin ⊢
          omega
        have nameless : (∀ s, ¬ Text (code m F scope) (b.toNat * 256 + b1.toNat) s) →
            Nameless (code m F scope) m.data w (first + 2 * i * Format.width w) := fun hno =>
          .mk trivial hslot hcode hno hroom
        cases hsc : scope with
        | none =>
          subst hsc
          cases hkey
          exact .inl ⟨rfl, nameless fun s ⟨sk, c, h1, _⟩ => by cases h1⟩
        | some sk =>
          subst hsc
          simp only [gs, ok_bind, pure_eq, SharedKeys.decode] at hkey
          cases hkey
          cases hent : sk.entries[b.toNat * 256 + b1.toNat]? with
          | none =>
            refine .inl ⟨rfl, nameless fun s ⟨sk', c, h1, h2⟩ => ?_⟩
            cases h1
            rw [hent] at h2; cases h2
          | some en => exact .inr ⟨en.1, rfl, .code hcode ⟨sk, en.2, rfl, hent⟩⟩
      · rw [if_neg hsh] at hkey
        obtain ⟨s, hstr, hkey⟩ := bind_eq_ok.mp hkey
        cases hkey
        refine .inr ⟨s, rfl, ?_⟩
        by_cases hst : ty = .string
        · subst hst
          exact .str (scalar_sound (fuel := 0) hkin hkl hty (by decide) (by decide) (by
            unfold readTree; simp only [hty, ok_bind, hstr]; rfl))
        · have : s = [] := by
            unfold Val.toStr at hstr
            rw [hty] at hstr
            cases ty <;> simp_all
          subst this
          have hnp : ty ≠ .pointer := by
            intro hp
            exact hslot.not_pointer ((pointer_of_type hty).mp hp)
          refine .other trivial h0 ?_
          cases ty <;> simp only [Tag] at hf <;> first
            | exact absurd rfl hsh
            | exact absurd rfl hst
            | exact absurd rfl hnp
            | (rcases hf with rfl | hf
               · decide
               · omega)
            | (subst hf; decide)
            | omega
    rcases hname with ⟨rfl, hno⟩ | ⟨s, rfl, hnm⟩
    · exact .inl ⟨by omega, h, hno⟩
    · refine .inr ⟨by omega, ?_⟩
      obtain ⟨y, it2, hs2, h⟩ := h
      rcases step_sound hs2 with ⟨hi2, _⟩ | ⟨_, y, rfl, hy, rfl, hnext2⟩
      · omega
      · obtain ⟨rfl, rfl⟩ := h
        exact ⟨s, y, rfl, .mk hslot hnm, hvin, hy, rfl, hnext2⟩

theorem collectDict_sound {α : Type} {f : Val → R α} {first n : Nat} {w : Bool} :
    ∀ (fuel : Nat) {i : Nat} {xs : List (List UInt8 × α)}, (2 * i < 2 * n → (slotAt first (wof w) (2 * i)).In m) → i ≤ n →
    collectDict m scope f fuel (iterAt first (wof w) (2 * n) (2 * i)) = .ok xs →
    i + xs.length ≤ n ∧
    (i + xs.length < n → Nameless (code m F scope) m.data w (first + 2 * (i + xs.length) * Format.width w)) ∧
    ∀ j s x, xs[j]? = some (s, x) → KeySlot (code m F scope) m.data w (first + 2 * (i + j) * Format.width w) s ∧
      ∃ e, (slotAt first (wof w) (2 * (i + j) + 1)).In m ∧
        resolve m w (slotAt first (wof w) (2 * (i + j) + 1)) = .ok e ∧ f e = .ok x
  | 0, _, _, _, _, h => nomatch h
  | fuel + 1, i, xs, hin, hle, h => by
    unfold collectDict at h
    obtain ⟨⟨x, it⟩, hs, h⟩ := bind_eq_ok.mp h
    rcases dictStep_sound (F := F) hin hs with ⟨hi, rfl⟩ | ⟨hi, rfl, hno⟩ | ⟨hi, s, e, rfl, hk, hv, he, rfl, hnext⟩
    · cases h
      exact ⟨by simp; omega, fun h => by simp at h; omega, fun j s x hx => by simp at hx⟩
    · cases h
      exact ⟨by simp; omega, fun _ => by simpa using hno, fun j s x hx => by simp at hx⟩
    · dsimp only at h
      obtain ⟨a, ha, h⟩ := bind_eq_ok.mp h
      obtain ⟨rest, hr, h⟩ := bind_eq_ok.mp h
      cases h
      obtain ⟨h1, h2, h3⟩ := collectDict_sound fuel hnext (by omega) hr
      refine ⟨by simp only [List.length_cons]; omega, fun hlt => ?_, fun j s' x hx => ?_⟩
      · simp only [List.length_cons] at hlt ⊢
        rw [show i + (rest.length + 1) = i + 1 + rest.length by omega] at hlt ⊢
        exact h2 hlt
      · cases j with
        | zero => cases hx; exact ⟨hk, e, hv, he, ha⟩
        | succ j =>
          rw [show i + (j + 1) = i + 1 + j by omega]
          exact h3 j s' x hx

theorem iter_sound {it : Iter} {w : Bool} {n size : Nat} (hw : v.isWide m = .ok w) (hn : v.arrayLen m = .ok n)
    (hf : n ≠ 0 → v.firstPos m = .ok size) (h : v.iter m = .ok it) :
    it = iterAt (v.pos + size) (wof w) n 0 ∧ (0 < n → (slotAt (v.pos + size) (wof w) 0).In m) := by
  unfold Val.iter Val.iterFirst at h
  simp only [hn, width_eq hw, ok_bind] at h
  by_cases hz : n = 0
  · subst hz
    simp only [if_true, pure_eq, ok_bind] at h
    cases h
    exact ⟨by simp [iterAt], fun h => by omega⟩
  · rw [if_neg hz] at h
    simp only [hf hz, ok_bind] at h
    obtain ⟨nx, hnx, h⟩ := bind_eq_ok.mp h
    obtain ⟨s, hs, hnx⟩ := bind_eq_ok.mp hnx
    obtain ⟨rfl, hin⟩ := mkSlice_ok hs
    cases hnx
    cases h
    refine ⟨?_, fun _ => by simpa [slotAt] using hin⟩
    simp [iterAt, slotAt, Nat.pos_of_ne_zero hz]

/-- **What a traversal reads is what the bytes say.** -/
theorem read_value : ∀ (fuel : Nat) {v : Val} {t : Tree}, v.In m → 2 ≤ v.len → readTree m F scope fuel v = .ok t →
    Value (code m F scope) m.data none v.pos (v.pos + v.len) t
  | 0, _, _, _, _, h => nomatch h
  | fuel + 1, v, t, hin, hl, h => by
    obtain ⟨ty, ht⟩ := type_eq hin (show 0 < v.len by omega)
    have each : ∀ {w : Bool} {first i : Nat} {e : Val} {x : Tree}, (slotAt first (wof w) i).In m →
        resolve m w (slotAt first (wof w) i) = .ok e → readTree m F scope fuel e = .ok x →
        Value (code m F scope) m.data (some w) (first + i * Format.width w) (first + i * Format.width w + Format.width w) x := by
      intro w first i e x hsin hres hx
      obtain ⟨g1, g2, g3⟩ := resolve_sound (F := F) (scope := scope) hsin rfl hres
      exact .slot g1 (read_value fuel g2 g3 hx)
    by_cases ha : ty = .array
    · subst ha
      unfold readTree at h
      simp only [ht, ok_bind] at h
      obtain ⟨it, hi, h⟩ := bind_eq_ok.mp h
      obtain ⟨xs, hc, h⟩ := bind_eq_ok.mp h
      cases h
      have hlen : ∃ n, v.arrayLen m = .ok n := by
        unfold Val.iter Val.iterFirst at hi
        obtain ⟨_, hi, _⟩ := bind_eq_ok.mp hi
        obtain ⟨n, hn, _⟩ := bind_eq_ok.mp hi
        exact ⟨n, hn⟩
      obtain ⟨n, hn⟩ := hlen
      obtain ⟨w, c, size, hh, hcn, hw, hfp⟩ := header_sound (F := F) (scope := scope) (d := false) hin hl ht rfl hn
      have hcn : n = c := hcn
      subst hcn
      obtain ⟨rfl, hfirst⟩ := iter_sound hw hn hfp hi
      obtain ⟨g1, g2⟩ := collect_sound _ hfirst hc
      have g1 : xs.length = n := g1
      subst g1
      refine .arr (by omega) hin hh fun i t hx => ?_
      obtain ⟨e, g3, g4, g5⟩ := g2 i t hx
      rw [Nat.zero_add] at g3 g4
      exact each g3 g4 g5
    · by_cases hd : ty = .dict
      · subst hd
        unfold readTree at h
        simp only [ht, ok_bind, Val.dictIter] at h
        obtain ⟨it, hi, h⟩ := bind_eq_ok.mp h
        obtain ⟨xs, hc, h⟩ := bind_eq_ok.mp h
        cases h
        have hlen : ∃ n, v.arrayLen m = .ok n := by
          unfold Val.iter Val.iterFirst at hi
          obtain ⟨_, hi, _⟩ := bind_eq_ok.mp hi
          obtain ⟨n, hn, _⟩ := bind_eq_ok.mp hi
          exact ⟨n, hn⟩
        obtain ⟨n, hn⟩ := hlen
        obtain ⟨w, c, size, hh, ⟨p, hp, rfl⟩, hw, hfp⟩ :=
          header_sound (F := F) (scope := scope) (d := true) hin hl ht rfl hn
        obtain ⟨rfl, hfirst⟩ := iter_sound hw hn hfp hi
        rw [Nat.mul_comm p 2] at hc hfirst
        obtain ⟨g1, g2, g3⟩ := collectDict_sound (F := F) (i := 0) _ hfirst (by omega) hc
        simp only [Nat.zero_add] at g1 g2 g3
        refine .dict (by omega) hin hh hp g1 (fun i s t hx => (g3 i s t hx).1) (fun i s t hx => ?_) g2
        obtain ⟨_, e, g4, g5, g6⟩ := g3 i s t hx
        exact each g4 g5 g6
      · exact .scalar (by omega) hin (scalar_sound hin hl ht ha hd h)

end
end Liberal
end Fleece
