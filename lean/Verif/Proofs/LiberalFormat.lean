import Verif.Proofs.LiberalRead

/-! # Documents of the format are read without oddities -/

namespace Fleece.Liberal
open Spec Res

theorem leb_groups (n : Nat) : Groups (leb128 n) n := by
  induction n using Nat.strongRecOn with
  | ind n ih =>
    unfold leb128
    split
    · rename_i h
      have := Groups.last (b := UInt8.ofNat n) (by rw [UInt8.toNat_ofNat_of_lt' (by simp [UInt8.size]; omega)]; exact h)
      rwa [UInt8.toNat_ofNat_of_lt' (by simp [UInt8.size]; omega)] at this
    · rename_i h
      have hb : (UInt8.ofNat (128 + n % 128)).toNat = 128 + n % 128 := UInt8.toNat_ofNat_of_lt' (by simp [UInt8.size]; omega)
      have := Groups.more (b := UInt8.ofNat (128 + n % 128)) (by omega) (ih (n / 128) (by omega))
      rwa [hb, show 128 + n % 128 - 128 + 128 * (n / 128) = n by omega] at this

theorem leb_length (k : Nat) : ∀ n, n < 128 ^ (k + 1) → (leb128 n).length ≤ k + 1 := by
  induction k with
  | zero => intro n h; unfold leb128; rw [dif_pos (by omega)]; simp
  | succ k ih =>
    intro n h
    unfold leb128
    split
    · simp
    · have := ih (n / 128) (by rw [Nat.pow_succ] at h; omega)
      simp only [List.length_cons]; omega

section
variable {data bs : List UInt8} {r : Reader} {R : Format.Reading}

theorem here_get {p i : Nat} {b : UInt8} (h : Format.Here data p bs) (hb : bs[i]? = some b) : data[p + i]? = some b := by
  obtain ⟨t, ht⟩ := h
  rw [← List.getElem?_drop, ← ht, List.getElem?_append_left (List.getElem?_eq_some_iff.mp hb).1]
  exact hb

theorem here_drop {p : Nat} {as bs : List UInt8} (h : Format.Here data p (as ++ bs)) : Format.Here data (p + as.length) bs := by
  obtain ⟨t, ht⟩ := h
  refine ⟨t, ?_⟩
  rw [← List.drop_drop, ← ht, List.append_assoc, List.drop_left]

theorem here_init {p : Nat} {as bs : List UInt8} (h : Format.Here data p (as ++ bs)) : Format.Here data p as :=
  (List.prefix_append as bs).trans h

theorem here_between {p e : Nat} (h : Format.Here data p bs) (he : p + bs.length ≤ e) : bs <+: between data p e := by
  unfold between
  exact List.prefix_take_iff.mpr ⟨h, by omega⟩

theorem stores_here {p : Nat} {z : Int} (h : Format.Here data p bs) (hs : Stores bs 0 z) : Stores data p z := by
  have hdrop : bs.drop 1 <+: data.drop (p + 1) := by
    cases bs with
    | nil => exact List.nil_prefix
    | cons b tl => exact here_drop (as := [b]) h
  cases hs with
  | short h0 tag h1 => exact .short (here_get h h0) tag (here_get h h1)
  | int hc h0 len h1 => exact .int hc (here_get h h0) len (h1.trans hdrop)
  | unsigned hc h0 len h1 => exact .unsigned hc (here_get h h0) len (h1.trans hdrop)

theorem counted_format {tag p e : Nat} {s : List UInt8} (h : Format.Counted tag s bs) (here : Format.Here data p bs)
    (he : p + bs.length ≤ e) : Counted r data tag p e s := by
  cases h with
  | @short b pad len is =>
    simp only [List.length_cons, List.length_append] at he
    exact .short (here_get (i := 0) here rfl) len is (here_init (here_drop (as := [b]) here)) (by omega)
  | @long b pad len is =>
    simp only [List.length_cons, List.length_append] at he
    rw [List.append_assoc] at here
    have h1 := here_drop (as := [b]) here
    simp only [List.length_singleton] at h1
    refine .long (here_get (i := 0) here rfl) is
      (.plain (leb_groups _) (here_between (here_init h1) (by omega)) (leb_length 9 _ (by omega)) (by omega))
      (here_init (here_drop h1)) (by omega)

theorem scalar_format {p e : Nat} {t : Tree} (hF : r.F = R.F) (hneg : ¬ R.neg) (h : Format.Scalar R.F R.neg bs t)
    (here : Format.Here data p bs) (he : p + bs.length ≤ e) :
    p + 2 ≤ e ∧ ¬ IsPointer data p ∧ Scalar r data p e t := by
  have first : ∀ {b : UInt8}, bs[0]? = some b → b.toNat < 128 → ¬ IsPointer data p := by
    intro b hb hlt ⟨b', hb', hge⟩
    have := here_get here hb
    rw [Nat.add_zero, hb'] at this
    cases this; omega
  cases h with
  | null => simp only [List.length_cons] at he; exact ⟨by omega, first rfl (by decide), .null (here_get (i := 0) here rfl)⟩
  | «false» => simp only [List.length_cons] at he; exact ⟨by omega, first rfl (by decide), .false (here_get (i := 0) here rfl)⟩
  | «true» => simp only [List.length_cons] at he; exact ⟨by omega, first rfl (by decide), .true (here_get (i := 0) here rfl)⟩
  | undefined =>
    simp only [List.length_cons] at he; exact ⟨by omega, first rfl (by decide), .undefined (here_get (i := 0) here rfl)⟩
  | @int _ z two hs sign =>
    refine ⟨by omega, ?_, .int (stores_here here hs) fun hn => ?_⟩
    · cases hs with
      | short h0 tag _ => exact first h0 (by omega)
      | int hc h0 _ _ => exact first h0 (by rw [UInt8.toNat_ofNat_of_lt' (by simp [UInt8.size]; omega)]; omega)
      | unsigned hc h0 _ _ => exact first h0 (by rw [UInt8.toNat_ofNat_of_lt' (by simp [UInt8.size]; omega)]; omega)
    · refine Int.not_lt.mp fun hlt => hneg (sign ?_ hlt)
      obtain ⟨b, hb, h1⟩ := hn
      refine ⟨b, ?_, h1⟩
      match bs, two with
      | c :: tl, _ =>
        have := here_get (i := 0) here rfl
        rw [Nat.add_zero, hb] at this
        exact this.symm
  | @float b x d pad tag len =>
    simp only [List.length_cons, List.length_append] at he
    rw [← hF]
    refine ⟨by omega, first rfl (by omega), .float (here_get (i := 0) here rfl) tag len
      (here_init (here_drop (as := [b, x]) here)) (by omega)⟩
  | @double b x d pad tag len =>
    simp only [List.length_cons, List.length_append] at he
    refine ⟨by omega, first rfl (by omega), .double (here_get (i := 0) here rfl) tag len
      (here_init (here_drop (as := [b, x]) here)) (by omega)⟩
  | str two utf8 h =>
    refine ⟨by omega, ?_, .str (counted_format h here he) utf8⟩
    cases h with
    | short len is => exact first rfl (by omega)
    | long len is => exact first rfl (by omega)
  | data two h =>
    refine ⟨by omega, ?_, .data (counted_format h here he)⟩
    cases h with
    | short len is => exact first rfl (by omega)
    | long len is => exact first rfl (by omega)

theorem header_format {kind n p e : Nat} {w : Bool} (hk : kind = 6 ∨ kind = 7) (hn : n < 2 ^ 32)
    (here : Format.Here data p (Format.header kind n w)) (he : p + Format.headerSize n ≤ e) :
    p + 2 ≤ e ∧ ¬ IsPointer data p ∧ Header r data kind p e w n (Format.headerSize n) := by
  unfold Format.header at here
  unfold Format.headerSize at he ⊢
  have hb : ∀ x, x < 8 → (UInt8.ofNat (kind * 16 + (if w then 8 else 0) + x)).toNat = kind * 16 + (if w then 8 else 0) + x := by
    intro x hx
    apply UInt8.toNat_ofNat_of_lt'
    simp only [UInt8.size]
    rcases hk with rfl | rfl <;> cases w <;> simp <;> omega
  have h0 := here_get (i := 0) here rfl
  have h1 := here_get (i := 1) here rfl
  have hb0 := hb (min n 2047 / 256) (by omega)
  have hnp : ¬ IsPointer data p := by
    intro ⟨b, h, hge⟩
    rw [Nat.add_zero, h] at h0
    cases h0
    rw [hb0] at hge
    rcases hk with rfl | rfl <;> cases w <;> simp at hge <;> omega
  have hb1 : (UInt8.ofNat (min n 2047 % 256)).toNat = min n 2047 % 256 :=
    UInt8.toNat_ofNat_of_lt' (by simp [UInt8.size]; omega)
  by_cases hs : n < 2047
  · rw [if_pos hs] at he ⊢
    refine ⟨he, hnp, ?_⟩
    have hmin : min n 2047 = n := by omega
    rw [hmin] at h0 h1 hb0 hb1
    have := Header.short (r := r) (e := e) h0 h1 hb0 (by omega) (by rw [hb1]; omega)
    rwa [hb1, show n / 256 * 256 + n % 256 = n by omega] at this
  · rw [if_neg hs] at he ⊢ here
    have hmin : min n 2047 = 2047 := by omega
    rw [hmin] at h0 h1 hb0
    refine ⟨by omega, hnp, ?_⟩
    have := here_drop here
    have := Header.long (r := r) (e := e) h0 h1 hb0
      (.plain (leb_groups n) (here_between this (by show p + 2 + _ ≤ e; omega))
        (leb_length 9 _ (by omega)) (by omega))
    rwa [show 2 + (leb128 n).length + (leb128 n).length % 2 = ((leb128 n).length + 1) / 2 * 2 + 2 by omega] at this

theorem points_fits {w : Bool} {q p : Nat} (h : Format.Points data w q p) : q + Format.width w ≤ data.length ∧ p ≤ q := by
  obtain ⟨bs, off, here, len, _, _, to⟩ := h
  have := here.length_le
  rw [len, List.length_drop] at this
  have : 0 < Format.width w := by cases w <;> simp [Format.width]
  omega

/-- What a derivation of the format gives. -/
def Extends (r : Reader) (data : List UInt8) (p e : Nat) (t : Tree) : Option Bool → Prop
  | none => p + 2 ≤ e ∧ e ≤ data.length ∧ ¬ IsPointer data p ∧ ∀ e', e ≤ e' → e' ≤ data.length → Value r data none p e' t
  | some w => Value r data (some w) p (p + Format.width w) t

theorem value_format (hF : r.F = R.F) (hs : r.scope = R.scope) (hneg : ¬ R.neg) {k : Option Bool} {p e : Nat} {t : Tree}
    (h : Format.Value R data k p e t) : Extends r data p e t k := by
  have hfit : ∀ {p : Nat} {bs : List UInt8}, Format.Here data p bs → 2 ≤ bs.length → p + bs.length ≤ data.length := by
    intro p bs here h2
    have := here.length_le
    rw [List.length_drop] at this
    omega
  have two : ∀ {bs : List UInt8} {t : Tree}, Format.Scalar R.F R.neg bs t → 2 ≤ bs.length := by
    intro bs t h
    cases h <;> first | assumption | (simp only [List.length_cons]; omega)
  have hw2 : ∀ w, 2 ≤ Format.width w := by intro w; cases w <;> simp [Format.width]
  induction h with
  | @scalar p bs t here h =>
    have h2 := two h
    refine ⟨by omega, hfit here h2, (scalar_format (r := r) hF hneg h here (Nat.le_refl _)).2.1, fun e' h1 h2 => ?_⟩
    obtain ⟨g1, _, g2⟩ := scalar_format (r := r) hF hneg h here h1
    exact .scalar g1 h2 g2
  | @inline w q bs t here len h =>
    have hf := hfit here (two h)
    rw [len] at hf
    obtain ⟨g1, g2, g3⟩ := scalar_format (r := r) hF hneg h here (e := q + Format.width w) (by omega)
    exact .slot (.inline hf g2) (.scalar g1 hf g3)
  | @pointer w q p e t to le tgt ih =>
    obtain ⟨g1, g2, g3, g4⟩ := ih
    obtain ⟨h1, h2⟩ := points_fits to
    exact .slot (.pointer h1 (.one (.inside to (by omega)) g3)) (g4 q le (by omega))
  | @empty w q e t no le fits tgt ih =>
    obtain ⟨g1, g2, g3, g4⟩ := ih
    exact .slot (.inline fits g3) (g4 _ le fits)
  | @arr p w xs here small fits each ih =>
    obtain ⟨g1, g2, _⟩ := header_format (r := r) (.inl rfl) small here
      (Nat.le_add_right (p + Format.headerSize xs.length) (xs.length * Format.width w))
    refine ⟨g1, fits, g2, fun e' h1 h2 => ?_⟩
    obtain ⟨g3, _, g4⟩ := header_format (r := r) (e := e') (.inl rfl) small here (by omega)
    exact .arr g3 h2 g4 ih
  | @dict p w ks kvs here small fits len keys names sorted vals ih =>
    obtain ⟨g1, g2, _⟩ := header_format (r := r) (.inr rfl) small here
      (Nat.le_add_right (p + Format.headerSize kvs.length) (kvs.length * 2 * Format.width w))
    refine ⟨g1, fits, g2, fun e' h1 h2 => ?_⟩
    obtain ⟨g3, _, g4⟩ := header_format (r := r) (e := e') (.inr rfl) small here (by omega)
    refine .dict g3 h2 g4 (.plain (by omega)) (Nat.le_refl _) (fun i s t hx => ?_) ih fun hlt => absurd hlt (Nat.lt_irrefl _)
    have hi : i < ks.length := by rw [len]; exact (List.getElem?_eq_some_iff.mp hx).1
    have hk := keys i ks[i] (List.getElem?_eq_getElem hi)
    have hnm := names i ks[i] s t (List.getElem?_eq_getElem hi) hx
    revert hk hnm
    generalize ks[i] = k
    intro hk hnm
    cases hk with
    | @shared b0 b1 pad hh hl code =>
      obtain ⟨sk, n, g5, g6⟩ := hnm
      have hf := hfit hh (by simp only [List.length_cons]; omega)
      simp only [List.length_cons] at hf
      have h0 := here_get (i := 0) hh rfl
      have h1 := here_get (i := 1) hh rfl
      refine .mk (.inline (by omega) fun ⟨b, hb, hge⟩ => ?_) (.code ⟨b0, b1, h0, by omega, h1, rfl⟩ ⟨sk, n, by rw [hs]; exact g5, g6⟩)
      rw [Nat.add_zero, hb] at h0
      cases h0; omega
    | @inline k' bs hh hl hsc =>
      obtain ⟨rfl, _⟩ := hnm
      have hf := hfit hh (two hsc)
      rw [hl] at hf
      obtain ⟨_, g5, g6⟩ := scalar_format (r := r) hF hneg hsc hh (e := _ + Format.width w) (by rw [hl]; exact Nat.le_refl _)
      exact .mk (.inline hf g5) (.str g6)
    | @pointer p' k' bs to hh hl hsc =>
      obtain ⟨rfl, _⟩ := hnm
      have := two hsc
      obtain ⟨_, g5, g6⟩ := scalar_format (r := r) hF hneg hsc hh hl
      exact .mk (.pointer (points_fits to).1 (.one (.inside to (by omega)) g5)) (.str g6)

/-- **A document of the format is read as it is, without oddities.** -/
theorem document_format (hF : r.F = R.F) (hs : r.scope = R.scope) (hneg : ¬ R.neg) {t : Tree} (h : Format.Document R data t) :
    Document r data t := by
  cases h with
  | @alone e _ two h =>
    obtain ⟨g1, g2, g3, g4⟩ := value_format (r := r) hF hs hneg h
    exact .alone two (g4 2 (by omega) (by omega))
  | @narrow p e q _ even len to le h =>
    obtain ⟨g1, g2, g3, g4⟩ := value_format (r := r) hF hs hneg h
    exact .root len (.one (.inside to (by omega)) g3) (g4 q le (by omega))
  | @wide p e q q' _ even len first room to le h =>
    obtain ⟨g1, g2, g3, g4⟩ := value_format (r := r) hF hs hneg h
    exact .root len (.more (.inside first (by omega)) (.one (.inside to (by omega)) g3)) (g4 q' le (by omega))

end
end Fleece.Liberal
