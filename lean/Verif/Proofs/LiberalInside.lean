import Verif.Proofs.LiberalRead
import Verif.Proofs.Deep

/-! # What accepted bytes say: they have no pointers out of the document -/

namespace Fleece.Liberal
open Spec Res

/-- The same reader, but pointers out of the document are not put up with. -/
def Reader.inside (r : Reader) : Reader := { r with odd := fun o => r.odd o ∧ o ≠ .external }

section
variable {m : Mem} {r : Reader} {v : Val} {data bs : List UInt8}

theorem Size.inside {k n : Nat} (h : Size r bs k n) : Size r.inside bs k n := by
  cases h with
  | plain h here len fits => exact .plain h here len fits
  | large odd h here len big => exact .large ⟨odd, by decide⟩ h here len big
  | eleven odd unchecked h here len fits => exact .eleven ⟨odd, by decide⟩ unchecked h here len fits

theorem NoSize.inside (h : NoSize r bs) : NoSize r.inside bs := by
  cases h with
  | endless odd h few => exact .endless ⟨odd, by decide⟩ h few
  | long odd unchecked h here len => exact .long ⟨odd, by decide⟩ unchecked h here len

theorem Counted.inside {tag p e : Nat} {s : List UInt8} (h : Counted r data tag p e s) : Counted r.inside data tag p e s := by
  cases h with
  | short h len is here room => exact .short h len is here room
  | long h is size here room => exact .long h is size.inside here room
  | none h is no => exact .none h is no.inside

theorem Scalar.inside {p e : Nat} {t : Tree} (h : Scalar r data p e t) : Scalar r.inside data p e t := by
  cases h with
  | null h => exact .null h
  | false h => exact .false h
  | true h => exact .true h
  | undefined h => exact .undefined h
  | constant odd h tag bits => exact .constant ⟨odd, by decide⟩ h tag bits
  | int h sign => exact .int h sign
  | negative odd h first narrow neg => exact .negative ⟨odd, by decide⟩ h first narrow neg
  | float h tag len here room => exact .float (r := r.inside) h tag len here room
  | double h tag len here room => exact .double h tag len here room
  | str h utf8 => exact .str h.inside utf8
  | text odd h bad => exact .text ⟨odd, by decide⟩ h.inside bad
  | data h => exact .data h.inside

theorem Header.inside {kind p e : Nat} {w : Bool} {n size : Nat} (h : Header r data kind p e w n size) :
    Header r.inside data kind p e w n size := by
  cases h with
  | short h0 h1 is hc small => exact .short h0 h1 is hc small
  | long h0 h1 is size => exact .long h0 h1 is size.inside
  | none h0 h1 is no => exact .none h0 h1 is no.inside

theorem Pairs.inside {n p : Nat} (h : Pairs r n p) : Pairs r.inside n p := by
  cases h with
  | plain h => exact .plain h
  | large odd unchecked h => exact .large ⟨odd, by decide⟩ unchecked h

theorem Named.inside {p e : Nat} {s : List UInt8} (h : Named r data p e s) : Named r.inside data p e s := by
  cases h with
  | str h => exact .str h.inside
  | code h name => exact .code h name
  | other odd h no => exact .other ⟨odd, by decide⟩ h no

/-- A pointer that `deref_checked` follows is not one out of the document. -/
theorem Back.within {w : Bool} {q p len : Nat} {b : UInt8} (h : Back r m.data w q p) (hb : (⟨q, len⟩ : Val).byte m 0 = .ok b)
    (hx : b &&& 0x40 = 0) : Back r.inside m.data w q p := by
  cases h with
  | inside h lt => exact .inside h lt
  | @external bs off odd here hlen is small to lt =>
    exfalso
    have h0 := (byte_ok hb).2
    rw [Nat.add_zero] at h0
    have hfirst : bs[0]? = some b := by
      obtain ⟨t, ht⟩ := here
      have h1 : (bs ++ t)[0]? = bs[0]? := List.getElem?_append_left (by rw [hlen]; cases w <;> simp [Format.width])
      rw [← h1, ht, List.getElem?_drop, Nat.add_zero]
      exact h0
    have htab : ∀ b : UInt8, b &&& 0x40 = 0 → b.toNat % 128 < 64 := forall_byte (by decide +kernel)
    have hlow := htab b hx
    have hlt := byte_lt b
    rw [← beNat_big] at is
    cases w with
    | false =>
      match bs, hlen with
      | [a, c], _ =>
        cases hfirst
        rw [beNat2] at is
        have := byte_lt c
        simp [Format.width] at is small
        omega
    | true =>
      match bs, hlen with
      | [a, c, d, e], _ =>
        cases hfirst
        rw [beNat4] at is
        have := byte_lt c
        have := byte_lt d
        have := byte_lt e
        simp [Format.width] at is small
        omega

theorem Leads.inside {w : Bool} {q p e : Nat} (h : Leads r m.data w q p e) : ∀ (fuel len : Nat) {x : Val},
    derefCheckedGo m fuel w ⟨q, len⟩ = .ok x → x = ⟨p, e - p⟩ ∧ Leads r.inside m.data w q p e := by
  induction h with
  | @one w q p hb end_ =>
    intro fuel len x hx
    cases fuel with
    | zero => cases hx
    | succ fuel =>
      unfold derefCheckedGo at hx
      split at hx
      · cases hx
      · obtain ⟨off, hoff, hx⟩ := bind_eq_ok.mp hx
        obtain ⟨_, h2, h3, _⟩ := hb.reads (len := len)
        rw [h3] at hoff; cases hoff
        split at hx
        · cases hx
        · obtain ⟨b0, hb0, hx⟩ := bind_eq_ok.mp hx
          split at hx
          · cases hx
          · rename_i hext
            split at hx
            · cases hx
            · obtain ⟨tg, htg, hx⟩ := bind_eq_ok.mp hx
              obtain ⟨rfl, hin⟩ := mkSlice_ok htg
              obtain ⟨ty, hty, hx⟩ := bind_eq_ok.mp hx
              dsimp only at hty hx
              have hp : q - (q - p) = p := by omega
              rw [hp] at hty hx
              rw [if_neg fun hh => end_ ((pointer_of_type hty).mp hh)] at hx
              cases hx
              exact ⟨rfl, .one (hb.within hb0 (Decidable.not_not.mp hext)) end_⟩
  | @more w q p p' e hb ht ih =>
    intro fuel len x hx
    cases fuel with
    | zero => cases hx
    | succ fuel =>
      unfold derefCheckedGo at hx
      split at hx
      · cases hx
      · obtain ⟨off, hoff, hx⟩ := bind_eq_ok.mp hx
        obtain ⟨_, h2, h3, _⟩ := hb.reads (len := len)
        rw [h3] at hoff; cases hoff
        split at hx
        · cases hx
        · obtain ⟨b0, hb0, hx⟩ := bind_eq_ok.mp hx
          split at hx
          · cases hx
          · rename_i hext
            split at hx
            · cases hx
            · obtain ⟨tg, htg, hx⟩ := bind_eq_ok.mp hx
              obtain ⟨rfl, hin⟩ := mkSlice_ok htg
              obtain ⟨ty, hty, hx⟩ := bind_eq_ok.mp hx
              dsimp only at hty hx
              have hp : q - (q - p) = p := by omega
              rw [hp] at hty hx
              have hpt := (ht.reads (p + 1) 2 (by omega)).2.2.1
              rw [if_pos ((pointer_of_type hty).mpr hpt)] at hx
              obtain ⟨g1, g2⟩ := ih _ _ hx
              exact ⟨g1, .more (hb.within hb0 (Decidable.not_not.mp hext)) g2⟩

theorem Slot.inside {w a : Bool} {q p e f de : Nat} (h : Slot r m.data w q p e)
    (hv : validateGo m f a w ⟨q, Format.width w⟩ de = .ok ()) : Slot r.inside m.data w q p e ∧
      ∃ f a w' de, validateGo m f a w' ⟨p, e - p⟩ de = .ok () := by
  cases h with
  | inline room no =>
    refine ⟨.inline room no, f, a, w, de, ?_⟩
    rw [show q + Format.width w - q = Format.width w by omega]
    exact hv
  | pointer room h =>
    cases f with
    | zero => cases hv
    | succ f =>
      unfold validateGo at hv
      obtain ⟨ty, hty, hv⟩ := bind_eq_ok.mp hv
      have hpt := (h.reads (q + 1) (Format.width w) (by omega)).2.2.1
      cases (pointer_of_type hty).mpr hpt
      dsimp only at hv
      obtain ⟨x, hx, hv⟩ := bind_eq_ok.mp hv
      obtain ⟨rfl, g⟩ := h.inside _ _ hx
      exact ⟨.pointer room g, f, false, w, q, hv⟩

/-- The bytes have been validated. -/
def Checked (m : Mem) (p e : Nat) : Option Bool → Prop
  | none => ∃ f a w de, validateGo m f a w ⟨p, e - p⟩ de = .ok ()
  | some w => ∃ f a de, validateGo m f a w ⟨p, Format.width w⟩ de = .ok ()

theorem slots_checked (hdbg : m.dbg = true) {p e n size f : Nat} {a w w' : Bool} {de : Nat} {ty : ValueType}
    (ht : (⟨p, e - p⟩ : Val).type m = .ok ty) (had : ty = .array ∨ ty = .dict) (hw : (⟨p, e - p⟩ : Val).isWide m = .ok w)
    (hn : (⟨p, e - p⟩ : Val).arrayLen m = .ok n) (hf : n ≠ 0 → (⟨p, e - p⟩ : Val).firstPos m = .ok size)
    (hv : validateGo m f a w' ⟨p, e - p⟩ de = .ok ()) (i : Nat) (hi : i < n) :
    ∃ f de, validateGo m f true w ⟨p + size + i * Format.width w, Format.width w⟩ de = .ok () := by
  cases f with
  | zero => cases hv
  | succ f =>
    unfold validateGo at hv
    rw [ht] at hv
    have hv : arrayValidate m (fun w => validateGo m f true w) ⟨p, e - p⟩ de = .ok () := by
      rcases had with rfl | rfl <;> exact hv
    obtain ⟨wd, n', fp, hwd, hn', hfp, _, _, _, hok⟩ := arrayValidate_ok hdbg hv
    rw [hw] at hwd; cases hwd
    rw [hn] at hn'; cases hn'
    rw [hf (by omega)] at hfp; cases hfp
    obtain ⟨x, h1, h2⟩ := validateElems_ok hok i hi
    obtain ⟨rfl, _⟩ := fromRaw_ok h1
    exact ⟨f, _, h2⟩

theorem Value.inside (hdbg : m.dbg = true) (hd : r.dbg = true) {k : Option Bool} {p e : Nat} {t : Tree}
    (h : Value r m.data k p e t) (hc : Checked m p e k) : Value r.inside m.data k p e t := by
  induction h with
  | @scalar p e t two le hs => exact .scalar two le hs.inside
  | @slot w q p e t slot _ ih =>
    obtain ⟨f, a, de, hc⟩ := hc
    obtain ⟨g1, g2⟩ := slot.inside hc
    exact .slot g1 (ih g2)
  | @arr p e size w xs two le head each ih =>
    obtain ⟨f, a, w', de, hc⟩ := hc
    have he : p + (e - p) = e := by omega
    have hin : (⟨p, e - p⟩ : Val).In m := by unfold Val.In; dsimp only; omega
    have head' : Header r m.data (if false then 7 else 6) (⟨p, e - p⟩ : Val).pos
        ((⟨p, e - p⟩ : Val).pos + (⟨p, e - p⟩ : Val).len) w xs.length size := by
      dsimp only; rw [he]; exact head
    obtain ⟨ht, hw, hfp, hlen⟩ := head'.reads hdbg hd hin (by dsimp only; omega)
    refine .arr two le head.inside fun i t hx => ih i t hx ?_
    obtain ⟨f', de', g⟩ := slots_checked hdbg ht (.inl rfl) hw hlen hfp hc i (List.getElem?_eq_some_iff.mp hx).1
    exact ⟨f', true, de', g⟩
  | @dict p e size n pairs w kvs two le head count len keys vals rest ih =>
    obtain ⟨f, a, w', de, hc⟩ := hc
    have he : p + (e - p) = e := by omega
    have hin : (⟨p, e - p⟩ : Val).In m := by unfold Val.In; dsimp only; omega
    have head' : Header r m.data (if true then 7 else 6) (⟨p, e - p⟩ : Val).pos
        ((⟨p, e - p⟩ : Val).pos + (⟨p, e - p⟩ : Val).len) w n size := by
      dsimp only; rw [he]; exact head
    obtain ⟨ht, hw, hfp, hlen⟩ := head'.reads hdbg hd hin (by dsimp only; omega)
    have hpn : pairs = n ∧ n < 2 ^ 63 := by
      cases count with
      | plain h => exact ⟨rfl, h⟩
      | large _ unchecked => rw [hd] at unchecked; cases unchecked
    obtain ⟨rfl, hn⟩ := hpn
    have hlen : (⟨p, e - p⟩ : Val).arrayLen m = .ok (2 * pairs) := by
      rw [hlen, if_pos rfl]
      unfold usizeMul
      rw [if_pos (by omega), Nat.mul_comm]
    have each : ∀ i, i < 2 * pairs →
        ∃ f de, validateGo m f true w ⟨p + size + i * Format.width w, Format.width w⟩ de = .ok () :=
      fun i hi => slots_checked hdbg ht (.inr rfl) hw hlen (fun h => hfp (by omega)) hc i hi
    refine .dict two le head.inside count.inside len (fun i s t hx => ?_) (fun i s t hx => ih i s t hx ?_) fun hlt => ?_
    · have hi := (List.getElem?_eq_some_iff.mp hx).1
      obtain ⟨slot, hnm⟩ := keys i s t hx
      obtain ⟨f', de', g⟩ := each (2 * i) (by omega)
      exact .mk (slot.inside g).1 hnm.inside
    · have hi := (List.getElem?_eq_some_iff.mp hx).1
      obtain ⟨f', de', g⟩ := each (2 * i + 1) (by omega)
      exact ⟨f', true, de', g⟩
    · obtain ⟨odd, slot, hcode, no, room⟩ := rest hlt
      obtain ⟨f', de', g⟩ := each (2 * kvs.length) (by omega)
      exact .mk ⟨odd, by decide⟩ (slot.inside g).1 hcode no room

/-- **Accepted bytes have no pointers out of the document**, wherever a traversal looks. -/
theorem Document.inside (hdbg : m.dbg = true) (hd : r.dbg = true) {t : Tree} (h : Document r m.data t) (hv : fromBytes m = .ok v) :
    Document r.inside m.data t := by
  unfold fromBytes fromBytesGo at hv
  obtain ⟨root, hroot, hv⟩ := bind_eq_ok.mp hv
  obtain ⟨_, hu, hv⟩ := bind_eq_ok.mp hv
  cases hv
  unfold findRoot at hroot
  dsimp only at hroot
  split at hroot
  · cases hroot
  · obtain ⟨ty, hty, hroot⟩ := bind_eq_ok.mp hroot
    have hiff := pointer_of_type hty
    dsimp only at hiff
    cases h with
    | alone two h =>
      split at hroot
      · -- the two bytes are a pointer: there is nothing before it that it could lead to
        rename_i hp
        rw [two] at hroot
        exfalso
        unfold derefChecked derefCheckedGo at hroot
        split at hroot
        · cases hroot
        · obtain ⟨off, hoff, hroot⟩ := bind_eq_ok.mp hroot
          split at hroot
          · cases hroot
          · obtain ⟨b0, _, hroot⟩ := bind_eq_ok.mp hroot
            split at hroot
            · cases hroot
            · split at hroot
              · cases hroot
              · rename_i h1 _ h2
                dsimp only at h2
                omega
      · cases hroot
        rw [two] at hu
        exact .alone two (h.inside hdbg hd ⟨_, _, _, _, hu⟩)
    | @root p q e len to h =>
      have hq : m.data.length - 2 = q := by omega
      rw [hq] at hroot hiff
      have hpt := (to.reads (q + 1) 2 (by omega)).2.2.1
      rw [if_pos (hiff.mpr hpt)] at hroot
      obtain ⟨rfl, g⟩ := to.inside _ _ hroot
      exact .root len g (h.inside hdbg hd ⟨_, _, _, _, hu⟩)

end
end Fleece.Liberal
