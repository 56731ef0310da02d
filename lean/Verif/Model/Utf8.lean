import Verif.Model.Basic

/-!
# Rust strings

`str` is a UTF-8 byte sequence. The validity check is the one `core::str::from_utf8` performs (RFC 3629:
no overlong forms, no surrogates, at most U+10FFFF), written as a decoder to code points.
-/

namespace Fleece

/-- A UTF-8 continuation byte. -/
def isCont (b : UInt8) : Bool := 0x80 ≤ b && b ≤ 0xBF

/-- Decode UTF-8 to code points; `none` if `core::str::from_utf8` would return `Err`. -/
def utf8Decode? : List UInt8 → Option (List Nat)
  | [] => some []
  | b0 :: r0 =>
    if b0 < 0x80 then (utf8Decode? r0).map (b0.toNat :: ·)
    else match r0 with
      | [] => none
      | b1 :: r1 =>
        if 0xC2 ≤ b0 && b0 ≤ 0xDF && isCont b1 then
          (utf8Decode? r1).map (((b0 &&& 0x1F).toNat * 64 + (b1 &&& 0x3F).toNat) :: ·)
        else match r1 with
          | [] => none
          | b2 :: r2 =>
            if isCont b1 && isCont b2 &&
                (b0 == 0xE0 && 0xA0 ≤ b1 || 0xE1 ≤ b0 && b0 ≤ 0xEC || b0 == 0xED && b1 ≤ 0x9F
                  || 0xEE ≤ b0 && b0 ≤ 0xEF) then
              (utf8Decode? r2).map
                (((b0 &&& 0x0F).toNat * 4096 + (b1 &&& 0x3F).toNat * 64 + (b2 &&& 0x3F).toNat) :: ·)
            else match r2 with
              | [] => none
              | b3 :: r3 =>
                if isCont b1 && isCont b2 && isCont b3 &&
                    (b0 == 0xF0 && 0x90 ≤ b1 || 0xF1 ≤ b0 && b0 ≤ 0xF3 || b0 == 0xF4 && b1 ≤ 0x8F) then
                  (utf8Decode? r3).map
                    (((b0 &&& 0x07).toNat * 262144 + (b1 &&& 0x3F).toNat * 4096
                        + (b2 &&& 0x3F).toNat * 64 + (b3 &&& 0x3F).toNat) :: ·)
                else none

/-- `core::str::from_utf8(bytes).is_ok()`. -/
def validUtf8 (bs : List UInt8) : Bool := (utf8Decode? bs).isSome

/-- A Rust `&str`. -/
structure RStr where
  bytes : List UInt8
  valid : validUtf8 bytes = true
deriving DecidableEq

/-- `str::cmp`: byte-wise lexicographic order (core::str). -/
def cmpBytes : List UInt8 → List UInt8 → Ordering
  | [], [] => .eq
  | [], _ :: _ => .lt
  | _ :: _, [] => .gt
  | a :: as, b :: bs => if a < b then .lt else if b < a then .gt else cmpBytes as bs

end Fleece
