import Verif.Model.Debug
import Verif.Model.Ser

/-!
# The texts of errors: `src/error.rs`, `src/value/error.rs`, `src/encoder/error.rs` and those of `ser.rs` and `de.rs`

What `{}` writes. `write!` to a `String` does not fail. A `String` is the list of its characters.
-/

namespace Fleece

/-- The list of the characters of a literal. -/
macro "txt!" s:str : term => do
  let cs := s.getString.toList.toArray.map fun c => Lean.Syntax.mkCharLit c
  `(([$cs,*] : Text))

/-- `{:#x}` of a `usize`, core::fmt::num. -/
def hexText (n : Nat) : Text := '0' :: 'x' :: Nat.toDigits 16 n

/-- `<DecodeError as Display>::fmt`, value/error.rs:35-64. -/
def DecodeError.text : DecodeError → Text
  | .inputIncorrectlySized => txt!"Incorrectly sized input data"
  | .rootNotPointer => txt!"Root value is not a pointer"
  | .pointerTooSmall actual expected =>
    txt!"Pointer expected to be " ++ natText expected ++ txt!" bytes, but was " ++ natText actual ++ txt!" bytes"
  | .pointerOffsetZero => txt!"Pointer offset of 0"
  | .isNotDict => txt!"Value is not a dictionary"
  | .isNotArray => txt!"Value is not an array"
  | .pointerTargetOutOfBounds dataStart target offset =>
    txt!"Pointer with offset " ++ natText offset ++ txt!" target " ++ hexText target ++
      txt!" outside of source data (start: " ++ hexText dataStart ++ txt!")"
  | .arrayOutOfBounds count width available =>
    txt!"Array with width " ++ natText width ++ txt!" and " ++ natText count ++
      txt!" elements exceeded the available " ++ natText available ++ txt!" bytes"
  | .valueOutOfBounds vt required available =>
    txt!"Value with type " ++ vt.name ++ txt!" which requires " ++ natText required ++
      txt!" bytes exceeded the available " ++ natText available ++ txt!" bytes"

/-- `<EncodeError as Display>::fmt`, encoder/error.rs:16-35. -/
def EncodeError.text : EncodeError → Text
  | .arrayNotOpen => txt!"No open array"
  | .dictNotOpen => txt!"No open dictionary"
  | .dictWaitingForValue => txt!"Cannot write another key until the previous key has a value written to it"
  | .dictWaitingForKey => txt!"Cannot write a value until a key has been written"
  | .collectionNotOpen => txt!"No open collection to write a value to"
  | .pointerTooLarge => txt!"Value Pointer too large to be encoded"
  | .multiTopLevelCollection => txt!"Multiple top level collections are not allowed"

/-- `<KeyType as Debug>::fmt`, derived, ser.rs:297-310. -/
def KeyType.name : KeyType → Text
  | .bool => txt!"Bool"
  | .int => txt!"Int"
  | .float => txt!"Float"
  | .bytes => txt!"Bytes"
  | .unit => txt!"Unit"
  | .option => txt!"Option"
  | .enum => txt!"Enum"
  | .struct => txt!"Struct"
  | .tuple => txt!"Tuple"
  | .sequence => txt!"Sequence"
  | .map => txt!"Map"

/-- `SerializeError`, ser.rs:60-64. -/
inductive SerializeError where
  | keyNotString (k : KeyType)
  | valueNotCollection
deriving DecidableEq

/-- `<SerializeError as Display>::fmt`, ser.rs:66-78. -/
def SerializeError.text : SerializeError → Text
  | .keyNotString k => txt!"Map keys must be a String, found " ++ k.name
  | .valueNotCollection => txt!"The value parameter must be an enum, sequence, map or non-unit struct"

/-- `DeserializeError`, de.rs:54-62. -/
inductive DeserializeError where
  | notArray
  | notDict
  | invalidEnumType (t : ValueType)
  | keyWithoutValue
  | invalidEnumLayout (layout : Text)
  | cannotDecodeSharedKeys
deriving DecidableEq

/-- `<DeserializeError as Display>::fmt`, de.rs:64-83. `{layout:?}` is `<str as Debug>::fmt`. -/
def DeserializeError.text (P : Printer) : DeserializeError → Text
  | .notArray => txt!"Attempted to deserialize a sequence from a non-Array"
  | .notDict => txt!"Attempted to deserialize a map from a non-Dict"
  | .invalidEnumType t => txt!"Invalid Enum, expected Array, found " ++ t.name
  | .keyWithoutValue => txt!"Found a Dict Key without Value!"
  | .invalidEnumLayout layout => txt!"Invalid layout for Enum / Variant " ++ '"' :: (layout.flatMap P.escape ++ ['"'])
  | .cannotDecodeSharedKeys => txt!"Failed to decode SharedKeys"

/-- `Error`, error.rs:11-20, with the feature `serde`. -/
inductive Error where
  | encode (e : EncodeError)
  | decode (e : DecodeError)
  | message (m : Text)
  | serialize (e : SerializeError)
  | deserialize (e : DeserializeError)
deriving DecidableEq

/-- `<Error as Display>::fmt`, error.rs:22-34. -/
def Error.text (P : Printer) : Error → Text
  | .encode e => txt!"Encode " ++ e.text
  | .decode e => txt!"Decode " ++ e.text
  | .message m => m
  | .serialize e => txt!"Serialize " ++ e.text
  | .deserialize e => txt!"Deserialize " ++ e.text P

end Fleece
