import Verif.Model.Dict

/-!
# `Debug` of `Value`, `Array` and `Dict`

`{:?}` writes a value with everything it contains. `Formatter` writes to a `String` and cannot fail. What `core::fmt` writes for
a number, a string, a tuple, a list and a map is modelled here too, for `{:?}`; for `{:#?}` in `Model/DebugAlt.lean`. `scope` is what
`Dict::into_iter` finds for the buffer.
-/

namespace Fleece

/-- What is written. -/
abbrev Text := List Char

/-- The parts of `core::fmt` that are left open: the text of an `f64`, given by its bits, and which characters
`char::escape_debug_ext` leaves as they are (the printable ones that do not extend a grapheme). -/
structure Printer where
  float : UInt64 → Text
  plain : Char → Bool

/-- `<u64 as Debug>::fmt` (and of `u8`, `u16`), core::fmt::num. -/
def natText (n : Nat) : Text := Nat.toDigits 10 n

/-- `<i64 as Debug>::fmt` (and of `i16`), core::fmt::num. -/
def intText : Int → Text
  | .ofNat n => natText n
  | .negSucc n => '-' :: natText (n + 1)

/-- `char::escape_debug_ext`, core::char::methods, with the arguments that `<str as Debug>::fmt` gives. -/
def Printer.escape (P : Printer) (c : Char) : Text :=
  if c = '\x00' then ['\\', '0']
  else if c = '\t' then ['\\', 't']
  else if c = '\r' then ['\\', 'r']
  else if c = '\n' then ['\\', 'n']
  else if c = '\\' then ['\\', '\\']
  else if c = '"' then ['\\', '"']
  else if P.plain c then [c]
  else ['\\', 'u', '{'] ++ Nat.toDigits 16 c.toNat ++ ['}']

/-- `<str as Debug>::fmt`, core::fmt. The bytes of a `str` are UTF-8; for others nothing is claimed. -/
def Printer.strText (P : Printer) (s : List UInt8) : Text :=
  '"' :: (((utf8Decode? s).getD []).flatMap fun n => P.escape (Char.ofNat n)) ++ ['"']

/-- Entries with `, ` between them, as `DebugInner` in core::fmt::builders does it. -/
def separated : List Text → Text
  | [] => []
  | [x] => x
  | x :: y :: ys => x ++ [',', ' '] ++ separated (y :: ys)

/-- `debug_list`, core::fmt::builders. -/
def listText (xs : List Text) : Text := '[' :: separated xs ++ [']']

/-- `debug_map`, core::fmt::builders. -/
def mapText (kvs : List (Text × Text)) : Text := '{' :: separated (kvs.map fun kv => kv.1 ++ [':', ' '] ++ kv.2) ++ ['}']

/-- `debug_tuple` with at least one field and a name, core::fmt::builders. -/
def tupleText (name : Text) (fields : List Text) : Text := name ++ ['('] ++ separated fields ++ [')']

/-- `<[u8] as Debug>::fmt`. -/
def dataText (d : List UInt8) : Text := listText (d.map fun b => natText b.toNat)

/-- `ValueType::fmt`, value/mod.rs:596-616. -/
def ValueType.name : ValueType → Text
  | .null => ['N', 'u', 'l', 'l']
  | .undefined => ['U', 'n', 'd', 'e', 'f', 'i', 'n', 'e', 'd']
  | .false => ['F', 'a', 'l', 's', 'e']
  | .true => ['T', 'r', 'u', 'e']
  | .short => ['S', 'h', 'o', 'r', 't']
  | .int => ['I', 'n', 't']
  | .unsignedInt => ['U', 'n', 's', 'i', 'g', 'n', 'e', 'd', 'I', 'n', 't']
  | .float => ['F', 'l', 'o', 'a', 't']
  | .double32 => ['D', 'o', 'u', 'b', 'l', 'e', '3', '2']
  | .double64 => ['D', 'o', 'u', 'b', 'l', 'e', '6', '4']
  | .string => ['S', 't', 'r', 'i', 'n', 'g']
  | .data => ['D', 'a', 't', 'a']
  | .array => ['A', 'r', 'r', 'a', 'y']
  | .dict => ['D', 'i', 'c', 't']
  | .pointer => ['P', 'o', 'i', 'n', 't', 'e', 'r']

/-- `<&str as Debug>::fmt` of one of the literals in `Value::fmt`, which have nothing to escape. -/
def literalText (s : Text) : Text := '"' :: s ++ ['"']

/-- The text of a pointer, value/mod.rs:587-589. -/
def pointerText (narrow wide : Nat) : Text :=
  literalText (['{', ' ', 'i', 'f', ' ', 'n', 'a', 'r', 'r', 'o', 'w', ':', ' ', '-'] ++ natText narrow ++
    [',', ' ', 'i', 'f', ' ', 'w', 'i', 'd', 'e', ':', ' ', '-'] ++ natText wide ++ [' ', '}'])

/-- `for elem in self` in `Array::fmt`, array.rs:270-276; `f` formats an element. An array has finitely many: the first
argument bounds the number of steps. -/
def Iter.debugItems (m : Mem) (f : Val → R Text) : Nat → Iter → R (List Text)
  | 0, _ => .diverge
  | n + 1, it => do
    let (x, it') ← it.step m
    match x with
    | none => pure []
    | some x => do
      let s ← f x
      let rest ← Iter.debugItems m f n it'
      pure (s :: rest)

/-- `for (key, value) in self` in `Dict::fmt`, dict.rs:304-310. -/
def Iter.debugEntries (P : Printer) (m : Mem) (scope : Option SharedKeys) (f : Val → R Text) : Nat → Iter → R (List (Text × Text))
  | 0, _ => .diverge
  | n + 1, it => do
    let (x, it') ← it.dictStep m scope
    match x with
    | none => pure []
    | some (k, x) => do
      let s ← f x
      let rest ← Iter.debugEntries P m scope f n it'
      pure ((P.strText k, s) :: rest)

/-- `Array::fmt`, array.rs:270-276. -/
def Val.debugArray (m : Mem) (f : Val → R Text) (v : Val) : R Text := do
  let it ← v.iter m
  let xs ← it.debugItems m f (it.len + 1)
  pure (listText xs)

/-- `Dict::fmt`, dict.rs:304-310. -/
def Val.debugDict (P : Printer) (m : Mem) (scope : Option SharedKeys) (f : Val → R Text) (v : Val) : R Text := do
  let it ← v.dictIter m
  let kvs ← it.debugEntries P m scope f (it.len + 1)
  pure (mapText kvs)

/-- The field of the tuple in `Value::fmt`, value/mod.rs:564-591, for a value of type `ty`; `f` formats an element. -/
def Val.debugField (P : Printer) (m : Mem) (F : FloatOps) (scope : Option SharedKeys) (f : Val → R Text) (v : Val) :
    ValueType → R Text
  | .null => pure (literalText ['N', 'u', 'l', 'l'])
  | .undefined => pure (literalText ['U', 'n', 'd', 'e', 'f', 'i', 'n', 'e', 'd'])
  | .false => pure (literalText ['F', 'a', 'l', 's', 'e'])
  | .true => pure (literalText ['T', 'r', 'u', 'e'])
  | .short => do let i ← v.toShort m F; pure (intText i)
  | .unsignedInt => do let n ← v.toUnsignedInt m F; pure (natText n)
  | .int => do let i ← v.toInt m F; pure (intText i)
  | .float | .double32 | .double64 => do let d ← v.toDouble m F; pure (P.float d)
  | .string => do let s ← v.toStr m; pure (P.strText s)
  | .data => do let d ← v.toData m; pure (dataText d)
  | .array => v.debugArray m f
  | .dict => v.debugDict P m scope f
  | .pointer => do
    let narrow ← v.getOffset m Bool.false
    if 4 ≤ v.len then do
      let wide ← v.getOffset m Bool.true
      pure (pointerText narrow wide)
    else pure (pointerText narrow 0)

/-- `Value::fmt`, value/mod.rs:559-593. `fuel` bounds the nesting depth. -/
def Val.debug (P : Printer) (m : Mem) (F : FloatOps) (scope : Option SharedKeys) : Nat → Val → R Text
  | 0, _ => .diverge
  | fuel + 1, v => do
    let ty ← v.type m
    let field ← v.debugField P m F scope (Val.debug P m F scope fuel) ty
    pure (tupleText ty.name
      ((if v.len = 0 then [literalText ['E', 'm', 'p', 't', 'y']] else []) ++ [field]))

end Fleece
