import Verif.Model.Debug

/-!
# `{:#?}` of `Value`, `Array` and `Dict`

The same `fmt` functions as in `Model/Debug.lean`, with the formatter in its alternate mode: `core::fmt::builders` then puts each
entry on lines of its own. Numbers, strings and literals are written as for `{:?}`.
-/

namespace Fleece

/-- `<PadAdapter as fmt::Write>::write_str`, core::fmt::builders, for all that is written to one adapter: four spaces in front of
each line. The flag is `on_newline`. -/
def padded : Bool → Text → Text
  | _, [] => []
  | newline, c :: cs => (if newline then [' ', ' ', ' ', ' '] else []) ++ c :: padded (c == '\n') cs

/-- One entry in the alternate mode: an adapter of its own, in which `,` and the end of the line are written too. -/
def entryAlt (x : Text) : Text := padded true (x ++ [',', '\n'])

/-- `debug_list` in the alternate mode, core::fmt::builders. -/
def listAlt (xs : List Text) : Text := '[' :: (if xs = [] then [] else '\n' :: xs.flatMap entryAlt) ++ [']']

/-- `debug_map` in the alternate mode, core::fmt::builders. -/
def mapAlt (kvs : List (Text × Text)) : Text :=
  '{' :: (if kvs = [] then [] else '\n' :: kvs.flatMap fun kv => entryAlt (kv.1 ++ [':', ' '] ++ kv.2)) ++ ['}']

/-- `debug_tuple` with at least one field and a name in the alternate mode, core::fmt::builders. -/
def tupleAlt (name : Text) (fields : List Text) : Text := name ++ ['(', '\n'] ++ fields.flatMap entryAlt ++ [')']

/-- `<[u8] as Debug>::fmt` in the alternate mode. -/
def dataAlt (d : List UInt8) : Text := listAlt (d.map fun b => natText b.toNat)

/-- `Array::fmt`, array.rs:270-276, in the alternate mode. -/
def Val.debugArrayAlt (m : Mem) (f : Val → R Text) (v : Val) : R Text := do
  let it ← v.iter m
  let xs ← it.debugItems m f (it.len + 1)
  pure (listAlt xs)

/-- `Dict::fmt`, dict.rs:304-310, in the alternate mode. -/
def Val.debugDictAlt (P : Printer) (m : Mem) (scope : Option SharedKeys) (f : Val → R Text) (v : Val) : R Text := do
  let it ← v.dictIter m
  let kvs ← it.debugEntries P m scope f (it.len + 1)
  pure (mapAlt kvs)

/-- The field of the tuple in `Value::fmt`, value/mod.rs:564-591, in the alternate mode. -/
def Val.debugFieldAlt (P : Printer) (m : Mem) (F : FloatOps) (scope : Option SharedKeys) (f : Val → R Text) (v : Val) :
    ValueType → R Text
  | .null => pure (literalText ['N', 'u', 'l', 'l'])
  | .undefined => pure (literalText ['U', 'n', 'd', 'e', 'f', 'i', 'n', 'e', 'd'])
  | .false => pure (literalText ['F', 'a', 'l', 's', 'e'])
  | .true => pure (literalText ['T', 'r', 'u', 'e'])
  | .short => do let i ← v.toShort m F; pure (intText i)
  | .unsignedInt => do let n ← v.toUnsignedInt m F; pure (natText n)
  | .int => do let i ← v.toInt m F; pure (intText i)
  | .float | .double32 | .double64 => do let d ← v.toDouble m F; pure (P.float d)
  | .string => do let s ← v.toStr m; pure (P.strText s)
  | .data => do let d ← v.toData m; pure (dataAlt d)
  | .array => v.debugArrayAlt m f
  | .dict => v.debugDictAlt P m scope f
  | .pointer => do
    let narrow ← v.getOffset m Bool.false
    if 4 ≤ v.len then do
      let wide ← v.getOffset m Bool.true
      pure (pointerText narrow wide)
    else pure (pointerText narrow 0)

/-- `Value::fmt`, value/mod.rs:559-593, in the alternate mode. `fuel` bounds the nesting depth. -/
def Val.debugAlt (P : Printer) (m : Mem) (F : FloatOps) (scope : Option SharedKeys) : Nat → Val → R Text
  | 0, _ => .diverge
  | fuel + 1, v => do
    let ty ← v.type m
    let field ← v.debugFieldAlt P m F scope (Val.debugAlt P m F scope fuel) ty
    pure (tupleAlt ty.name
      ((if v.len = 0 then [literalText ['E', 'm', 'p', 't', 'y']] else []) ++ [field]))

end Fleece
