# Formal model of fleece-rs in Lean 4 — design

The model is in `lean/Verif/Model/*`, small independent specifications in `lean/Verif/Spec/*`,
helper lemmas in `lean/Verif/Proofs/*`, and the property theorems, with their non-vacuity examples,
in `lean/Verif/Props/*`. `MANIFEST.json` maps every property of `properties.jsonl` to its theorems.

## How the code is modelled

* **Bytes** are `UInt8`, buffers are `List UInt8`, integers are Lean's fixed-width types or `Nat` with
  explicit wrap-around where the code can overflow.
* **Control outcomes.** A Rust call ends in `Res`: `ok a`, `err e` (a returned `Err`), `panic`
  (any panic: slice index, `unwrap`, `assert!`, `unimplemented!`, arithmetic overflow in a checked
  build), `ub` (a read or slice outside the buffer through `unsafe` code), `diverge` (recursion
  exceeding the fuel; every theorem that speaks of divergence quantifies over all fuel).
* **Memory.** `Mem` holds the document bytes, the address they are loaded at and the build profile
  (`dbg = true`: overflow checks and debug assertions; `false`: wrapping arithmetic). A `&Value` is a
  `Val` = position and length of the slice. A bounds-checked index outside the slice is `panic`, an
  unchecked read or slice outside the document is `ub`.
* **Encoder.** One function per method; the state is the output buffer, the collection stack, the
  shared keys and the closed flag. `sort_unstable_by` is a parameter: any function that returns a
  sorted permutation (structure `Sorter`, inhabited by merge sort).
* **Strings** are UTF-8 byte lists with a validity proof (`RStr`); `str::cmp` is byte order.
* **Floats** are bit patterns. `f32 -> f64 -> f32` conversion is a parameter (`FloatOps`).

## Per-property plan

| id | model | proof |
|----|-------|-------|
| C01 | `varint` read/write/size | induction on the value |
| C02 | `write_fleece_string`, `_get_data` | case split on the 4 length classes + C01 |
| C03,C04 | all integer `Encodable` impls incl. the mutual recursion i16<->i64 (fuel) | exact characterisation; witnesses for the failures |
| C05 | f32/f64/constants; the static values `Value::null`, `undefined`, `bool` (`Model/Constants.lean`) | direct |
| C06,C07 | `_find_root`, `_validate`, `Array::validate`, `deref_checked` | well-founded measure (end of window, window size); "never ub" by induction on fuel; release-build counterexamples |
| C08 | same | counterexamples; partial: classes of inputs that never panic |
| C09,C10,C11 | all accessors | validation gives an inductive predicate `DeepOK`; every accessor is safe on it; traversal by induction on it |
| C12,C13 | `Array::get`, iterator | `DeepOK` + iterator invariant; counterexample at i = len |
| C14,C15,C16,C17 | same functions at two memories | simulation by induction on fuel |
| C18,C19,C22 | encoder state machine against an abstract grammar automaton | step simulation, induction on call list |
| C20,C21,C24,C25,C26 | encoder + reader | representation predicate `RepAt out pos end tree`, stable under append; every call preserves "each slot represents its tree"; reader lemma: `RepAt` implies validation and reading give the tree; counterexamples |
| C20, C21, C24, C26, C30, C36, C37, C38, C43, C44, C47, C48 for documents up to 1 GiB | `Tree.Roomy` (`Spec/Layout.lean`): every collection is clearly small (all it refers to within reach of a 2-byte slot, 16 383 bytes) or clearly large | `Proofs/LargeDoc.lean`: the encoder's width decision is right for roomy documents; `Props/C20Large.lean`, `Props/Large.lean` |
| C23 | both comparators | direct, total-order laws |
| C27,C28,C29,C30 | `SharedKeys` over an insertion-ordered table | invariant over histories; counterexamples |
| C31..C34 | `ValueSlot`, `MutableArray`, `MutableDict` | refinement to list / function `key -> slot` |
| C35,C36 | scope registry as address map + liveness | invariant over histories incl. allocator reuse; counterexample |
| C37 | `write_fleece` | by C20 machinery |
| C38,C39 | serde data model, serializer, deserializer | induction on values |
| C40 | `_write`'s `as u32`, `new_pointer` | direct; counterexample |
| C41,C42 | deserializer of all types | induction on `DeepOK` (the document), on types for what is read from one value; counterexamples for enums |
| C43 | deserializer against declarative relations between types, documents and values (`Fits`) or kinds of error (`Refuses`), and places where neither is settled (`Doubtful`) | forward: induction on `Fits` and on `Refuses`; converse: induction on fuel; completeness of the three relations by induction on documents; counterexample |
| C44 | the calls the `fleece!` macro expands to, over a tree type of literals | induction on literals + encoder machinery; counterexamples |
| C45 | `Debug`, of which the reads matter here (the text: C68) | induction on `DeepOK`; counterexample |
| C46 | the number conversions | against a small specification of stored numbers; counterexamples |
| C47 | `finish_value`, `clone_from_bytes`, `empty` | encoder machinery, invariance under relocation (C14); counterexamples |
| C48 | `new_to_vec` | append-only from C22; encoder machinery started from a non-empty buffer; odd lengths: the bytes computed and read back |
| C49 | `scope.rs` accessors, `finish_scoped`, registry-based `Dict` readers, `from_scope` | the registry answers uniformly over a spared buffer (C35), hence equals the readers of C24/C30/C34; after the end it answers `None` |
| C50 | `size_hint` and `next` of all iterators, `size_hint` of the serde accesses | a loop state is the start advanced by the items taken; mutable dicts by an invariant of programs: every key can be decoded |
| C51 | `Eq`, `Ord`, `Borrow`, `Clone` of `Alloced` | every way to create one gives a value inside its buffer; buffers in memory together are apart |
| C52 | the pointer arithmetic of `from_bytes` (`Model/Arith.lean`) | relation between the outcomes with and without the rule that pointers stay in their allocation; refuted for every pointer that leads out |
| C53 | the calls of `_validate`, counted (`Model/Cost.lean`) | counting erased gives the validator; induction over represented documents (`Rep`); refuted by arrays that hold the previous one twice |
| C54 | the depth at which the recursion of `_validate` is cut off | measure linear in the position; upper and lower bound by induction over represented documents; refuted by arrays in arrays |
| C55 | indexing (`Model/Index.lean`) | from `C12`, `Matches` (`C24`, `C30`), `C31` and `C32`; refuted at `len`, and at every nested mutable collection |
| C56 | `get_with_shared_keys`, `contains_key_with_shared_keys` | case analysis on the first key; a search for a code among texts fails in any order; refuted for every document without shared keys |
| C57 | the encoder under two sorts and two build profiles | closed forms of the calls (`Trans`) do not mention the profile; sorts agree on keys that differ; invariant: stored keys of open dicts stand for different texts (`Proofs/Determ.lean`); refuted by three witnesses |
| C58 | the encoder | the potential of `Enc.run_inv` bounds the final length |
| C59 | the encoder, decoder and traversal | from C20 and transitivity of `Tree.Same`; refuted by two pairs of documents |
| C60 | the encoder, decoder and traversal | the simulation of C20, run on the open collections without the bit that a two-byte slot loses (`Proofs/Tiny.lean`); the number of strings and data in a document tells it from the other (`Proofs/Texts.lean`); for data of one byte, an invariant that leads to a slot that validation rejects (`Proofs/Broken.lean`); for keys of any length, a second simulation with what is left of each collection (`Proofs/Cut.lean`, `Proofs/CutSim.lean`), and the number of strings, data and dict entries (`Proofs/Load.lean`); for shared keys, that what is left has no value or key of the kinds that get lost (`Proofs/Lost.lean`) |
| C61 | the decoder and traversal, against a definition of the format that mentions no code (`Spec/Format.lean`: `Document`) | from the definition to the representation on which C20, C24 and C30 rest (`Proofs/Format.lean`), then as there; not covered by the definition: pointers out of the document, pointers to pointers except at the root, varints longer than needed |
| C62 | the encoder, against the same definition | the simulation of C20; every scalar encoding is shown to be in the format where it is shown to be readable (`Proofs/Scalar.lean`, `Proofs/FormatWrite.lean`) |
| C63 | `scope.rs`, split into steps at every access of the lock, the map and the reference counts (`Model/Threads.lean`) | invariants over every run: exclusion, the strong count of a scope is the number of its `Arc`s, and the book of C35 is kept at every step (`Proofs/Threads.lean`); the instant of a lookup is the one of `Weak::upgrade` |
| C64 | the lookups of `value/dict.rs`, with comparisons and pointers followed counted (`Model/LookupCost.lean`) | counting erased gives the lookup; invariant of the binary search; slots that lead to a value in at most one step are kept by reaching, and the definition of the format has no others; refuted by chains of pointers |
| C65 | the reader, with the rule that a reference is good for its own bytes only (`Model/Borrow.lean`) | the rule changes results to undefined behaviour only; refuted at every pointer and every iterator; documents of the format have references that cover their values (`Direct`, `Proofs/LookupCost.lean`) |
| C66 | programs of calls on variables, with the `Arc`s of tables, buffers and scopes, and the lifetimes that the signatures state (`Model/Lifetimes.lean`) | invariant: each strong count is the number of `Arc`s; invariant: where the keys handed out point to; refuted for shared keys by a program for every document |
| C67 | offsets of all reachable values; `is_mutable` (`Model/Constants.lean`) | parity is kept by pointers, elements and lookups, induction on the way to the value; `is_mutable` refuted for every document at an odd address and for mutable collections at an even one |
| C68 | the text of `{:?}` for values, arrays, dicts and types (`Model/Debug.lean`), the text of floats and the set of printable characters left open | `Spec/Text.lean` says which text is which document; texts are split uniquely (numbers, escapes, quotes, lists), induction on the document; formatting and traversal visit the same values |
| C69 | `varint::read` as for C01, on any bytes | `Spec/Groups.lean` says which number groups of seven bits are; invariant of the loop (the number so far, modulo 2^64); refuted for numbers over 64 bits |
| C70 | the decoder with the payloads of its errors (`Model/Value.lean`), checked build | `Spec/Fault.lean` says what each error means for the bytes; induction over pointers and validation, with what a value may not go beyond as the invariant; other build by C17; refuted for counts of dicts from 2^63 without overflow checks |
| C71 | `finish_value` (`Model/Macro.lean`) and the reader | debug: C47 and C09, for any state of the encoder; release: the same for outputs that would be accepted (C16, C17); refuted for release, with a family of numbers |
| C72 | `Dict::get` and dict iteration (`Model/Dict.lean`) on any accepted bytes | induction over the binary search, backwards from a hit; for dicts in order the search invariant of C24, now without the encoder or the format; refuted for keys out of order, codes among texts, and texts that are in the table |
| C73 | the conversions of `Value` for the float types, over what the bits of `f32` and `f64` stand for (`Spec/Float.lean`); that the machine's conversions are IEEE's is a hypothesis (`Ieee`), shown to be satisfiable (`ieeeOps_ieee`) | from the bytes to the number as the format defines it, then the law of the conversion; refuted for `to_bool` below 1 and `to_unsigned_int` from `2^63` on and below 0, each for all such numbers |
| C74 | the recursive readers with a bound on nested calls: `Val.debug`, `Slot.newFromFleece`, `Enc.writeFleece` | induction over the depth: a traversal that succeeds at all succeeds exactly with `Tree.height` calls, and each reader follows the traversal; bounded by the depth of decoding and so by the bytes (C54); refuted for any fixed bound |
| C75 | `Display` of all errors (`Model/Errors.lean`) | numbers and names end before the words that follow, so a text splits in one way; refuted for `Error::Message`, which can be any text |
| C76 | `readTree` on any bytes against `Spec/Liberal.lean`, which extends `Spec/Format.lean` by seven oddities | soundness by the recursion of the reader, completeness by induction over what the bytes say; for each oddity a document that needs it |
| C77 | `Enc.acts`: the calls of the encoder with `set_shared_keys` in between | the simulation of C20 is kept by tables that go on from the one in use, in small documents and in roomy ones up to 1 GiB, and so are the conditions of C30 for `get` if the encoder has a table from the start or the keys written before it are not in it; for others, families of sessions that lose or rename a key, and one where `get` misses it |
| C78 | `SharedKeys.fromStateBytes` on any bytes against `load`, which looks only at what the elements are | the loop along the iterator of an accepted array (C13's lemmas); that `from_bytes` is safe (C07) |
| C79 | the text of `{:#?}` (`Model/DebugAlt.lean`: the builders of `core::fmt` in their alternate mode, with `PadAdapter`) | both modes write one `Doc` (`Spec/Lines.lean`); an adapter moves a text one level in; `joined` is read off the lines by induction |
| C80 | `write_state` and `from_state_value` (`Model/State.lean`, `Model/SharedKeys.lean`) inside other documents | the loop is the calls, for every encoder state; the part of the specified document (`Within`) is kept by every later call and by closing; with C20 (small documents, and roomy ones of up to 1 GiB) it is read back, and is reachable |
| C81 | `iter` and `Debug` of a table (`Model/KeysDebug.lean`) | the pairs are the entries (WF, Tidy); the text is read back from the left with the lemmas of C68; the lines are a `Doc` as in C79 |

## Trusted base

**Lean.** The kernel of Lean 4.33.0. No axioms of our own, no `sorry`, no
`native_decide`, no `bv_decide`, no Mathlib. `decide +kernel` is used for full finite tables and for computing concrete
counterexamples and examples.

**Axioms of the theorems in `MANIFEST.json`** (`#print axioms`):

* none: `C34_no_table`, `C75_encode`, `C75_refuted`;
* `propext`: `C32_short_keys`, `C67_refuted_mutable`;
* `propext`, `Quot.sound`: `C01_write_is_leb128`, `C02_short_buffer`, `C02_tiny_in_narrow_slot`, `C04_small_partial`, `C05_constants`, `C05_statics`, `C05_written`, `C06_release_recurses_forever`, `C07_release_reads_outside`, `C08_panics`, `C10_panics`, `C12_get_at_len_reads_outside`, `C12_get_at_len`, `C17_profiles_agree`, `C18_refuted_capacity`, `C18_refuted`, `C19_refuted_end_array`, `C19_refuted_write_key`, `C20_refuted_key`, `C21_refuted_data`, `C23_agree`, `C23_encoder_order`, `C23_reader_order`, `C23_stored_key`, `C23_total_order`, `C24_get`, `C24_refuted`, `C25_refuted_shared`, `C25_refuted`, `C27_refused`, `C28_refuted`, `C29_load_not_array`, `C29_load_refused`, `C29_load`, `C29_refuted_short`, `C30_refuted_absent`, `C30_refuted_full`, `C30_refuted_long`, `C32_refuted`, `C36_refuted_bytes`, `C36_refuted_finish`, `C36_refuted`, `C38_refuted`, `C39_key_no_bytes`, `C39_scalar`, `C40_nested_partial`, `C40_root_partial`, `C40_slot_partial`, `C40_value_partial`, `C41_refuted`, `C42_refuted`, `C44_unchecked`, `C45_panics`, `C47_clone_errors`, `C47_empty_get`, `C47_empty`, `C47_finish_value_checks`, `C47_refuted`, `C47_typed_root_error`, `C47_typed_root`, `C48_refuted_string`, `C50_access`, `C50_mut_array_partial`, `C50_refuted_mut_array`, `C50_resumes`, `C51_order`, `C53_counts`, `C55_array_at_len`, `C55_elements`, `C56_refuted`, `C57_refuted_duplicate`, `C57_refuted_release`, `C57_refuted_shared`, `C59_refuted_number`, `C59_refuted_string`, `C61_refuted`, `C63_bounded`, `C63_forever`, `C63_no_panic`, `C63_poison`, `C64_counts`, `C64_pointers_tight`, `C65_agrees`, `C65_from_bytes_unchecked`, `C65_pointer`, `C65_refuted_get`, `C65_refuted_number`, `C66_agrees`, `C66_refuted`, `C69_cases`, `C69_reads_partial`, `C69_refuted_document`, `C69_refuted`, `C70_refuted_count`, `C70_refuted_release`, `C72_hit_with`, `C72_hit`, `C72_refuted_mixed`, `C72_refuted_order`, `C72_refuted_table`, `C76_needs_external`, `C77_refuted_lost`, `C78_refused`, `C78_refuted_bytes`, `C78_refuted`, `C78_strings`, `C80_calls`;
* all others: `propext`, `Classical.choice`, `Quot.sound`.

**The reading of the Rust code.** The definitions in `lean/Verif/Model` were written by hand from the text of `/repo/src`. Each
carries the file and lines it renders. Nothing was compiled or run.

**Behaviour of the standard library and of other crates**, taken from their documentation (their sources are not available here):

* `Vec` is a list; allocation does not fail, except that `begin_array` with a capacity of more than `isize::MAX` bytes panics.
* Pointers to slices compare by address, then by length; `addr_eq` and `cast::<()>` leave the address. Buffers in memory together do
  not overlap (C51).
* `slice::sort_unstable_by` returns some sorted permutation (structure `Sorter`; theorems quantify over all of them).
* `BTreeMap` is a list sorted by key. `rangemap::RangeMap` is a map from addresses whose `insert` panics on an empty range.
* `crossbeam_utils::ShardedLock`: a panic while it is held for writing poisons it; it is held for writing by one thread alone. Except in
  C63, calls on the scope registry are atomic, so histories are sequences of calls (C63 shows that this loses nothing), and the
  registry does not change during a reader's call. In C63 the steps of all threads are in one order. `Arc` counts as documented;
  `Arc<SharedKeys>` does not change while it is shared.
* `fixedstr::zstr<16>` keeps 15 bytes and ends at the first NUL; `as_str` of a name cut inside a character is modelled as a panic.
  `folklore::HashMap` keeps its entries in order of insertion.
* UTF-8: the model has its own decoder, proved to invert Lean's encoder and to accept nothing else (`Proofs/Utf8.lean`). Which
  characters above ASCII are alphanumeric is a parameter (`Cfg.chars`).
* Floating point is a parameter (`FloatOps`, `NumOps`): the conversions are arbitrary functions. Where a theorem needs a law it is
  a hypothesis: C73 for all of them (`Ieee`, met by `ieeeOps`), C05 for `to_float` of an `f32` (narrowing the widened bits gives them back), C38 for the floats in the value
  (`SVal.Returns`), C43 (`widen (narrow (widen b)) = widen b`).
* `core::fmt` (C68): integers in decimal, `debug_tuple`, `debug_list`, `debug_map` and the escapes of `<str as Debug>` are modelled
  as documented (in C75 also `{:#x}` and the derived `Debug` of `KeyType`); the text of an `f64` and the set of characters printed as they are form a parameter (`Printer`). A float's text
  contains no `)` (hypothesis of `C68_faithful`).
* `serde` and `serde_derive`: the calls made by `Serialize` implementations (`Model/Ser.lean`) and the visitors of `Deserialize`
  ones (`Model/De.lean`), without attributes. Types are those of `Ty`, including recursive ones through `Ty.named`; `Box` is
  transparent.

**The machine.** 64-bit addresses; a buffer lies at `base .. base + len`, with `base + len < 2^64` where a theorem says so. The
build profile is one flag, `dbg`: overflow checks and debug assertions together. Address arithmetic below zero is not modelled as
wrapping. Stack depth is unbounded; recursion that does not end is `diverge`.

**Undefined behaviour.** `ub` is a read, or a slice formed, outside the buffer; in C66 a read of memory that was given back (what the
compiler accepts is modelled by hand there); in C52 also a pointer moved out of it; in C65 also a
read outside the bytes of the reference that the pointer was got from. Of the aliasing rules C65 models the ranges of bytes only,
and only of the reader. Not modelled: `transmute` between a slice and a struct that wraps it.

## What is modelled

"Delegates" are functions whose body is one call of a function that is modelled, and constructors of empty things.

| file | model | left out |
|------|-------|----------|
| `value/varint.rs` | `Model/Varint.lean` | its tests |
| `value/mod.rs` | `Model/Value.lean`; `Debug` in `Model/Debug.lean`, `Model/DebugAlt.lean`; `clone_from_bytes*` in `Model/Macro.lean`; the constants and `is_mutable` in `Model/Constants.lean` | `len`, `is_empty` of the slice |
| `value/array.rs` | `Model/Value.lean`, `Model/Index.lean`; `Debug` in `Model/Debug.lean`, `Model/DebugAlt.lean` | delegates |
| `value/dict.rs` | `Model/Value.lean`, `Model/Dict.lean`, `Model/Index.lean`; through the registry in `Model/Scoped.lean`; `Debug` in `Model/Debug.lean`, `Model/DebugAlt.lean` | delegates; lifetimes in `Model/Lifetimes.lean` |
| `value/pointer.rs`, `value/sized.rs` | `Model/Value.lean`, `Model/Encodable.lean`; pointer arithmetic in `Model/Arith.lean`, references in `Model/Borrow.lean` | |
| `encoder/encodable.rs` | `Model/Encodable.lean` | |
| `encoder/mod.rs`, `encoder/value_stack.rs` | `Model/Encoder.lean`, `Model/WriteFleece.lean`, `Model/Macro.lean` (`finish_value`) | delegates |
| `lib.rs` | `fleece!` in `Model/Macro.lean`: the calls it expands to | macro parsing |
| `shared_keys.rs` | `Model/SharedKeys.lean`, `Model/State.lean`, `Model/KeysDebug.lean` | `clone` (behaviour of the map) |
| `scope.rs` | `Model/Scope.lean`, `Model/Scoped.lean`, and with several threads `Model/Threads.lean` | the `Arc`s that `<ScopeEntry as PartialEq>::eq` makes for a moment inside `insert`; weak memory orders (the steps of all threads are in one order) |
| `mutable.rs`, `mutable/*.rs` | `Model/Mutable.lean`, `Model/Index.lean`; iterators in `Model/Iters.lean` | delegates (`Ref`, `From`); `PartialEq`/`PartialOrd` between `Key` and `Value`, which nothing calls |
| `alloced.rs` | `Model/Macro.lean` (`Alloced` is a buffer and a position in it), `Model/Owned.lean` | `Debug`, delegates |
| `ser.rs` | `Model/Ser.lean`; error texts in `Model/Errors.lean` | delegates |
| `de.rs` | `Model/De.lean`; `size_hint` in `Model/Iters.lean`; error texts in `Model/Errors.lean` | `is_human_readable` |
| `error.rs`, `*/error.rs` | `Model/Errors.lean` | `Debug` (derived), conversions (constructors) |

## Where the code does not do what it should

Theorem names in parentheses. The properties concerned have `_partial` theorems for what does hold.

1. **Signed integers** outside -2048..2047 written to a collection: if the low 16 bits are in that range they are written instead
   (65541 becomes 5), otherwise the writers of `i16` and `i64` call each other until the stack overflows
   (`C03_signed_truncated`, `C03_signed_diverges`, `C03_write_value_diverges`). Hence `C33_refuted`, `C34_int_lost`,
   `C37_int_lost`, `C39_refuted`, `C44_refuted`.
2. **Unsigned integers**: every `u16` above 2047 panics (`C04_u16_panics`); a `u64` above 2047 whose high bytes are not zero as far as its
   low ones are (`WordKept`) reads back as another number, panics, or is written as one byte (`C04_u64_corrupted`, `C04_u64_nothing_left`).
3. **Strings, data and keys of at most one byte** do not survive in a 2-byte slot, because writing it clears a tag bit
   (`C02_tiny_in_narrow_slot`): `C20_refuted_string`, `C20_refuted_key`, `C21_refuted_data`, `C24_refuted`, `C25_refuted`,
   `C29_refuted_short`. In documents up to 16 KiB no string or data of that kind survives (`C60_partial`),
   and without shared keys no such key either: the dict loses it and every entry that sorts after it (`C60_lossy_partial`, `C60_keys_partial`). With shared
   keys it is read as the shared key with the number it turns into, so that `{"ab": 1, "": 2}` becomes
   `{"ab": 1, "ab": 2}` (`C60_key_taken`, `C60_shared_lossy_partial`).
4. **Width of collections**: decided before the header and the slots are written, and for keys from the position in the output
   instead of the distance. Some documents of about 16 KiB, and dicts whose key is far from them, are rejected by `from_bytes`
   (`C21_refuted_width`, `C21_refuted_dict_key`, `C29_refuted_width`).
5. **Large documents**: pointers over 1 to 4 GiB panic, over 4 GiB they are truncated (`C40_refuted_panic`,
   `C40_refuted_truncated`).
6. **`Array::get(len)`** never returns `None` (`C12_get_at_len`); it can read outside the buffer
   (`C12_get_at_len_reads_outside`, `C47_empty_get`); nor does `array[len]` panic (`C55_array_at_len`).
7. **`from_bytes` on untrusted data** panics on some inputs (`C08_panics`); in builds without overflow checks it recurses forever on
   one input and reads outside the buffer on another (`C06_release_recurses_forever`, `C07_release_reads_outside`). For a pointer
   that leads out of the data it moves a raw pointer there before it checks, which is undefined behaviour
   (`C52_moves_before_check`). A value is validated again for every pointer to it, so that 248 bytes can take 2^42 calls
   (`C53_doubling`, `C53_not_linear`), and there is no limit to the depth of the recursion (`C54_any_depth`).
   Pointers to pointers are accepted at any length, and a lookup follows them again for every key it compares (`C64_refuted`).
8. **Accessors on accepted documents**: conversions of floats with too few bytes and lookups in dicts with keys that are not strings
   panic (`C10_panics`), so does `Debug` (`C45_panics`). `to_int` of negative numbers of fewer than 8 bytes is positive,
   `to_double` of numbers from `2^63` negative, and the unsigned number 0 is `true` (`C46_negative`, `C46_large`, `C46_refuted`).
9. **Rejected encoder calls** have effects: `end_array` on an open dict discards it, `write_key` after the end writes bytes
   (`C18_refuted`, `C19_refuted_end_array`, `C19_refuted_write_key`). `begin_array` with a capacity from `2^61` panics
   (`C18_refuted_capacity`).
10. **Shared keys**: keys of 16 bytes are cut to 15 (`C28_refuted`, `C32_refuted`, `C32_confused`); longer keys are taken for their
    first 15 bytes in lookups (`C30_refuted_long`, `C30_refuted_absent`); when the table is full, keys that have a code are
    written as strings and not found (`C30_refuted_full`). Dicts with shared keys iterate in the order of the codes
    (`C25_refuted_shared`).
11. **Scopes**: `Scope::new` of empty data, or of data on which `from_bytes` panics, poisons the registry of the process
    (`C36_refuted`, `C36_refuted_finish`, `C36_refuted_bytes`). Of two scopes over one `Arc` the older is never found again
    (`C35_shared_buffer`). After `remove`, or when only the root is still held, dicts with shared keys read as empty
    (`C49_lost`, `C49_refuted`).
12. **serde**: unit structs, newtype structs over nested sequences, `Some(None)` and one-byte field or variant names do not come back
    (`C38_refuted`); scalars at top level are refused (`C39_scalar`). Reading an enum from an array that is too short reads past
    its end, outside the buffer or without end (`C41_refuted`, `C42_refuted`, `C43_refuted`).
13. **`finish_value`** panics if nothing was written; in debug builds also for an array with one byte of data (`C47_refuted`).
14. **`new_to_vec`** on a buffer with an odd number of bytes: `[true]` reads as 256, `["ab"]` is rejected (`C48_refuted`,
    `C48_refuted_string`).
15. **Iterators**: `size_hint` of a mutable array is too large once an item has been taken (`C50_refuted_mut_array`); that of a dict
    is too large when a shared key cannot be decoded, where the loop ends (`C50_refuted_dict`) and a further `next` takes a value
    for a key (`C50_resumes`).
16. **Indexing mutable collections** panics where the element is an array or a dict (`C55_nested_panics`).
17. **`get_with_shared_keys`** does not find the keys of a dict that was written without shared keys if they are in the table
    (`C56_blind`, `C56_refuted_document`, `C56_refuted`).
18. **References**: following a pointer, and iterating, reads outside the bytes of the reference it starts from, which is undefined
    behaviour under Stacked Borrows (`C65_pointer`, `C65_from_bytes`, `C65_from_bytes_unchecked`, `C65_iter`); a root may be larger than the
    reference to it (`C65_refuted_get`, `C65_refuted_number`).
19. **Output that depends on the sort or the build**: a key twice in a dict, 16-byte shared keys (`C57_refuted_duplicate`,
    `C57_refuted_shared`); a number that is written as `0xFF` in release builds only (`C57_refuted_release`).
20. **Different documents with the same bytes** (`C59_refuted_string`, `C59_refuted_number`).
21. **Keys outlive their table** (C66). `for (key, _) in dict` gives `key` the lifetime of the dict. A shared key is in the table of
    shared keys, though, which the iterator and the scope own. After both are dropped the key is a dangling reference, while the
    document can still be held: `Scope::root` shares the buffer only. No `unsafe` is needed.
22. **`fleece!`**, read off the macro's text and not proved: an array directly in an array does not compile (`begin_array` lacks its
    argument), and `fleece![]` matches the rule for dicts.
23. **`is_mutable` looks at the address**: true of every value of a document whose buffer starts at an odd address, and of the values
    of mutable collections only if the allocator happens to put them at one (`C67_refuted`, `C67_refuted_mutable`). Nothing in the
    crate calls it.
24. **Length prefixes over 64 bits are read as something else** (`C69_refuted`, `C69_long`). The check in varint.rs:26 compares `i` with
    `MAX_LEN` which `i`, at most `MAX_LEN - 1`, never is. A string that announces 2^64 + 5 bytes is accepted as one
    of five (`C69_refuted_document`). With eleven bytes the shift overflows: a panic, or without overflow checks another number.
25. **Errors with a wrong count**: without overflow checks a dict that announces 2^63 + 100 entries is refused for 200 slots that do
    not fit (`C70_refuted_release`); an array that announces 2^64 + 100 elements is refused for 100 in any build (`C70_refuted_count`).
26. **Undefined behaviour without `unsafe`**: in a release build, write an array with the number `2^57` (or any other nonzero `u64` whose last
    57 bits are zero), call `finish_value`, and `get(0)` or iterate: both read outside the buffer (`C71_refuted`). The number is written
    as the byte `0xFF`, which is a pointer, and `finish_value` does not check.
27. **Lookup and iteration can differ on accepted documents**: `from_bytes` does not look at keys. With keys out of order iteration shows
    entries that `get` does not find (`C72_refuted_order`); with codes among texts `get` finds entries that iteration does not show
    (`C72_refuted_mixed`); with texts that have a code in the table they are shown but not found (`C72_refuted_table`).
28. **Floats as truth values and unsigned numbers**: `to_bool` goes through `to_int`, so `0.5` and every other number between -1 and 1
    is `false` (`C73_fraction`); `to_unsigned_int` goes through `to_int` too, so every number from `2^63` on is `2^63 - 1`
    (`C73_large`) and `-1.0` is `2^64 - 1` (`C73_below`).
29. **Accepted documents can overflow the stack later**: formatting, converting and copying recurse as deep as the document, which is
    bounded only by its size: `4 * d + 6` bytes are enough for more than `d` nested calls (`C74_any_depth`).
30. **Shared keys given late**: `set_shared_keys` replaces the table without looking at what has been written. After `{k: ...` with one
    table, an empty one makes the entry disappear, and one in which the code is another key's renames it; all calls succeed (C77). With
    `"aa"` written as text and then a table that has it, `get("aa")` finds nothing though iteration shows it.
31. **Loading shared keys panics or takes anything**: `from_state_bytes` of the array `[null]` panics at a `debug_assert`, and without it gives a table
    with an empty key instead of `None` (`C78_refuted`); it panics wherever `from_bytes` does (`C78_refuted_bytes`).

## Testing the theorems

`seeded/LOG.jsonl` records the model mutations tried in a scratch copy: the definition edited, the edit, the claim it breaks, the
theorems that failed, and what was tightened when none did.

## Testing the model

`Verif/Conformance.lean` makes the repository's own tests (src/tests.rs, src/value/varint.rs, tests/serde.rs) on the model, with the
same inputs and expectations; in one of them the model writes 1person.fleece byte for byte. Left out are the tests that read
1000people.fleece, which is too large for lists. They are evaluated (`#guard`), not proved, and no theorem depends on them.
