{"id": "C01", "title": "Length prefixes round-trip", "statement": "Every length below 2^64 that the encoder writes as a variable-length prefix (of a string, data blob, array or dict) is decoded back to the same length, uses exactly the number of bytes the encoder reserved for it (at most 10), and the bytes that follow it do not influence the result.", "quantifier": "every u64 length and every suffix of following bytes", "why_tests_cant": "2^64 lengths times every continuation; the repo's test tries four values", "anchors": ["src/value/varint.rs: read, write, size_required"]}
{"id": "C02", "title": "Strings and binary data of any length round-trip", "statement": "For every string / byte slice, encoding it into a slot of exactly its announced size succeeds and reading the result with to_str / to_data returns the same bytes, whatever bytes follow it in the document.", "quantifier": "every string and every byte slice of every length (all four length classes 0, 1, 2..14, >=15)", "why_tests_cant": "unbounded lengths; three encodings with boundaries at 1/2, 14/15 and every varint width", "anchors": ["src/encoder/encodable.rs: write_fleece_string, impl Encodable for [u8]/str", "src/value/mod.rs: Value::_get_data, to_str, to_data"]}
{"id": "C03", "title": "Signed integers are written and read back unchanged", "statement": "For every i8/i16/i32/i64 value n, Encoder::write_value(n) succeeds and the element decodes (to_int) to n. (False of the code outside -2048..=2047: the exact behaviour - silent 16-bit truncation or unbounded recursion - is characterised.)", "quantifier": "every signed integer value of every supported width", "why_tests_cant": "2^64 values; failures sit outside the tiny window tests use", "anchors": ["src/encoder/encodable.rs: impl Encodable for i64/i32/i16/i8", "src/value/mod.rs: to_short, to_int"]}
{"id": "C04", "title": "Unsigned integers are written and read back unchanged", "statement": "For every u8/u16/u32/u64 value n, Encoder::write_value(n) succeeds and the element decodes (to_unsigned_int) to n. (False of the code for u16 > 2047, which panics, and for u64 values whose high bytes are dropped; the exact set of values that survive is characterised.)", "quantifier": "every unsigned integer value of every supported width", "why_tests_cant": "2^64 values; corruption depends on trailing zero bits and magnitude", "anchors": ["src/encoder/encodable.rs: impl Encodable for u64/u32/u16/u8", "src/value/mod.rs: to_int, to_unsigned_int"]}
{"id": "C05", "title": "Floats and constants are written and read back bit-exactly", "statement": "For every f64 bit pattern, and every f32 bit pattern, the element written by write_value decodes to the same stored bits with the matching type; true/false/null/undefined decode to themselves.", "quantifier": "every 32-bit and 64-bit float pattern, each constant, narrow and wide collections", "why_tests_cant": "2^64 bit patterns including NaNs and infinities", "anchors": ["src/encoder/encodable.rs: impl Encodable for f32/f64/bool/NullValue/UndefinedValue", "src/value/mod.rs: to_double"]}
{"id": "C06", "title": "Decoding always terminates", "statement": "Value::from_bytes terminates on every byte string: no pointer cycle, self-containing array or hostile length makes it loop or recurse forever. (False of a build without overflow checks: a wrapping element count makes it recurse forever.)", "quantifier": "every byte string, every load address, both build profiles", "why_tests_cant": "adversarial cyclic pointer graphs cannot be enumerated", "anchors": ["src/value/mod.rs: from_bytes, _validate", "src/value/array.rs: Array::validate", "src/value/pointer.rs: deref_checked"]}
{"id": "C07", "title": "Decoding never reads outside its input", "statement": "Value::from_bytes, on any byte string whatsoever, never reads or forms a slice outside that byte string. (False of a build without overflow checks, by a wrapping element count.)", "quantifier": "every byte string, every load address, both build profiles", "why_tests_cant": "memory safety for hostile inputs of any size; unsafe pointer arithmetic throughout", "anchors": ["src/value/mod.rs: from_bytes, _validate, _from_raw", "src/value/array.rs: Array::validate", "src/value/pointer.rs: deref_checked"]}
{"id": "C08", "title": "Decoding reports malformed data as an error", "statement": "Value::from_bytes returns Ok or Err for every byte string and never panics. (False of the code: a string whose length runs past its slot, an external pointer, an over-long varint panic. The inputs rejected cleanly are delimited.)", "quantifier": "every byte string", "why_tests_cant": "hostile inputs of any size", "anchors": ["src/value/mod.rs: _get_data, required_size, _from_raw", "src/value/pointer.rs: deref_checked (unimplemented!)"]}
{"id": "C09", "title": "Accepted documents can be traversed without leaving the buffer", "statement": "If from_bytes accepts a byte string, every value reachable from the root through array iteration, array index below len, dict iteration, Dict::first and dict lookup can be inspected with every accessor (value_type, len, to_int, to_str, to_data, to_double, as_array, as_dict, iter, get) with no read outside the byte string.", "quantifier": "every byte string accepted by from_bytes, every path to a value, every accessor", "why_tests_cant": "the unsafe accessors rely on a global invariant established once by validation; all accepted inputs and all paths", "anchors": ["src/value/array.rs: get_unchecked, Iter::next, validate", "src/value/pointer.rs: deref_unchecked", "src/value/dict.rs: _get, _get_unchecked", "src/value/mod.rs: to_int"]}
{"id": "C10", "title": "Accessors do not panic on accepted documents", "statement": "If from_bytes accepts a byte string then value_type, len, iteration, to_str, to_data, and to_int/to_short/to_bool of values that are not floats return normally on any reachable value. (For the number conversions of floats, and for Dict::get, this is false of the code: accepted documents exist on which they panic, because validation does not check that a float fits its two- or four-byte slot nor that dict keys are strings; the others are proved.)", "quantifier": "every accepted byte string, every reachable value", "why_tests_cant": "all accepted inputs, all paths", "anchors": ["src/value/mod.rs: to_double, to_int, to_str, dict_key_cmp", "src/value/array.rs: Iter"]}
{"id": "C11", "title": "An accepted document is a finite tree", "statement": "If from_bytes accepts a byte string, a complete recursive traversal of the value it returns terminates: following pointers always moves strictly backwards, so no value contains itself.", "quantifier": "every accepted byte string", "why_tests_cant": "cycles can be hidden behind arbitrary chains of pointers", "anchors": ["src/value/mod.rs: _validate", "src/value/pointer.rs", "src/value/array.rs"]}
{"id": "C12", "title": "Array::get is Some exactly below len", "statement": "On an accepted document array.get(i) is Some for i < len and None otherwise. (False of the code at i = len: it returns Some and reads one slot past the array, even past the buffer.)", "quantifier": "every accepted document, every array in it, every index", "why_tests_cant": "all indices, all documents", "anchors": ["src/value/array.rs: Array::get, get_unchecked"]}
{"id": "C13", "title": "Array iteration agrees with len and indexing", "statement": "Iterating an array of an accepted document yields exactly len values and the i-th is the value get(i) returns; size_hint equals the number of values still to come at every step.", "quantifier": "every accepted document, every array, every step of the iteration", "why_tests_cant": "iterator state must be right at each of unboundedly many steps", "anchors": ["src/value/array.rs: Iter::next, size_hint, len, get_unchecked"]}
{"id": "C14", "title": "Decoding does not depend on where the bytes are", "statement": "Whether from_bytes accepts, which error it gives, and every relative position it returns are the same for any two buffers with equal contents, so clone_from_bytes and from_bytes give the same document.", "quantifier": "every byte string, every pair of load addresses (at which no address computation overflows)", "why_tests_cant": "addresses take part in the bounds checks", "anchors": ["src/value/mod.rs: from_bytes, clone_from_bytes", "src/value/array.rs: validate"]}
{"id": "C15", "title": "Prepending bytes leaves a document readable", "statement": "If from_bytes accepts d (longer than a bare two-byte scalar), then for every even-length prefix p it accepts p ++ d and returns the same value shifted by |p|: encoding onto an existing buffer is safe for the reader.", "quantifier": "every accepted document and every even-length prefix", "why_tests_cant": "unbounded prefixes", "anchors": ["src/value/mod.rs: _find_root, from_bytes", "src/encoder/mod.rs: new_to_vec"]}
{"id": "C16", "title": "Unchecked decoding agrees with checked decoding", "statement": "Whenever from_bytes accepts a byte string, from_bytes_unchecked on it returns the same value without panicking or reading outside the buffer.", "quantifier": "every accepted byte string", "why_tests_cant": "used by finish_value in release builds on every output", "anchors": ["src/value/mod.rs: from_bytes_unchecked", "src/value/pointer.rs: deref_unchecked"]}
{"id": "C17", "title": "Debug and release builds decode alike", "statement": "For every byte string on which the overflow-checked build does not panic, the unchecked build gives the same result.", "quantifier": "every byte string, every load address", "why_tests_cant": "tests run in one profile only", "anchors": ["src/value/mod.rs", "src/value/array.rs", "src/value/varint.rs"]}
{"id": "C18", "title": "The encoder accepts exactly the documented call sequences", "statement": "At every point of every sequence of Encoder calls, begin_array/begin_dict/write_key/write_value/end_array/end_dict succeed exactly when the documentation says so: keys only in an open dict not already waiting for a value, values only in an open array or a dict that has a key, end_* only for the matching innermost open collection (a dict not waiting for a value), nothing after the top-level collection is closed; the error otherwise is the documented one.", "quantifier": "every finite sequence of encoder calls", "why_tests_cant": "unboundedly long call histories", "anchors": ["src/encoder/mod.rs: write_key, write_value, begin_array, end_array, begin_dict, end_dict", "src/encoder/value_stack.rs"]}
{"id": "C19", "title": "A rejected call changes nothing that will be encoded", "statement": "When an Encoder call returns an error the document finally produced is the one that would have been produced without that call. (False of the code for end_array called while a dict is open, which discards the open dict, and for write_key called after the top-level collection is closed, which appends the key to the output and makes the document unreadable. Proved for the other calls.)", "quantifier": "every call sequence, every rejected call in it", "why_tests_cant": "unboundedly long histories", "anchors": ["src/encoder/mod.rs: end_array, _write_key_pointer", "src/encoder/value_stack.rs: pop, push_value"]}
{"id": "C20", "title": "Documents round-trip through the encoder", "statement": "For every sequence of successful encoder calls that builds a document, decoding the bytes of finish() gives back that document: same nesting, same array order, same scalars, dict entries equal as a set of key/value pairs. (False of the code for strings, data and keys of at most one byte in narrow collections, and for documents in which a pointer distance crosses 16 KiB while the collection is closed; proved in all other cases.)", "quantifier": "every tree of arrays, dicts and scalars of any depth and size, every build order", "why_tests_cant": "unbounded nesting and sizes; pointer offsets depend on everything written before", "anchors": ["src/encoder/mod.rs", "src/encoder/encodable.rs", "src/value/mod.rs", "src/value/array.rs", "src/value/dict.rs"]}
{"id": "C21", "title": "Whatever the encoder produces is accepted by the decoder", "statement": "The bytes of finish() after any call sequence that opened a collection are accepted by from_bytes. (False of the code: one-byte data in a narrow array; an array holding one 16379-byte string, which is written with a 4-byte pointer in a 2-byte-wide array; a dict whose key was written more than 16 KiB before the dict is closed.)", "quantifier": "every call sequence", "why_tests_cant": "sizes near the 16 KiB limit only", "anchors": ["src/encoder/mod.rs: _array_should_be_wide, _dict_should_be_wide, _write", "src/value/mod.rs: from_bytes"]}
{"id": "C22", "title": "Output is always even-sized and append-only", "statement": "After every call the output buffer has even length and extends the previous output; nothing already written is changed, so offsets handed out earlier stay valid; finish() closes whatever is open, dropping a dangling key.", "quantifier": "every call sequence from an even-sized initial buffer", "why_tests_cant": "invariant over unbounded histories", "anchors": ["src/encoder/mod.rs: _write, _end, finish"]}
{"id": "C23", "title": "Encoder and reader order dict keys the same way", "statement": "The order by which the encoder sorts dict keys and the order by which the reader's binary search compares a probe with a stored key agree on all pairs of keys (shared-integer keys first, in numeric order; then strings in byte order), and it is a total order.", "quantifier": "all pairs and triples of keys, inline, out-of-line and shared", "why_tests_cant": "all pairs of strings; the code only has a comment asking for it", "anchors": ["src/encoder/mod.rs: Encoder::dict_key_cmp", "src/value/mod.rs: Value::dict_key_cmp"]}
{"id": "C24", "title": "Dict lookup finds exactly the keys that were written", "statement": "For a dict written with distinct keys, dict.get(k) returns the value written for k, and None for every key not written. (False of the code for one-byte keys in narrow dicts.)", "quantifier": "every set of distinct keys, every probe key", "why_tests_cant": "binary search over arbitrarily many keys", "anchors": ["src/value/dict.rs: Dict::get, _get", "src/encoder/mod.rs: end_dict"]}
{"id": "C25", "title": "Dict iteration yields every pair once in key order", "statement": "Iterating a dict that was written yields each key/value pair exactly once, in increasing byte order of the keys, len of them in total. (With shared keys the order is by code and then by bytes; false of the code for one-byte keys.)", "quantifier": "every written dict", "why_tests_cant": "unbounded sizes", "anchors": ["src/value/dict.rs: Iter, SharedKeyIter, len", "src/encoder/mod.rs: end_dict"]}
{"id": "C26", "title": "Collections of any size keep their length", "statement": "An array (dict) with n elements (pairs) decodes with len() = n for every n < 2^63, below, at and above the 2047 limit of the inline count, narrow and wide, and its elements start where the reader looks for them.", "quantifier": "every element count, both widths", "why_tests_cant": "header switches format at 2047 and at each varint width", "anchors": ["src/encoder/encodable.rs: write_valuestack_collection, value_stack::Array/Dict", "src/value/array.rs: len, first_pos"]}
{"id": "C27", "title": "Shared-key codes are stable, dense and invertible", "statement": "In every history of insertions SharedKeys gives out codes 0,1,2,... without gaps, never more than 2048, never changes a code once given, encode returns the code given at insertion, decode of a code returns the key stored for it, and inserting an existing key returns its old code (while the table is not full).", "quantifier": "every sequence of encode_and_insert calls", "why_tests_cant": "unbounded histories", "anchors": ["src/shared_keys.rs: SharedKeys::encode, encode_and_insert, decode, len, can_add"]}
{"id": "C28", "title": "Distinct keys never share a code", "statement": "Two different keys accepted by encode_and_insert never get the same code, and decode(encode_and_insert(k)) = k. (False of the code for 16-byte keys, which are cut to 15 bytes; proved up to 15 bytes.)", "quantifier": "every pair of keys, every history", "why_tests_cant": "collisions only among long keys with a common 15-byte prefix", "anchors": ["src/shared_keys.rs: encode_and_insert, MAX_KEY_LEN; fixedstr::zstr<16>"]}
{"id": "C29", "title": "Shared-key state survives saving and loading", "statement": "from_state_bytes(get_state_bytes(sk)) is a SharedKeys with the same codes for the same keys. (False of the code for tables with a one-character name, which load as garbage, and for tables whose names take 16382 or 16383 bytes, which load as None.)", "quantifier": "every SharedKeys reachable by insertions", "why_tests_cant": "up to 2048 keys; encoding width depends on their total size", "anchors": ["src/shared_keys.rs: get_state_bytes, write_state, from_state_bytes, from_state_value"]}
{"id": "C30", "title": "Lookup through shared keys finds what was written", "statement": "A dict encoded with SharedKeys and read with the same SharedKeys gives, for every key written, the value written, and None for other keys. (False of the code for keys longer than 15 bytes that share their first 15 bytes with a key of the table, and for a key written as a string while the table was becoming full: it is in the table but not found.)", "quantifier": "every set of keys, every SharedKeys state", "why_tests_cant": "interaction of table state and dict contents", "anchors": ["src/value/dict.rs: encode_key, get, get_with_shared_keys", "src/encoder/mod.rs: _write_key", "src/shared_keys.rs"]}
{"id": "C31", "title": "MutableArray behaves like a list", "statement": "Every history of push/set/set_array/set_dict/set_fleece/remove on a MutableArray gives the same len, get, get_array, get_dict and iteration results as the same operations on a plain list; set panics exactly when the index is out of range, remove out of range does nothing.", "quantifier": "every operation sequence", "why_tests_cant": "unbounded histories", "anchors": ["src/mutable/array.rs"]}
{"id": "C32", "title": "MutableDict behaves like a map", "statement": "Every history of insert/insert_dict/insert_array/remove on a MutableDict gives the same len, contains_key, get, get_array, get_dict results as a map from strings, and iteration yields each live key exactly once. (With SharedKeys attached this is false for keys longer than 15 bytes that share a prefix in the table; proved otherwise.)", "quantifier": "every operation sequence, with and without SharedKeys", "why_tests_cant": "unbounded histories, all keys", "anchors": ["src/mutable/dict.rs"]}
{"id": "C33", "title": "Scalars stored in mutable collections read back unchanged", "statement": "Any string, data, float, bool, null, undefined or integer stored with insert/push/set is read back unchanged through get, whether it is stored inline (15 bytes) or boxed. (False of the code for signed integers outside -2048..2047 and the unsigned integers that C04 excludes; the scalars that read back are characterised exactly.)", "quantifier": "every scalar value of every size", "why_tests_cant": "inline/boxed boundary at 15 bytes, all values", "anchors": ["src/mutable.rs: ValueSlot::new, value"]}
{"id": "C34", "title": "Converting to a mutable collection preserves contents", "statement": "MutableArray::from / MutableDict::from an encoded collection contains the same elements (recursively) as the source. (False of the code for documents with a signed Int outside -2048..2047: the number is changed or the conversion overflows the stack.)", "quantifier": "every accepted document", "why_tests_cant": "unbounded nesting", "anchors": ["src/mutable.rs: ValueSlot::new_from_fleece", "src/mutable/array.rs: clone_from", "src/mutable/dict.rs: copy_with_shared_keys"]}
{"id": "C35", "title": "Scope lookup finds exactly the live scope that owns the address", "statement": "In every history of creating, removing and dropping scopes over non-overlapping live buffers, Scope::containing(addr) returns the live, un-removed scope whose buffer contains addr, if there is one, and None otherwise; it never returns a dropped scope or one whose buffer does not contain addr, even after memory is reused.", "quantifier": "every history of scope operations and address reuse, every address", "why_tests_cant": "unbounded histories; address reuse is up to the allocator", "anchors": ["src/scope.rs: Scope::new, remove, containing, find_shared_keys"]}
{"id": "C36", "title": "The scope registry cannot be broken by one bad call", "statement": "No call to Scope::new makes later scope operations panic. (False of the code: Scope::new on empty data - e.g. finish_scoped of an encoder nothing was written to - or on data on which Value::from_bytes panics, panics while holding the global lock and poisons it for good.)", "quantifier": "every history of scope operations", "why_tests_cant": "depends on panic while locked", "anchors": ["src/scope.rs: Scope::new, SCOPE_MAP", "src/encoder/mod.rs: finish_scoped"]}
{"id": "C37", "title": "Copying a value into an encoder preserves it", "statement": "Encoder::write_fleece(v) for a valid value v appends a value that decodes to the same tree (same exceptions as for round-trip, plus signed Int).", "quantifier": "every valid value", "why_tests_cant": "unbounded nesting", "anchors": ["src/encoder/mod.rs: write_fleece"]}
{"id": "C38", "title": "Serde values round-trip", "statement": "from_bytes(to_bytes(x)) = x for every x built from structs, enums, sequences, tuples, maps with string keys, options, strings, bytes, bools, floats and integers. (False of the code for unit structs, newtype structs, Some(None), one-byte field and variant names, integers outside the supported ranges and everything C20 excludes.)", "quantifier": "every serde data-model value", "why_tests_cant": "unbounded nesting and all shapes", "anchors": ["src/ser.rs", "src/de.rs"]}
{"id": "C39", "title": "Serde rejects what Fleece cannot hold", "statement": "to_bytes fails with ValueNotCollection for every top-level scalar or unit struct, and with KeyNotString for every map having a key that is not a string or char, wherever it is nested; it never emits bytes for them. (The error is not the documented one when a signed number outside -2048..2047 comes before the key: the stack overflows first.)", "quantifier": "every serde data-model value", "why_tests_cant": "all shapes and nesting", "anchors": ["src/ser.rs: to_bytes, MapKeySerializer"]}
{"id": "C40", "title": "Oversized documents are refused, not corrupted", "statement": "If a pointer offset would exceed what a Fleece pointer can hold the call returns PointerTooLarge and no truncated pointer is emitted. (False of the code: between 1 and 4 GiB closing a collection panics, beyond 4 GiB offsets are truncated to 32 bits before the check.)", "quantifier": "every output size", "why_tests_cant": "needs outputs of gigabytes", "anchors": ["src/encoder/mod.rs: _write, write_value, _finished_collection", "src/value/sized.rs: new_pointer"]}
{"id": "C41", "title": "Deserializing stays in bounds", "statement": "from_bytes::<T> never reads outside the buffer, whatever the input and whatever the type T. (False of the code: an array of fewer elements than an enum needs, read as an enum, is indexed beyond its end; the two bytes 60 00 suffice.)", "quantifier": "every input, every type built from the implementations of serde and derive, both build profiles", "why_tests_cant": "all inputs and all types; out-of-bounds reads show up in no result", "anchors": ["src/de.rs: Deserializer, EnumAccess, SequenceAccess, MapAccess", "src/value/array.rs: get"]}
{"id": "C42", "title": "Deserializing ends", "statement": "from_bytes::<T> returns for every input and every type T, recursive ones included. (False of the code: reading the 6 bytes of a one-element array as a recursive enum follows the root pointer back to the array without end.)", "quantifier": "every input, every type", "why_tests_cant": "termination over all inputs and recursive types", "anchors": ["src/de.rs: EnumAccess"]}
{"id": "C43", "title": "Reading a document as a type gives what the document says", "statement": "Deserializing a document as a type gives the value the document stands for, whoever wrote it and from whatever type: fields in any order, unknown fields ignored, missing Option fields None, numbers converted; if the document stands for no value of the type there is an error. (False of the code: a variant that needs data, written as a bare name, gets whatever follows the array in the buffer as its data.)", "quantifier": "every document, every type (recursive and enum types included), every value", "why_tests_cant": "pairs of all documents and all types; versions of a struct are usually tested one at a time", "anchors": ["src/de.rs: Deserializer, EnumAccess, VariantAccess, MapAccess, SeqAccess", "src/value/array.rs: get", "src/value/dict.rs: get"]}
{"id": "C44", "title": "fleece! builds what is written in it", "statement": "Every literal of the fleece! macro that compiles gives, in both builds, an owned dict or array with exactly the contents of the literal; no Err or None ever meets one of its unwrap_unchecked or unreachable_unchecked calls, which would be undefined behaviour. (False of the code: the integer 5000 never returns, one-byte names vanish, one byte of data panics.)", "quantifier": "every literal (any nesting the macro compiles), both build profiles, every address", "why_tests_cant": "the macro's undefined behaviour depends on encoder calls never failing, which no finite set of literals shows", "anchors": ["src/lib.rs: fleece!", "src/encoder/mod.rs: finish_value"]}
{"id": "C45", "title": "Debug formatting is safe", "statement": "Formatting any value reachable in an accepted document with {:?} never reads outside the buffer, ends, and does not panic. (It panics for floats whose slice is cut short.)", "quantifier": "every accepted document, every reachable value, any shared keys in scope, both build profiles", "why_tests_cant": "all documents; deserializing any enum formats the whole array whether or not an error is reported", "anchors": ["src/value/mod.rs: impl Debug for Value", "src/value/array.rs: impl Debug for Array", "src/value/dict.rs: impl Debug for Dict"]}
{"id": "C46", "title": "Integers are converted to what they are", "statement": "For an integer z of the document, as the format defines it, to_int, to_unsigned_int, to_short, to_unsigned_short, to_double and to_float give z whenever z is in the range of the result, and to_bool says whether z is 0. (False of the code: negative signed numbers of fewer than eight bytes become positive, unsigned numbers from 2^63 become negative floats, unsigned 0 is true.)", "quantifier": "every accepted document, every reachable integer, both build profiles", "why_tests_cant": "the 2^64 numbers in all their widths", "anchors": ["src/value/mod.rs: to_int, to_unsigned_int, to_short, to_unsigned_short, to_double, to_float, to_bool"]}
{"id": "C47", "title": "Owned values hold what they were made from", "statement": "Encoder::finish_value gives an owned value with what was written; Value/Array/Dict::clone_from_bytes accept exactly the documents the borrowed from_bytes accepts and give the same value wherever they are allocated; Array::empty and Dict::empty have no elements under any accessor. (False of the code: finish_value of a fresh encoder panics, finish_value panics in debug builds after one byte of data, Array::empty().get(0) reads outside the constant.)", "quantifier": "every call list, every byte string, every address, both build profiles", "why_tests_cant": "release builds skip the check that debug builds make, so agreement has to hold for all documents", "anchors": ["src/alloced.rs", "src/encoder/mod.rs: finish_value", "src/value/array.rs: empty, clone_from_bytes", "src/value/dict.rs: empty, clone_from_bytes", "src/value/mod.rs: clone_from_bytes, clone_from_bytes_unchecked"]}
{"id": "C48", "title": "new_to_vec appends a document to a buffer", "statement": "An encoder created with Encoder::new_to_vec on a buffer keeps the bytes in it and appends a document that reads exactly as if the buffer had been empty. (False of the code for every buffer with an odd number of bytes: [true] then reads as the number 256 and [\"ab\"] is rejected, though every call succeeds.)", "quantifier": "every buffer, every call sequence (success or not) for the bytes kept; every even-length buffer and document up to 1 GiB, under C20's conditions, for what is read; every odd-length buffer for the refutation; both build profiles", "why_tests_cant": "alignment and pointer widths depend on where the document starts in the buffer", "anchors": ["src/encoder/mod.rs: new_to_vec, _write, _write_key_pointer, _finished_collection, finish"]}
{"id": "C49", "title": "A document is read through its scope", "statement": "After finish_scoped (or Scope::new), the scope's accessors give what it was made of, and everything obtained from Scope::root through the readers that find their shared keys in the global registry (Dict::get, contains_key, iteration, to_mutable, from_scope) reads as what was encoded, for as long as it can be held, whatever other scopes are created, removed and dropped meanwhile; live scopes are equal only to themselves. (False of the code after Scope::remove or after the last Arc<Scope> is dropped: the root can still be held, but dicts with shared keys read as empty, and MutableDict::from_scope of a removed scope gives an empty dict.)", "quantifier": "every document that reads back (C24, C30), every legal history of the registry before and after, every address, every lookup; the loss: every document whose root dict has a shared first key", "why_tests_cant": "the result of a lookup depends on the whole history of a process-wide registry", "anchors": ["src/scope.rs: shared_keys, data, root, range, eq", "src/encoder/mod.rs: finish_scoped", "src/value/dict.rs: get, contains_key, find_shared_keys, encode_key, into_iter, Index", "src/mutable/dict.rs: from_scope, copy_with_shared_keys", "src/mutable/array.rs: from_scope"]}
{"id": "C50", "title": "Iterators announce how many items are still to come", "statement": "The size_hint of an iterator over an array, a dict, a mutable array or a mutable dict is, at any time in a loop, exactly the number of items the rest of the loop gets; what the deserializer's sequence and map accesses announce is the length of the collection. (False of the code for mutable arrays once an item has been taken, where the hint stays the full length, and for dicts with shared keys that cannot be decoded, whose loop ends early; such an iterator may even go on after None, with pairs that are not in the dict.)", "quantifier": "every reachable array and dict of every accepted document, both build profiles, any shared keys; every dict in the result of every program of mutable collections; every point of a loop", "why_tests_cant": "the claim is about every intermediate state of an iterator over every document, and the failures need a document whose shared keys are gone", "anchors": ["src/value/array.rs: Iter::next, size_hint, len", "src/value/dict.rs: SharedKeyIter, Iter", "src/mutable/array.rs: Iter", "src/mutable/dict.rs: Iter", "src/de.rs: ArrayAccess::size_hint, DictAccess::size_hint"]}
{"id": "C51", "title": "Owned values are equal if they are the same", "statement": "Of the owned values (AllocedValue, AllocedArray, AllocedDict) alive at one time, two are equal exactly if they come from the same creation by clone, to_array or to_dict, whatever their contents; cmp is a total order that agrees with ==; the pointers given by Borrow<*const T>, which also compare lengths, compare in the same way, as Borrow demands.", "quantifier": "every set of owned values in memory together, created in any way (clone_from_bytes, unchecked, finish_value, fleece!, empty), both profiles, every choice of addresses by the allocator", "why_tests_cant": "addresses are the allocator's choice, and a test sees one of them", "anchors": ["src/alloced.rs: eq, cmp, partial_cmp, clone, borrow, to_array, to_dict, empty"]}
{"id": "C52", "title": "Decoding does not move a pointer out of its buffer", "statement": "Value::from_bytes computes no raw pointer outside the allocation it was given (or one past its end), read or not, since Rust makes that undefined behaviour; accepted and rejected input alike.", "quantifier": "every byte string that is an allocation of its own, both profiles", "why_tests_cant": "undefined behaviour of pointer arithmetic has no visible effect in a test", "anchors": ["src/value/pointer.rs: deref_checked, offset", "src/value/array.rs: validate", "src/value/mod.rs: from_bytes, _find_root, _validate"]}
{"id": "C53", "title": "Decoding takes time in proportion to its input", "statement": "Value::from_bytes makes at most a constant number of calls of _validate for each byte of its input. (False of the code: a value that several pointers lead to is validated for each of them, so that time can double with every six bytes.) For documents written by the encoder, it makes at least one call and fewer than two for each value and key.", "quantifier": "the failure: for every k an accepted document of 6k+8 bytes; what holds: every document the encoder writes as it should (C20), both build profiles, any address", "why_tests_cant": "a test measures the documents it has; the bound is about all of them, and the documents that break it do not come from the encoder", "anchors": ["src/value/mod.rs: from_bytes, _validate", "src/value/array.rs: validate", "src/encoder/mod.rs: finish"]}
{"id": "C54", "title": "Decoding needs a bounded stack", "statement": "There is a number of nested calls of _validate that is enough for every input of Value::from_bytes. (False of the code: arrays in arrays are accepted to any depth.) With overflow checks, 3n/2+1 nested calls are enough for n bytes; for documents written by the encoder the depth is at least that of the document and less than twice that.", "quantifier": "every byte string, every depth; every document the encoder writes as it should (C20), both build profiles, any address", "why_tests_cant": "how deep a recursion goes is a claim about all inputs, and a test with too deep a document kills its process", "anchors": ["src/value/mod.rs: from_bytes, _validate", "src/value/array.rs: validate", "src/encoder/mod.rs: finish"]}
{"id": "C55", "title": "Indexing gives what is there and panics for what is not", "statement": "array[i], mutable_array[i] and mutable_dict[k] return the element if there is one and panic if there is none. (False of the code: array[len] does not panic and may read outside the buffer; indexing a mutable collection panics where the element is an array or a dict.)", "quantifier": "every array of every accepted document and every index; every program over mutable collections, every collection in its result, every index and key; every place that holds a collection, for the failure", "why_tests_cant": "all indices, all documents, all programs; that no nested collection at all can be reached with [] is not what an example shows", "anchors": ["src/value/array.rs: index, get", "src/mutable/array.rs: index, get", "src/mutable/dict.rs: index, get", "src/mutable.rs: ValueSlot::value"]}
{"id": "C56", "title": "get_with_shared_keys gives what get gives", "statement": "For every dict, table and key, get_with_shared_keys(key, table) gives what get(key) gives when the dict is in a scope with that table, and contains_key_with_shared_keys agrees with contains_key. (False of the code for every dict without shared keys that has a key of the table: get finds it, get_with_shared_keys does not.)", "quantifier": "every dict of every accepted document, every table, every key, both build profiles; every document written without shared keys, for the failure", "why_tests_cant": "tests look up keys with the table the document was written with; the claim is about any dict and any table", "anchors": ["src/value/dict.rs: get, get_with_shared_keys, contains_key_with_shared_keys, encode_key, uses_shared_keys, _get"]}
{"id": "C57", "title": "The same calls give the same bytes", "statement": "The output of a sequence of encoder calls depends neither on how sort_unstable_by orders equal keys nor on the build profile. (False of the code: a dict with the same key twice; two 16-byte keys that get the same code; numbers whose last 57 bits are zero, which panic in a debug build and are written as 0xFF in a release build.)", "quantifier": "every two functions sort_unstable_by may be, both profiles, every sequence of calls, with or without shared keys", "why_tests_cant": "a test runs one sort in one build; the claim is about every sort the standard library may have", "anchors": ["src/encoder/mod.rs: end_dict, dict_key_cmp, finish", "src/encoder/encodable.rs: u64::write_fleece_to"]}
{"id": "C58", "title": "The output is not much larger than what was passed in", "statement": "For every sequence of calls, accepted or rejected, the output of finish has even length and at most 24 bytes for each call and the bytes of the strings, data and keys passed in.", "quantifier": "every sequence of calls of at most 1 GiB in this measure, every sort, both profiles, with or without shared keys", "why_tests_cant": "the bound is over all sequences, including rejected calls, which leave bytes behind", "anchors": ["src/encoder/mod.rs: _write, end_array, end_dict, _finished_collection, finish", "src/encoder/encodable.rs: fleece_size"]}
{"id": "C59", "title": "Equal bytes mean equal documents", "statement": "If two sequences of calls give the same output, under compatible shared keys, they describe the same document. (False of the code: [\"a\"] and [353] have the same encoding, and so have [65541] and [5].)", "quantifier": "every two sequences of calls of the kinds of C20, every two builds and sorts, every two tables of shared keys of which one extends the other", "why_tests_cant": "a collision is a pair of documents; tests compare a few", "anchors": ["src/encoder/mod.rs: Encoder", "src/encoder/encodable.rs: to_sized_value, write_fleece_to", "src/value/mod.rs: from_bytes"]}
{"id": "C60", "title": "A small document survives exactly if it has no string, data or key of fewer than two bytes, and no shared key of 16", "statement": "For every sequence of calls that builds a document t of up to 16 KiB, with or without shared keys (which do not run out and have two to 15 bytes): the output decodes to t if and only if t has no string, data or key of fewer than two bytes and no key of 16 bytes that is stored as a code. Otherwise, an empty string or data is read as the number 0, a string of one byte b as the number 256 + b, a key of fewer than two bytes as the shared key with that number, or the dict ends before it if there is none, a shared key of 16 bytes as its first 15, and a document with data of one byte is rejected.", "quantifier": "every sequence of calls of at most 16383 bytes in the measure of C58, every sort, both profiles, with or without shared keys, every address of the buffer", "why_tests_cant": "an equivalence over all documents; tests show single documents that survive or do not", "anchors": ["src/encoder/mod.rs: end_array, end_dict", "src/encoder/encodable.rs: to_sized_value", "src/encoder/encodable.rs: impl Encodable for SizedValue, write_fleece_to", "src/value/mod.rs: from_bytes, from_raw", "src/encoder/mod.rs: write_key", "src/value/dict.rs: Iter::next"]}
{"id": "C61", "title": "The decoder reads the format", "statement": "Bytes which, by the definition of the format, are the document t, whoever wrote them, are accepted by from_bytes; a complete traversal gives t, and len, indexing, iteration and lookup agree with t at every level. Bytes are at most one document. (False of the code for negative numbers stored with fewer than eight bytes.)", "quantifier": "every byte string that is a document of the format: all kinds of values, paddings, narrow and wide collections, inline values and pointers of any distance, shared and string keys, all three kinds of root; every address of the buffer, both build profiles", "why_tests_cant": "tests read documents this encoder wrote and two files; the format allows much that this encoder never writes (doubles stored as floats, padding, shared targets, signed numbers of one to eight bytes)", "anchors": ["src/value/mod.rs: ValueType::from_byte, from_bytes, _find_root, _validate, _get_data, _get_short, to_int, to_double", "src/value/pointer.rs: deref_checked, deref_unchecked, get_offset", "src/value/array.rs: Array", "src/value/dict.rs: Dict", "src/value/varint.rs: read"]}
{"id": "C62", "title": "The encoder writes the format", "statement": "The output of the encoder is, by the definition of the format, the document that was built, so that any reader of the format reads it. (False of the code for the reasons of C20, and for dicts in which a key is written twice.)", "quantifier": "every sequence of calls of the kinds of C20, every sort, both profiles, with or without shared keys, every later table of shared keys", "why_tests_cant": "tests check the output with this library's own reader, which cannot show that the bytes mean the same to another", "anchors": ["src/encoder/mod.rs: Encoder, end_array, end_dict, _finished_collection, finish", "src/encoder/encodable.rs: write_fleece_to, to_sized_value"]}
{"id": "C63", "title": "Scope lookups and registrations on several threads take effect one at a time", "statement": "However the calls of several threads interleave, a call of Scope::containing or Scope::find_shared_keys that returns gives the answer that was right at some instant between call and return: the scope that was then live, not removed and over the address (or its keys), and None if there was none. The changes of all threads are, in the order they happen, a sequential history. An Arc that a user has is of a scope that lives, threads do not deadlock, each call ends after a bounded number of its own steps, and no call panics unless some Scope::new was given no data or data on which from_bytes panics. After such a panic every later call panics, on every thread.", "quantifier": "any number of threads, every interleaving at every access of the lock, the map and the reference counts, of any number of calls of new, remove, containing and find_shared_keys and of clones and drops of Arc<Scope>; new scopes have buffers that overlap none of a live scope", "why_tests_cant": "a test runs a few of the interleavings, and the ones in which an Arc is dropped between reading the map and upgrading the entry are rare", "anchors": ["src/scope.rs: Scope::new, Scope::remove, Scope::containing, Scope::find_shared_keys, SCOPE_MAP"]}
{"id": "C64", "title": "A lookup in a dict takes a number of steps logarithmic in the number of its keys", "statement": "Dict::get, get_with_shared_keys and the lookup by scope compare at most log2(n) + 1 keys of a dict with n pairs, whatever the bytes, and follow at most two pointers for each comparison and two for the value. (The second part holds of documents in the format and of what the encoder writes. It is false of accepted documents in general: chains of pointers are followed to their end for every key, and their length is bounded by the size of the document alone.)", "quantifier": "every byte string, load address and build; every dict reached, every key, any shared keys and scope", "why_tests_cant": "a test measures a few dicts; the longest search path and the documents with chains of pointers are not among them", "anchors": ["src/value/dict.rs: Dict::get, Dict::get_with_shared_keys, Dict::uses_shared_keys", "src/value/array.rs: Array::get", "src/value/pointer.rs: ValuePointer::deref"]}
{"id": "C65", "title": "References are used for the bytes they cover", "statement": "No read through a reference to a Value goes beyond the bytes of that reference (the rule of Stacked Borrows, which Miri checks; going beyond is undefined behaviour even inside the same buffer). (False of the code: following a Fleece pointer reads before the pointer's own two or four bytes, so that of all accepted documents only those of two bytes are decoded in keeping with the rule; array and dict iterators go from slot to slot. Elements got by index and numbers keep to it in documents of the format, where no pointer is met.)", "quantifier": "every byte string, every value reached, every index", "why_tests_cant": "the reads give the right bytes; only the rule is broken, and a compiler may use that at any time", "anchors": ["src/value/pointer.rs: Pointer::deref_checked, Pointer::deref_unchecked, Pointer::offset", "src/value/mod.rs: Value::_offset_unchecked, Value::_from_raw_unchecked, Value::to_int, Value::from_bytes", "src/value/array.rs: Array::get_unchecked, Iter::next"]}
{"id": "C66", "title": "What is handed out lives as long as its type says", "statement": "In a program that compiles and has no unsafe of its own, no call of this crate, and no use of what it has returned, reads a table of shared keys, a buffer or a scope that was given back. (False of the code: the keys that the iterator over a Dict returns have the lifetime of the Dict, but a shared key lies in the table, which the iterator and the scope keep alive and the Dict does not. Every other use is safe, and a shared key can be read exactly as long as there is an Arc of its table.)", "quantifier": "every program of calls that make, clone, drop, move, look up and iterate, of any length; every document, every table", "why_tests_cant": "memory that was given back usually still has its old content; which drops come before which uses is a matter of all programs", "anchors": ["src/value/dict.rs: SharedKeyIter::next, Dict::into_iter", "src/mutable/dict.rs: Iter::decode_key, MutableDict::into_iter", "src/scope.rs: Scope::new, Scope::root, Scope::data, Scope::containing, Scope::find_shared_keys", "src/alloced.rs: Alloced::value, Alloced::clone"]}
{"id": "C67", "title": "Values lie at even offsets, and is_mutable tells mutable values from the rest", "statement": "Every value of a document that was accepted lies at an even offset, and is_mutable is false of every value of a document and true of every value of a mutable collection. (The second part is false of the code: is_mutable looks at the lowest bit of the address, a buffer may start at an odd address, and nothing puts the values of mutable collections at odd addresses.)", "quantifier": "all documents, all reachable values, all addresses of the buffer, both build profiles", "why_tests_cant": "allocators return even addresses for vectors in practice, while a slice into a larger buffer can start anywhere; offsets are computed from untrusted bytes", "anchors": ["src/value/mod.rs: Value::is_mutable, Value::from_bytes, Value::find_root", "src/value/array.rs: Array::get_unchecked, ArrayIter::next", "src/value/pointer.rs: ValuePointer::get_offset, ValuePointer::deref_unchecked"]}
{"id": "C68", "title": "Debug shows a document, all of it and nothing else", "statement": "What {:?} writes for a value is a text of exactly what a complete traversal of the value finds: every element, entry, key and number, with strings quoted and escaped. Two values with the same text have the same content, except for floats that are written the same way (NaNs).", "quantifier": "all documents, all reachable values, any shared keys in scope, any text for floats without a closing parenthesis, any set of printable characters, both build profiles", "why_tests_cant": "the text of one document in relation to those of all others; strings may contain quotes, backslashes, commas and brackets that look like structure", "anchors": ["src/value/mod.rs: impl Debug for Value, impl Debug for ValueType", "src/value/array.rs: impl Debug for Array", "src/value/dict.rs: impl Debug for Dict"]}
{"id": "C69", "title": "A length prefix is read as the number it is, or refused", "statement": "Reading the length prefix (varint) of a string, data, array or dict yields the number its seven-bit groups make up and the number of bytes it has, whatever follows it. A prefix that is not complete, or whose number does not fit 64 bits, is refused.", "quantifier": "all byte strings, complete prefixes or not, minimal or not, of any length, both build profiles", "why_tests_cant": "there are more than 2^64 prefixes; the faulty ones have ten or eleven bytes, which no encoder writes", "anchors": ["src/value/varint.rs: read", "src/value/mod.rs: Value::_get_data", "src/value/array.rs: Array::len, Array::first_pos"]}
{"id": "C70", "title": "Decode errors say true things about the input", "statement": "An error of Value::from_bytes, Array::from_bytes or Dict::from_bytes names something that is wrong with the bytes, and the sizes, counts and offsets it gives are those of the document: a pointer of that offset that leads out of it, a collection of that many slots of that width with less room behind its header, a number of that type and size with less room than that. The errors about the size, the root and the kind appear exactly when they apply.", "quantifier": "all byte strings, all addresses, both build profiles", "why_tests_cant": "a test compares the error of one malformed document; the claim relates the payload of every error to the bytes of every document, at any depth and behind any pointers", "anchors": ["src/value/error.rs: DecodeError", "src/value/mod.rs: Value::from_bytes, Value::_find_root, Value::_validate, Value::_from_raw, Value::required_size", "src/value/array.rs: Array::validate, Array::from_bytes", "src/value/dict.rs: Dict::from_bytes", "src/value/pointer.rs: Pointer::deref_checked"]}
{"id": "C71", "title": "A value the encoder hands out can be read safely", "statement": "Encoder::finish_value is a safe function: whatever was written before, every call on every value that can be reached from what it returns stays within the copied bytes and ends, in debug builds (which check the bytes) as in release builds (which trust the encoder).", "quantifier": "all encoder states, all values reachable from the result, all calls on them, with any shared keys in scope, both build profiles", "why_tests_cant": "tests run in the debug profile, where the bytes are checked; a read outside the buffer in the release profile need not be visible; all sequences of calls are meant", "anchors": ["src/encoder/mod.rs: Encoder::finish_value", "src/value/mod.rs: Value::clone_from_bytes, Value::clone_from_bytes_unchecked", "src/encoder/encodable.rs: u64::write_fleece_to, u64::fleece_size", "src/value/pointer.rs: Pointer::deref_unchecked"]}
{"id": "C72", "title": "Lookup and iteration show the same dict", "statement": "For every dict of every accepted document, get(k) returns x exactly if iterating over the dict yields (k, x); contains_key and get_with_shared_keys agree. In particular a lookup never returns a value that the dict does not have under that key, whatever the bytes.", "quantifier": "all documents, from any source, all dicts in them, all keys, with any shared keys in scope, both build profiles", "why_tests_cant": "the decoder checks neither the kinds nor the order of keys, so documents from other programs can hold any; tests look up keys in documents the encoder wrote", "anchors": ["src/value/dict.rs: Dict::get, Dict::get_with_shared_keys, Dict::_get, Dict::encode_key, Dict::uses_shared_keys, Iter::next, SharedKeyIter::next", "src/value/mod.rs: Value::dict_key_cmp"]}
{"id": "C73", "title": "Floating-point numbers are converted to what they are", "statement": "For every floating-point number x in an accepted document: to_double is x; to_float is x if x is stored in 32 bits; to_int, to_unsigned_int, to_short and to_unsigned_short are x without its fraction, limited to the type, and 0 for NaN; to_bool says whether x is different from 0. Integers of at most 2^53 are exactly themselves in to_double.", "quantifier": "all documents, from any source, all floating-point values in them, both build profiles", "why_tests_cant": "there are 2^64 bit patterns; tests convert a few literals, none between -1 and 1 to bool, none above 2^63", "anchors": ["src/value/mod.rs: Value::to_double, Value::to_float, Value::to_int, Value::to_unsigned_int, Value::to_short, Value::to_unsigned_short, Value::to_bool"]}
{"id": "C74", "title": "Formatting, converting and copying need a bounded stack", "statement": "There is a number of nested calls that is enough to format ({:?}), convert (clone_from) or copy (write_fleece) any accepted document; it takes exactly as many as the document is deep, and that is never more than decoding took.", "quantifier": "all documents, from any source, all values in them, all stack depths, both build profiles", "why_tests_cant": "tests use documents a few levels deep; the depth of a document is not bounded, and an overflow of the stack aborts the process", "anchors": ["src/value/mod.rs: impl Debug for Value", "src/value/array.rs: impl Debug for Array", "src/value/dict.rs: impl Debug for Dict", "src/mutable/array.rs: MutableArray::clone_from", "src/mutable/value_slot.rs: ValueSlot::new_from_fleece", "src/encoder/mod.rs: Encoder::write_fleece"]}
{"id": "C75", "title": "The text of an error tells which error it is", "statement": "Two errors whose texts ({}) are the same are the same error, with the same numbers, types and names; and each number of an error is in its text, in the place the words around it say.", "quantifier": "all errors of all kinds, all numbers in them", "why_tests_cant": "errors carry numbers, types and texts without bound, and sentences with several numbers can be ambiguous; no test looks at a text", "anchors": ["src/error.rs: impl Display for Error", "src/value/error.rs: impl Display for DecodeError", "src/encoder/error.rs: impl Display for EncodeError", "src/ser.rs: impl Display for SerializeError", "src/de.rs: impl Display for DeserializeError"]}
{"id": "C76", "title": "The reader reads what the bytes say, whatever the bytes", "statement": "Whatever a complete traversal finds in any bytes, validated or not, is what the bytes say by the rules of the format extended by seven named oddities (bytes that no encoder may write and the reader takes for something); in a build with overflow checks it also finds everything that the bytes say, bytes say at most one thing, and accepted bytes have no pointers out of the document.", "quantifier": "all byte sequences, addresses and shared keys, both build profiles (the converse: with overflow checks)", "why_tests_cant": "the claim is about every sequence of bytes, including those that no encoder writes; tests read documents that an encoder made", "anchors": ["src/value/mod.rs: Value::from_bytes, from_bytes_unchecked, value_type, to_int, to_str, _get_data", "src/value/pointer.rs: Pointer::deref_checked, deref_unchecked, get_offset", "src/value/array.rs: Array::iter, len, first_pos", "src/value/dict.rs: Dict::iter", "src/value/varint.rs: read"]}
{"id": "C77", "title": "Shared keys can be given to the encoder at any time", "statement": "set_shared_keys may be called any number of times between the other calls: the results of the calls stay the documented ones, and the bytes of finish decode, under the table the encoder has at the end, to the document that the other calls describe, in which get finds every key. (False of the code for tables that do not go on from the one in use: entries are lost or renamed; and get does not find keys that were written as texts before a table that has them was given.)", "quantifier": "all sequences of calls with set_shared_keys at any places, all tables, all keys; small documents", "why_tests_cant": "the tests give the table once, before anything is written; the claim is about every interleaving", "anchors": ["src/encoder/mod.rs: Encoder::set_shared_keys, _write_key, finish", "src/shared_keys.rs: SharedKeys::encode_and_insert, decode", "src/value/dict.rs: Dict::get, SharedKeyIter"]}
{"id": "C78", "title": "Shared keys load from any bytes", "statement": "SharedKeys::from_state_bytes returns a table exactly for bytes that are an array of strings, each of which may be a key, and not too many; the table has just these names, each once, coded by their order (cut to 15 bytes); for all other bytes it returns None, without panicking or reading outside them. (False of the code: it panics where from_bytes does, and at elements that are not strings in builds with debug assertions; without them it takes these for empty keys.)", "quantifier": "all byte sequences and addresses, all tables of characters; release builds: all bytes that a debug build accepts", "why_tests_cant": "the state comes from a file that may hold anything; the tests load what the library saved", "anchors": ["src/shared_keys.rs: SharedKeys::from_state_bytes, from_state_value, encode_and_insert, can_add", "src/value/mod.rs: Value::from_bytes, to_str"]}
{"id": "C79", "title": "{:#?} says what {:?} says, on many lines", "statement": "For every value, {:#?} writes the text of {:?} with a line break at every bracket and comma outside quotes, indented by four spaces for every open bracket; taking the line breaks out gives the text of {:?} again, even if keys and strings contain line breaks, commas or brackets. It fails (panics, reads outside) exactly where {:?} does. Two values with the same text have the same content.", "quantifier": "all bytes and addresses, all values, both builds, all texts of floats without line breaks, brackets and commas", "why_tests_cant": "strings with layout characters at any depth of any document; the layout comes from nested adapters, one for each level", "anchors": ["src/value/mod.rs: <Value as Debug>::fmt", "src/value/array.rs: <Array as Debug>::fmt", "src/value/dict.rs: <Dict as Debug>::fmt"]}
{"id": "C80", "title": "The state of a table can be part of a document", "statement": "write_state, on an encoder with anything in it, makes exactly the calls that write the names as an array of strings. Where an array may begin it returns Some; where not it returns None and leaves the encoder as it was. In the finished document there is a reachable value from which from_state_value gives the table back. (False of the code for tables with a one-character name, as in C29.)", "quantifier": "every table made by insertions of keys of up to 15 bytes, every sequence of calls before and after, every address, both builds", "why_tests_cant": "any document around the state: any depth, any other content, any shared keys in use for the document itself", "anchors": ["src/shared_keys.rs: write_state, from_state_value", "src/encoder/mod.rs: begin_array, write_value, end_array, finish"]}
{"id": "C81", "title": "A table of shared keys lists and prints its keys", "statement": "Iterating over a SharedKeys gives every key once with its code, in the order of the codes, and these are the codes of encode and the keys of decode. {:?} writes exactly these pairs, {:#?} the same with each on its own line, and two tables with the same text are the same.", "quantifier": "every table made by insertions of keys that do not have 16 bytes, any characters that is_alphanumeric takes, whichever of them are escaped", "why_tests_cant": "all tables of up to 2048 keys; which characters are printable depends on tables of the standard library", "anchors": ["src/shared_keys.rs: iter, into_iter, Iter::next, <SharedKeys as Debug>::fmt"]}
