{
 "claims": [
  {
   "property": "C01",
   "status": "proved",
   "theorems": [
    "Fleece.Props.C01_write_is_leb128",
    "Fleece.Props.C01_length_prefix_roundtrip"
   ],
   "note": ""
  },
  {
   "property": "C02",
   "status": "proved",
   "theorems": [
    "Fleece.Props.C02_string",
    "Fleece.Props.C02_data",
    "Fleece.Props.C02_short_buffer",
    "Fleece.Props.C02_tiny_in_narrow_slot",
    "Fleece.Props.C02_wide_slot"
   ],
   "note": "C02 as stated (encoding into a slot of the announced size) is proved in full; C02_tiny_in_narrow_slot proves that the separate inline path of narrow collections destroys strings/data of at most one byte."
  },
  {
   "property": "C03",
   "status": "partial",
   "theorems": [
    "Fleece.Props.C03_signed_partial",
    "Fleece.Props.C03_signed_truncated",
    "Fleece.Props.C03_signed_diverges",
    "Fleece.Props.C03_write_value_diverges"
   ],
   "note": "False of the code outside -2048..2047; there the behaviour is characterised exactly (truncation to 16 bits, or unbounded recursion)."
  },
  {
   "property": "C04",
   "status": "partial",
   "theorems": [
    "Fleece.Props.C04_small_partial",
    "Fleece.Props.C04_large_partial",
    "Fleece.Props.C04_u64_corrupted",
    "Fleece.Props.C04_u64_nothing_left",
    "Fleece.Props.C04_u16_panics"
   ],
   "note": "False of the code for u16 > 2047 and for u64 with low zero bytes; the set of surviving values is characterised exactly."
  },
  {
   "property": "C05",
   "status": "proved",
   "theorems": [
    "Fleece.Props.C05_f64",
    "Fleece.Props.C05_f32",
    "Fleece.Props.C05_constants",
    "Fleece.Props.C05_statics",
    "Fleece.Props.C05_written"
   ],
   "note": "to_float of an f32 under the IEEE hypothesis narrow(widen x) = x."
  },
  {
   "property": "C06",
   "status": "partial",
   "theorems": [
    "Fleece.Props.C06_terminates_partial",
    "Fleece.Props.C06_terminates_release_partial",
    "Fleece.Props.C06_release_recurses_forever"
   ],
   "note": "Proved for builds with overflow checks; refuted for builds without."
  },
  {
   "property": "C07",
   "status": "partial",
   "theorems": [
    "Fleece.Props.C07_stays_in_bounds_partial",
    "Fleece.Props.C07_stays_in_bounds_release_partial",
    "Fleece.Props.C07_release_reads_outside"
   ],
   "note": "Proved for builds with overflow checks; refuted for builds without."
  },
  {
   "property": "C08",
   "status": "partial",
   "theorems": [
    "Fleece.Props.C08_no_panic_partial",
    "Fleece.Props.C08_ok_or_err_partial",
    "Fleece.Props.C08_panic_cause_partial",
    "Fleece.Props.C08_panics"
   ],
   "note": "Refuted in general; no panic on inputs without the three constructs that can cause one."
  },
  {
   "property": "C09",
   "status": "proved",
   "theorems": [
    "Fleece.Props.C09_traversal_in_bounds"
   ],
   "note": ""
  },
  {
   "property": "C10",
   "status": "partial",
   "theorems": [
    "Fleece.Props.C10_accessors_return_partial",
    "Fleece.Props.C10_panics"
   ],
   "note": "Refuted for float conversions on short slices and for lookup in dicts with odd keys; proved for the rest."
  },
  {
   "property": "C11",
   "status": "proved",
   "theorems": [
    "Fleece.Props.C11_no_infinite_descent",
    "Fleece.Props.C11_traversal_terminates"
   ],
   "note": ""
  },
  {
   "property": "C12",
   "status": "partial",
   "theorems": [
    "Fleece.Props.C12_get_partial",
    "Fleece.Props.C12_get_at_len",
    "Fleece.Props.C12_get_at_len_reads_outside"
   ],
   "note": "Refuted at index = len; proved elsewhere."
  },
  {
   "property": "C13",
   "status": "proved",
   "theorems": [
    "Fleece.Props.C13_iteration_agrees",
    "Fleece.Props.C13_steps_and_size_hint"
   ],
   "note": ""
  },
  {
   "property": "C14",
   "status": "proved",
   "theorems": [
    "Fleece.Props.C14_acceptance_address_free",
    "Fleece.Props.C14_errors_address_free"
   ],
   "note": "Builds with overflow checks; without them by C17."
  },
  {
   "property": "C15",
   "status": "proved",
   "theorems": [
    "Fleece.Props.C15_prefix"
   ],
   "note": ""
  },
  {
   "property": "C16",
   "status": "proved",
   "theorems": [
    "Fleece.Props.C16_unchecked_agrees",
    "Fleece.Props.C16_unchecked_agrees_release"
   ],
   "note": ""
  },
  {
   "property": "C17",
   "status": "proved",
   "theorems": [
    "Fleece.Props.C17_profiles_agree"
   ],
   "note": ""
  },
  {
   "property": "C18",
   "status": "partial",
   "theorems": [
    "Fleece.Props.C18_step",
    "Fleece.Props.C18_results_documented_partial",
    "Fleece.Props.C18_accepted_calls_return",
    "Fleece.Props.C18_refuted",
    "Fleece.Props.C18_swap_partial",
    "Fleece.Props.C18_refuted_capacity"
   ],
   "note": "Every result of every call equals the documented one, for every run that does not call end_array on an open dict; that call is refuted (it drops the dict and reports an error). A first begin_array with a capacity of 2^61 or more panics instead (C18_refuted_capacity)."
  },
  {
   "property": "C19",
   "status": "partial",
   "theorems": [
    "Fleece.Props.C19_state_partial",
    "Fleece.Props.C19_document_partial",
    "Fleece.Props.C19_refuted_end_array",
    "Fleece.Props.C19_refuted_write_key",
    "Fleece.Props.C19_bytes_partial",
    "Fleece.Props.C19_all_partial",
    "Fleece.Props.C19_large_partial"
   ],
   "note": "Refuted for end_array on an open dict (the dict is lost) and for write_key after the top level is closed (orphan bytes make the document unreadable); proved for every other rejected call. Rejected calls that open or close collections leave the encoder exactly as it was, so the bytes are the same, in documents of any kind (C19_bytes_partial). The same for any number of such calls at once (C19_all_partial), so that roomy documents up to 1 GiB survive them (C19_large_partial)."
  },
  {
   "property": "C20",
   "status": "partial",
   "theorems": [
    "Fleece.Props.C20_exact_partial",
    "Fleece.Props.C20_orderly_partial",
    "Fleece.Props.C20_small_partial",
    "Fleece.Props.C20_refuted_string",
    "Fleece.Props.C20_refuted_key",
    "Fleece.Props.C20_large_partial",
    "Fleece.Props.C20_large_array"
   ],
   "note": "Refuted for strings/data/keys of at most one byte stored in narrow collections. Proved for every run whose slots fit the width chosen (C20_exact_partial, with the fit conditions as hypotheses) and unconditionally for documents below 16 KiB without such values (C20_small_partial). Also for documents up to 1 GiB in which every collection is clearly small or clearly large (Tree.Roomy, Spec/Layout.lean): the _large_ theorems."
  },
  {
   "property": "C21",
   "status": "partial",
   "theorems": [
    "Fleece.Props.C21_exact_partial",
    "Fleece.Props.C21_small_partial",
    "Fleece.Props.C21_refuted_data",
    "Fleece.Props.C21_refuted_width",
    "Fleece.Props.C21_refuted_dict_key",
    "Fleece.Props.C21_large_partial"
   ],
   "note": "Refuted for one-byte data in a narrow array, for every array holding one 16379-byte string, and for every {\"abc\": [s]} with 16384 <= |s| <= 131000; proved under the same conditions as C20. Also for documents up to 1 GiB in which every collection is clearly small or clearly large (Tree.Roomy, Spec/Layout.lean): the _large_ theorems."
  },
  {
   "property": "C22",
   "status": "proved",
   "theorems": [
    "Fleece.Props.C22_append_only",
    "Fleece.Props.C22_run_append_only",
    "Fleece.Props.C22_even",
    "Fleece.Props.C22_finish",
    "Fleece.Props.C22_finish_returns"
   ],
   "note": ""
  },
  {
   "property": "C23",
   "status": "proved",
   "theorems": [
    "Fleece.Props.C23_total_order",
    "Fleece.Props.C23_encoder_order",
    "Fleece.Props.C23_reader_order",
    "Fleece.Props.C23_agree",
    "Fleece.Props.C23_stored_key"
   ],
   "note": ""
  },
  {
   "property": "C24",
   "status": "partial",
   "theorems": [
    "Fleece.Props.C24_exact_partial",
    "Fleece.Props.C24_small_partial",
    "Fleece.Props.C24_get",
    "Fleece.Props.C24_refuted",
    "Fleece.Props.C24_large_partial"
   ],
   "note": "Documents without shared keys. False of the code for one-byte keys (C24_refuted). Partial: for documents whose collections fit the width the encoder chose (exact), or small documents whose keys, strings and data have at least two bytes (small), every dict at every depth is found by get/contains_key exactly as written; C24_get spells the meaning out for one dict. Also for documents up to 1 GiB in which every collection is clearly small or clearly large (Tree.Roomy, Spec/Layout.lean): the _large_ theorems."
  },
  {
   "property": "C25",
   "status": "partial",
   "theorems": [
    "Fleece.Props.C25_iter",
    "Fleece.Props.C25_byte_order",
    "Fleece.Props.C25_refuted",
    "Fleece.Props.C25_refuted_shared"
   ],
   "note": "For the documents covered by C24 and C30: len items, each pair once, in key order (shared keys by code, then strings by bytes). False of the code for one-byte keys and, as byte order, with shared keys."
  },
  {
   "property": "C26",
   "status": "proved",
   "theorems": [
    "Fleece.Props.C26_header",
    "Fleece.Props.C26_len_partial",
    "Fleece.Props.C26_array",
    "Fleece.Props.C26_large_partial"
   ],
   "note": "Header and first element position for every count below 2^63, both kinds, both widths; whole arrays of slot-sized values of any length below 1 GiB; lengths inside arbitrary documents under the conditions of C20. Also for documents up to 1 GiB in which every collection is clearly small or clearly large (Tree.Roomy, Spec/Layout.lean): the _large_ theorems."
  },
  {
   "property": "C27",
   "status": "proved",
   "theorems": [
    "Fleece.Props.C27_dense",
    "Fleece.Props.C27_invertible",
    "Fleece.Props.C27_stable",
    "Fleece.Props.C27_decode_stable",
    "Fleece.Props.C27_insert",
    "Fleece.Props.C27_refused",
    "Fleece.Props.C27_characters"
   ],
   "note": ""
  },
  {
   "property": "C28",
   "status": "partial",
   "theorems": [
    "Fleece.Props.C28_decode_partial",
    "Fleece.Props.C28_injective_partial",
    "Fleece.Props.C28_refuted"
   ],
   "note": "Proved for keys of at most 15 bytes; refuted for 16-byte keys, which the code cuts to 15 bytes."
  },
  {
   "property": "C29",
   "status": "partial",
   "theorems": [
    "Fleece.Props.C29_exact_partial",
    "Fleece.Props.C29_partial",
    "Fleece.Props.C29_refuted_short",
    "Fleece.Props.C29_refuted_width",
    "Fleece.Props.C29_load",
    "Fleece.Props.C29_load_refused",
    "Fleece.Props.C29_load_not_array"
   ],
   "note": "False of the code: a table with the key \"a\" loads as garbage, and every table whose names take 16382/16383 bytes loads as None. Proved for every table reached by insertions (no 16-byte keys) whose names fit the chosen slot width."
  },
  {
   "property": "C30",
   "status": "partial",
   "theorems": [
    "Fleece.Props.C30_exact_partial",
    "Fleece.Props.C30_small_partial",
    "Fleece.Props.C30_refuted_long",
    "Fleece.Props.C30_refuted_absent",
    "Fleece.Props.C30_refuted_full",
    "Fleece.Props.C30_large_partial"
   ],
   "note": "False of the code for keys longer than 15 bytes that share their first 15 bytes with a table entry (wrong value, absent key found) and when the table becomes full (written key not found). Partial: keys of 2..15 bytes without NUL, or whose first 15 bytes cannot be shared; table not full at the end; reading with any later table. Also for documents up to 1 GiB in which every collection is clearly small or clearly large (Tree.Roomy, Spec/Layout.lean): the _large_ theorems."
  },
  {
   "property": "C31",
   "status": "proved",
   "theorems": [
    "Fleece.Props.C31",
    "Fleece.Props.C31_calls"
   ],
   "note": "Programs over nested arrays and dicts (no shared keys) of scalars that C33 keeps, edited in place at any depth; Vec is a list. Documents converted to mutable collections are added in C34."
  },
  {
   "property": "C32",
   "status": "partial",
   "theorems": [
    "Fleece.Props.C32_plain",
    "Fleece.Props.C32_shared_partial",
    "Fleece.Props.C32_short_keys",
    "Fleece.Props.C32_confused",
    "Fleece.Props.C32_refuted"
   ],
   "note": "True without shared keys. With shared keys false of the code: the table abridges names to 15 bytes. Proved when no key used is abridged by a table; every abridged key is confused with another."
  },
  {
   "property": "C33",
   "status": "partial",
   "theorems": [
    "Fleece.Props.C33_exact_partial",
    "Fleece.Props.C33_pushed",
    "Fleece.Props.C33_refuted"
   ],
   "note": "Exact: reads back iff the scalar is Kept. False of the code for signed numbers outside -2048..2047 and some u64."
  },
  {
   "property": "C34",
   "status": "partial",
   "theorems": [
    "Fleece.Props.C34_partial",
    "Fleece.Props.C34_programs_partial",
    "Fleece.Props.C34_no_table",
    "Fleece.Props.C34_int_lost",
    "Fleece.Props.C34_refuted"
   ],
   "note": "Proved for every readable document whose values and keys this version can copy (Copies), to any depth, and in programs that go on changing the copy. The full claim is false: every Int outside -2048..2047 is lost (C34_int_lost), [5000] overflows the stack (C34_refuted)."
  },
  {
   "property": "C35",
   "status": "proved",
   "theorems": [
    "Fleece.Props.C35_containing",
    "Fleece.Props.C35_shared_keys"
   ],
   "note": "All legal histories, all addresses, by an invariant between the registry and an independent list of owners. C35_shared_buffer: with two scopes over one Arc (outside the claim) the older is never found again."
  },
  {
   "property": "C36",
   "status": "partial",
   "theorems": [
    "Fleece.Props.C36_refuted",
    "Fleece.Props.C36_refuted_finish",
    "Fleece.Props.C36_refuted_bytes",
    "Fleece.Props.C36_exact_partial",
    "Fleece.Props.C36_tame_partial",
    "Fleece.Props.C36_finish_partial",
    "Fleece.Props.C36_finish_large_partial",
    "Fleece.Props.C36_results"
   ],
   "note": "False of the code; refuted for every working registry. Proved: exactly which histories break the registry (some Scope::new on no data, or on data on which from_bytes panics). Also for documents up to 1 GiB in which every collection is clearly small or clearly large (Tree.Roomy, Spec/Layout.lean): the _large_ theorems."
  },
  {
   "property": "C37",
   "status": "partial",
   "theorems": [
    "Fleece.Props.C37_calls_partial",
    "Fleece.Props.C37_small_partial",
    "Fleece.Props.C37_results_partial",
    "Fleece.Props.C37_int_lost",
    "Fleece.Props.C37_refuted",
    "Fleece.Props.C37_large_partial"
   ],
   "note": "False of the code for Int values outside -2048..2047 (lost or stack overflow) and for what C20 excludes. Proved for all other values: write_fleece equals the documented sequence of calls in every state; small documents decode back; the results are the documented ones. Also for documents up to 1 GiB in which every collection is clearly small or clearly large (Tree.Roomy, Spec/Layout.lean): the _large_ theorems."
  },
  {
   "property": "C38",
   "status": "partial",
   "theorems": [
    "Fleece.Props.C38_small_partial",
    "Fleece.Props.C38_shared_partial",
    "Fleece.Props.C38_refuted",
    "Fleece.Props.C38_large_partial",
    "Fleece.Props.C38_large_shared_partial",
    "Fleece.Props.C38_large_vec"
   ],
   "note": "Proved for every value of every type built from the implementations of serde and derive (structs, all enum variants, tuples, sequences, maps, options, recursive types), with and without shared keys for values without unit structs, newtype structs, Some of null, numbers outside -2048..2047 and names/strings of less than two bytes; for unit structs, newtype structs, Some(None) and one-byte names the claim is refuted. Also for documents up to 1 GiB in which every collection is clearly small or clearly large (Tree.Roomy, Spec/Layout.lean): the _large_ theorems."
  },
  {
   "property": "C39",
   "status": "partial",
   "theorems": [
    "Fleece.Props.C39_scalar",
    "Fleece.Props.C39_key_no_bytes",
    "Fleece.Props.C39_key_partial",
    "Fleece.Props.C39_refuted"
   ],
   "note": "For every value of the serde data model (Model/Ser.lean): scalars at top level give ValueNotCollection; a value with a non-string key anywhere never gives bytes. The error KeyNotString (with the type of the first such key) is proved for all values up to 1 GiB whose numbers the encoder can write; C39_refuted: a signed number outside -2048..2047 in front of the key overflows the stack instead."
  },
  {
   "property": "C40",
   "status": "partial",
   "theorems": [
    "Fleece.Props.C40_value_partial",
    "Fleece.Props.C40_nested_partial",
    "Fleece.Props.C40_root_partial",
    "Fleece.Props.C40_slot_partial",
    "Fleece.Props.C40_no_refusal",
    "Fleece.Props.C40_refuted_panic",
    "Fleece.Props.C40_refuted_truncated"
   ],
   "note": "False of the code: between 1 and 4 GiB end_array panics, above 4 GiB pointers are silently wrong by 2^32. Proved: each recorded position is exact or refused below 4 GiB; nothing is refused below 1 GiB."
  },
  {
   "property": "C41",
   "status": "partial",
   "theorems": [
    "Fleece.Props.C41_in_bounds_partial",
    "Fleece.Props.C41_no_enums",
    "Fleece.Props.C41_release_partial",
    "Fleece.Props.C41_refuted"
   ],
   "note": "Proved for all inputs and all types (recursive ones too) in which every array met where an enum is expected has the elements the enum needs; without enums there is no proviso. C41_refuted: an empty array read as any enum reads beyond the buffer."
  },
  {
   "property": "C42",
   "status": "partial",
   "theorems": [
    "Fleece.Props.C42_terminates_partial",
    "Fleece.Props.C42_no_enums",
    "Fleece.Props.C42_refuted"
   ],
   "note": "Same proviso as C41; C42_refuted: enum E { N(Box<E>) } read from [\"N\"] never returns."
  },
  {
   "property": "C43",
   "status": "partial",
   "theorems": [
    "Fleece.Props.C43_reads",
    "Fleece.Props.C43_honest_partial",
    "Fleece.Props.C43_missing_partial",
    "Fleece.Props.C43_evolves_partial",
    "Fleece.Props.C43_refuted",
    "Fleece.Props.C43_evolves_large_partial",
    "Fleece.Props.C43_map_last_partial",
    "Fleece.Props.C43_refuses",
    "Fleece.Props.C43_decides_partial",
    "Fleece.Props.C43_exact_partial"
   ],
   "note": "C43_reads: whatever fits a type (declarative relation Fits) is read, for all documents and types. C43_honest_partial: whatever is read fits, with numbers standing for variants too and except that the data of a variant written as a bare name may be anything (rule `lost`); C43_refuted shows that this exception is real. C43_evolves_partial: structs across versions, for names the serializer can write. Also for documents up to 1 GiB in which every collection is clearly small or clearly large (Tree.Roomy, Spec/Layout.lean): the _large_ theorems. C43_decides_partial and C43_exact_partial: a document in which no enum is doubtful (an array without a name, a number for the name, a bare name of a variant with data) is read as the value it stands for if there is one, and otherwise refused with an error; it is not left open what happens. C43_refuses gives the kind of error."
  },
  {
   "property": "C44",
   "status": "partial",
   "theorems": [
    "Fleece.Props.C44_calls_succeed_partial",
    "Fleece.Props.C44_builds_partial",
    "Fleece.Props.C44_refuted",
    "Fleece.Props.C44_large_partial",
    "Fleece.Props.C44_unchecked"
   ],
   "note": "Literals as a tree type; the macro's calls with their unchecked unwraps. No call fails up to 1 GiB (so no unwrap_unchecked of an error), and the literal is built and reads back for scalars and keys that this encoder keeps. Refuted: fleece!{\"ab\": 5000} never returns, fleece!{\"a\": true} is empty, one byte of data panics. Also for documents up to 1 GiB in which every collection is clearly small or clearly large (Tree.Roomy, Spec/Layout.lean): the _large_ theorems."
  },
  {
   "property": "C45",
   "status": "partial",
   "theorems": [
    "Fleece.Props.C45_debug_in_bounds",
    "Fleece.Props.C45_debug_returns_partial",
    "Fleece.Props.C45_panics"
   ],
   "note": "In bounds and ending: for all accepted documents, no proviso. Not panicking: unless a float with a short slice is reachable (C45_panics shows the proviso is needed). What the text says is C68."
  },
  {
   "property": "C46",
   "status": "partial",
   "theorems": [
    "Fleece.Props.C46_conversions_partial",
    "Fleece.Props.C46_negative",
    "Fleece.Props.C46_large",
    "Fleece.Props.C46_refuted"
   ],
   "note": "All conversions of all integers in accepted documents against a specification of the stored number; refuted for every negative signed number of fewer than eight bytes, for conversion of unsigned numbers from 2^63 to floating point, and for to_bool of unsigned 0."
  },
  {
   "property": "C47",
   "status": "partial",
   "theorems": [
    "Fleece.Props.C47_finish_value_exact_partial",
    "Fleece.Props.C47_finish_value_partial",
    "Fleece.Props.C47_finish_value_checks",
    "Fleece.Props.C47_clone",
    "Fleece.Props.C47_clone_collections",
    "Fleece.Props.C47_empty",
    "Fleece.Props.C47_empty_get",
    "Fleece.Props.C47_refuted",
    "Fleece.Props.C47_finish_value_large_partial",
    "Fleece.Props.C47_clone_errors",
    "Fleece.Props.C47_typed_root",
    "Fleece.Props.C47_typed_root_error"
   ],
   "note": "Clones agree with the borrowed read wherever they are put; empty collections; finish_value holds what was written (documents that need no wide collection). Refuted: finish_value of an empty encoder panics, so does one-byte data in the debug build; Array::empty().get(0) reads out of bounds. Also for documents up to 1 GiB in which every collection is clearly small or clearly large (Tree.Roomy, Spec/Layout.lean): the _large_ theorems."
  },
  {
   "property": "C48",
   "status": "partial",
   "theorems": [
    "Fleece.Props.C48_keeps",
    "Fleece.Props.C48_prefix",
    "Fleece.Props.C48_exact_partial",
    "Fleece.Props.C48_lookup_partial",
    "Fleece.Props.C48_small_partial",
    "Fleece.Props.C48_large_partial",
    "Fleece.Props.C48_refuted",
    "Fleece.Props.C48_refuted_string"
   ],
   "note": "The bytes kept: proved without conditions. The document: proved for even-length buffers under C20's conditions; refuted for every odd-length buffer."
  },
  {
   "property": "C49",
   "status": "partial",
   "theorems": [
    "Fleece.Props.C49_accessors",
    "Fleece.Props.C49_finish_scoped",
    "Fleece.Props.C49_reads_partial",
    "Fleece.Props.C49_tree_partial",
    "Fleece.Props.C49_small_partial",
    "Fleece.Props.C49_from_scope",
    "Fleece.Props.C49_eq",
    "Fleece.Props.C49_lost",
    "Fleece.Props.C49_refuted",
    "Fleece.Props.C49_large_partial"
   ],
   "note": "Proved while the scope is alive and not removed; refuted afterwards for every document whose root is a dict with a shared first key. The _large_ theorems are for roomy documents up to 1 GiB."
  },
  {
   "property": "C50",
   "status": "partial",
   "theorems": [
    "Fleece.Props.C50_array",
    "Fleece.Props.C50_dict_partial",
    "Fleece.Props.C50_dict_exact_partial",
    "Fleece.Props.C50_refuted_dict",
    "Fleece.Props.C50_resumes",
    "Fleece.Props.C50_access",
    "Fleece.Props.C50_mut_array_partial",
    "Fleece.Props.C50_refuted_mut_array",
    "Fleece.Props.C50_mut_dict"
   ],
   "note": "Exact for arrays of accepted documents, for dicts whose keys can be read, and for every mutable dict. For the other dicts of accepted documents an upper bound only: exactness is refuted for every dict that begins with a shared key and is read without shared keys. For mutable arrays it is right at the start and refuted at every later time."
  },
  {
   "property": "C51",
   "status": "proved",
   "theorems": [
    "Fleece.Props.C51_eq",
    "Fleece.Props.C51_order",
    "Fleece.Props.C51_borrow"
   ],
   "note": "For all owned values alive together, at any addresses; that buffers in memory together do not overlap is the assumption about the allocator."
  },
  {
   "property": "C52",
   "status": "partial",
   "theorems": [
    "Fleece.Props.C52_moves_before_check",
    "Fleece.Props.C52_accepted_partial",
    "Fleece.Props.C52_rejected_partial",
    "Fleece.Props.C52_otherwise_partial"
   ],
   "note": "False of the code for every input answered with PointerTargetOutOfBounds (and for external pointers leading out, which panic afterwards); proved for accepted input and for every other error. Aliasing rules: C65."
  },
  {
   "property": "C53",
   "status": "partial",
   "theorems": [
    "Fleece.Props.C53_counts",
    "Fleece.Props.C53_doubling",
    "Fleece.Props.C53_not_linear",
    "Fleece.Props.C53_exact_partial",
    "Fleece.Props.C53_small_partial",
    "Fleece.Props.C53_large_partial"
   ],
   "note": "False of the code: a value is validated once for every pointer to it, so accepted documents of 6k+8 bytes take at least 2^(k+2)-1 calls (C53_doubling; C53_not_linear is the case of 248 bytes). Proved: documents of the encoder (the conditions of C20 exact, small, large) take at least one and fewer than two calls for every value and key, and fewer than two for every call made to the encoder. Counted are the calls of _validate, not the steps of following a pointer to a pointer."
  },
  {
   "property": "C54",
   "status": "partial",
   "theorems": [
    "Fleece.Props.C54_linear_partial",
    "Fleece.Props.C54_linear_release_partial",
    "Fleece.Props.C54_any_depth",
    "Fleece.Props.C54_exact_partial",
    "Fleece.Props.C54_small_partial",
    "Fleece.Props.C54_large_partial"
   ],
   "note": "False of the code: for every depth f there is an accepted document of 4f+6 bytes that needs more (C54_any_depth). Proved: 3n/2+1 nested calls are enough for n bytes with overflow checks, and without them on every input on which the checked build does not panic; for documents of the encoder the depth is between that of the document and twice that. Nothing is proved about bytes of stack."
  },
  {
   "property": "C55",
   "status": "partial",
   "theorems": [
    "Fleece.Props.C55_array_partial",
    "Fleece.Props.C55_elements",
    "Fleece.Props.C55_array_at_len",
    "Fleece.Props.C55_mutable_partial",
    "Fleece.Props.C55_shared_partial",
    "Fleece.Props.C55_nested_panics"
   ],
   "note": "Refuted at index = len of arrays (C55_array_at_len) and at every place of a mutable collection that holds an array or a dict (C55_nested_panics). Proved: indexing below and above len in every array of an accepted document; scalars and absent elements of every mutable collection a program can build. dict[key] is in C49."
  },
  {
   "property": "C56",
   "status": "partial",
   "theorems": [
    "Fleece.Props.C56_agrees_partial",
    "Fleece.Props.C56_blind",
    "Fleece.Props.C56_refuted_document",
    "Fleece.Props.C56_refuted"
   ],
   "note": "Refuted for every dict without shared keys and every key that is in the table (C56_blind, C56_refuted_document, C56_refuted). Proved: agreement for dicts whose first key is a shared key, for empty dicts and for keys that are not in the table. Documents written with the table: C30."
  },
  {
   "property": "C57",
   "status": "partial",
   "theorems": [
    "Fleece.Props.C57_partial",
    "Fleece.Props.C57_refuted_duplicate",
    "Fleece.Props.C57_refuted_shared",
    "Fleece.Props.C57_refuted_release"
   ],
   "note": "Refuted for a dict with a key twice, for two 16-byte keys that share a code, and for numbers that only the release build writes. Proved: every orderly sequence of calls (rejected calls allowed) up to 1 GiB whose document has no key twice and, with shared keys, no 16-byte key; every two sorts; debug build to release build, and builds of the same profile."
  },
  {
   "property": "C58",
   "status": "proved",
   "theorems": [
    "Fleece.Props.C58"
   ],
   "note": "Any calls in any order, accepted or rejected, with or without shared keys, up to 1 GiB in the measure of the claim."
  },
  {
   "property": "C59",
   "status": "partial",
   "theorems": [
    "Fleece.Props.C59_partial",
    "Fleece.Props.C59_refuted_string",
    "Fleece.Props.C59_refuted_number"
   ],
   "note": "Refuted: [\"a\"] and [353], [65541] and [5] have the same encoding. Proved for the documents of C20: below 16 KiB, or roomy and below 1 GiB, with scalars and keys this version can write."
  },
  {
   "property": "C60",
   "status": "partial",
   "theorems": [
    "Fleece.Props.C60_partial",
    "Fleece.Props.C60_narrowed_partial",
    "Fleece.Props.C60_rejected_partial",
    "Fleece.Props.C60_lossy_partial",
    "Fleece.Props.C60_bytes_partial",
    "Fleece.Props.C60_keys_partial",
    "Fleece.Props.C60_shared_lossy_partial",
    "Fleece.Props.C60_shared_partial",
    "Fleece.Props.C60_fresh_partial",
    "Fleece.Props.C60_key_taken"
   ],
   "note": "Documents up to 16 KiB (24 bytes per call and the text), any keys, with or without shared keys. With new shared keys (C60_fresh_partial), or with tables that do not run out and hold keys of two to 15 bytes (C60_shared_partial), the output decodes to the document if and only if it has no string, data or key of fewer than two bytes and no key of 16 bytes stored as a code. What the others decode to is given by Tree.lossyIn (without shared keys, Tree.lossy); with data of one byte they are rejected. A short key can turn into another key (C60_key_taken). Missing: tables that run out, and the exact condition for larger documents."
  },
  {
   "property": "C61",
   "status": "partial",
   "theorems": [
    "Fleece.Props.C61_decodes_partial",
    "Fleece.Props.C61_shows_partial",
    "Fleece.Props.C61_unambiguous",
    "Fleece.Props.C61_refuted"
   ],
   "note": "The full claim is false of negative numbers stored with fewer than eight bytes (C61_refuted, C46); proved for all other documents of the format. The definition leaves out external pointers, pointers to pointers except at the root, and varints longer than needed."
  },
  {
   "property": "C62",
   "status": "partial",
   "theorems": [
    "Fleece.Props.C62_exact_partial",
    "Fleece.Props.C62_small_partial",
    "Fleece.Props.C62_shared_partial",
    "Fleece.Props.C62_refuted",
    "Fleece.Props.C62_refuted_twice",
    "Fleece.Props.C62_large_partial",
    "Fleece.Props.C62_large_shared_partial"
   ],
   "note": "The full claim is false (C62_refuted, C62_refuted_twice); proved under the conditions of C20 and for dicts without repeated keys. The _large_ theorems are for roomy documents up to 1 GiB."
  },
  {
   "property": "C63",
   "status": "proved",
   "theorems": [
    "Fleece.Props.C63_containing",
    "Fleece.Props.C63_shared_keys",
    "Fleece.Props.C63_sequential",
    "Fleece.Props.C63_arc",
    "Fleece.Props.C63_exclusion",
    "Fleece.Props.C63_progress",
    "Fleece.Props.C63_bounded",
    "Fleece.Props.C63_no_panic",
    "Fleece.Props.C63_poison",
    "Fleece.Props.C63_forever"
   ],
   "note": "All clauses, for runs in which the steps of all threads are in one order (sequential consistency) and the lock and Arc behave as documented. A lookup may also panic, on a poisoned lock: C63_poison shows how one call with no data brings that about, C63_no_panic that nothing else does."
  },
  {
   "property": "C64",
   "status": "partial",
   "theorems": [
    "Fleece.Props.C64_counts",
    "Fleece.Props.C64_comparisons",
    "Fleece.Props.C64_document_partial",
    "Fleece.Props.C64_encoder_partial",
    "Fleece.Props.C64_accepted_partial",
    "Fleece.Props.C64_tight",
    "Fleece.Props.C64_refuted",
    "Fleece.Props.C64_pointers_tight",
    "Fleece.Props.C64_sums"
   ],
   "note": "Comparisons: proved of any bytes, and the bound is reached. Pointers: proved of documents in the format and of the encoder; false of accepted documents in general (for every k a document of 4k+14 bytes with a dict of one pair whose lookup follows 2(k+2) pointers), for which the bound is the size of the document for each comparison. Not counted: bytes of the keys compared, the search in the scope registry."
  },
  {
   "property": "C65",
   "status": "partial",
   "theorems": [
    "Fleece.Props.C65_agrees",
    "Fleece.Props.C65_pointer",
    "Fleece.Props.C65_from_bytes",
    "Fleece.Props.C65_from_bytes_unchecked",
    "Fleece.Props.C65_iter",
    "Fleece.Props.C65_get_partial",
    "Fleece.Props.C65_number_partial",
    "Fleece.Props.C65_refuted_get",
    "Fleece.Props.C65_refuted_number"
   ],
   "note": "False of the code: every pointer followed breaks the rule (C65_pointer), so does decoding every accepted document but those of two bytes (C65_from_bytes, exact) and the first step of every iterator over two slots or more (C65_iter). Proved: in documents of the format, get by index breaks it exactly where the slot is a pointer, and reading numbers never does. The rule concerns ranges of bytes only; nothing in the reader writes. Not modelled under the rule: dict lookup (made of get), mutable collections, the encoder."
  },
  {
   "property": "C66",
   "status": "partial",
   "theorems": [
    "Fleece.Props.C66_counts",
    "Fleece.Props.C66_calls",
    "Fleece.Props.C66_key_partial",
    "Fleece.Props.C66_mutable",
    "Fleece.Props.C66_shared_exact",
    "Fleece.Props.C66_shared_partial",
    "Fleece.Props.C66_agrees",
    "Fleece.Props.C66_refuted"
   ],
   "note": "False of the code for shared keys: for every document whose root is a dict that begins with a shared key there is a program that reads a key in memory that was given back (C66_refuted). Proved for all programs: the counts are right, no call reads memory that was given back, keys stored in the document and all keys of mutable dicts can be used for as long as their type says, and a shared key exactly as long as there is an Arc of its table. One thread; mutable dicts do not contain others."
  },
  {
   "property": "C67",
   "status": "partial",
   "theorems": [
    "Fleece.Props.C67_even",
    "Fleece.Props.C67_even_unchecked",
    "Fleece.Props.C67_document_partial",
    "Fleece.Props.C67_refuted",
    "Fleece.Props.C67_refuted_mutable"
   ],
   "note": "The offsets are proved even for every reachable value of every accepted document (and without validation if the data have an even length). is_mutable is false of the code: on documents it is the parity of the buffer's address, and on values of mutable collections the parity of the allocation's."
  },
  {
   "property": "C68",
   "status": "proved",
   "theorems": [
    "Fleece.Props.C68_shows",
    "Fleece.Props.C68_only",
    "Fleece.Props.C68_faithful",
    "Fleece.Props.C68_exact",
    "Fleece.Props.C68_type",
    "Fleece.Props.C68_document_partial",
    "Fleece.Props.C68_written_partial",
    "Fleece.Props.C68_large_partial"
   ],
   "note": "Proved for all values that can be traversed completely and, conversely, for all values of accepted documents that can be printed; {:#?} is in C79. The text of floats and the printable characters are parameters; a float's text has no closing parenthesis. The three theorems called partial are corollaries for documents given by the format (without short negative numbers, C46) and for those the encoder wrote (within the limits of C20)."
  },
  {
   "property": "C69",
   "status": "partial",
   "theorems": [
    "Fleece.Props.C69_reads_partial",
    "Fleece.Props.C69_incomplete",
    "Fleece.Props.C69_refuted",
    "Fleece.Props.C69_long",
    "Fleece.Props.C69_cases",
    "Fleece.Props.C69_refuted_document"
   ],
   "note": "Proved for all complete prefixes of at most ten bytes whose number fits 64 bits and for all incomplete ones (where the checked build panics from eleven bytes on). Refuted for all numbers over 64 bits in ten bytes, which are read modulo 2^64, and for all prefixes of eleven bytes; longer ones are refused, by the checked build with a panic. The cases are exhaustive."
  },
  {
   "property": "C70",
   "status": "partial",
   "theorems": [
    "Fleece.Props.C70_true_partial",
    "Fleece.Props.C70_release_partial",
    "Fleece.Props.C70_sized",
    "Fleece.Props.C70_root",
    "Fleece.Props.C70_kind",
    "Fleece.Props.C70_refuted_release",
    "Fleece.Props.C70_refuted_count"
   ],
   "note": "Proved for all errors of the checked build, with the announced count taken modulo 2^64 (C69), and for the other build where the checked one does not panic. Refuted without overflow checks for dicts that announce 2^63 entries or more, and in any build for counts over 64 bits. The errors about the size, the root and the kind are characterised exactly, in both builds. The texts of errors are in C75."
  },
  {
   "property": "C71",
   "status": "partial",
   "theorems": [
    "Fleece.Props.C71_debug_partial",
    "Fleece.Props.C71_release_partial",
    "Fleece.Props.C71_refuted"
   ],
   "note": "Proved for debug builds without conditions, and for release builds where from_bytes of a debug build accepts the output (C21). Refuted for release builds: every array of one nonzero u64 whose last 57 bits are zero is handed out, and reading its element leaves the buffer."
  },
  {
   "property": "C72",
   "status": "partial",
   "theorems": [
    "Fleece.Props.C72_hit",
    "Fleece.Props.C72_hit_with",
    "Fleece.Props.C72_shown_partial",
    "Fleece.Props.C72_agrees_partial",
    "Fleece.Props.C72_refuted_order",
    "Fleece.Props.C72_refuted_mixed",
    "Fleece.Props.C72_refuted_table"
   ],
   "note": "Nothing is made up: proved for all bytes. What is found is shown if iteration gets to the end. The equivalence is proved for dicts whose keys are in order, with shared keys known and other keys not in the table; each condition is needed (refuted without)."
  },
  {
   "property": "C73",
   "status": "partial",
   "theorems": [
    "Fleece.Props.C73_floats_partial",
    "Fleece.Props.C73_single",
    "Fleece.Props.C73_integers",
    "Fleece.Props.C73_fraction",
    "Fleece.Props.C73_large",
    "Fleece.Props.C73_below",
    "Fleece.Props.C73_refuted"
   ],
   "note": "Proved for all floats whose bytes are within the value. to_bool is wrong for every number between -1 and 1, to_unsigned_int from 2^63 on and below 0: refuted as families. Conversions of the hardware are a hypothesis (Ieee), shown satisfiable."
  },
  {
   "property": "C74",
   "status": "partial",
   "theorems": [
    "Fleece.Props.C74_format",
    "Fleece.Props.C74_convert",
    "Fleece.Props.C74_copy",
    "Fleece.Props.C74_decoded",
    "Fleece.Props.C74_any_depth"
   ],
   "note": "Proved: exactly as many nested calls as the document is deep (converting and copying: for values they can convert, C34 and C37), never more than decoding took, at most 3/2 of the number of bytes. That a fixed number is enough for all documents is false (C74_any_depth)."
  },
  {
   "property": "C75",
   "status": "partial",
   "theorems": [
    "Fleece.Props.C75_decode",
    "Fleece.Props.C75_encode",
    "Fleece.Props.C75_partial",
    "Fleece.Props.C75_numbers",
    "Fleece.Props.C75_refuted"
   ],
   "note": "Proved for all errors but Error::Message, whose text is whatever serde hands over and so can be that of any other error (C75_refuted)."
  },
  {
   "property": "C76",
   "status": "proved",
   "theorems": [
    "Fleece.Props.C76_sound",
    "Fleece.Props.C76_unchecked",
    "Fleece.Props.C76_complete",
    "Fleece.Props.C76_unambiguous",
    "Fleece.Props.C76_exact",
    "Fleece.Props.C76_extends",
    "Fleece.Props.C76_needs_negative",
    "Fleece.Props.C76_needs_constant",
    "Fleece.Props.C76_needs_text",
    "Fleece.Props.C76_needs_count",
    "Fleece.Props.C76_needs_key",
    "Fleece.Props.C76_needs_unnamed",
    "Fleece.Props.C76_needs_external",
    "Fleece.Props.C76_total"
   ],
   "note": "Soundness in both build profiles, completeness with overflow checks, as the statement says. The oddities are faults of the reader (C46, C69, C70 have some of them in detail); the C76_needs theorems show that each is needed."
  },
  {
   "property": "C77",
   "status": "partial",
   "theorems": [
    "Fleece.Props.C77_growing_partial",
    "Fleece.Props.C77_once_partial",
    "Fleece.Props.C77_refuted_lost",
    "Fleece.Props.C77_refuted_renamed",
    "Fleece.Props.C77_refuted_lookup",
    "Fleece.Props.C77_large_partial",
    "Fleece.Props.C77_large_array",
    "Fleece.Props.C77_lookup_partial",
    "Fleece.Props.C77_lookup_large_partial",
    "Fleece.Props.C77_lookup_late_partial",
    "Fleece.Props.C77_lookup_late_large_partial"
   ],
   "note": "False in general: C77_refuted_lost and C77_refuted_renamed for every key that gets a code, C77_refuted_lookup for get. Proved for documents up to 16383 bytes (weighed as in C20) or roomy ones up to 1 GiB (C77_large_partial), and tables that go on from the one in use, which any table does if none is. get finds the keys too if the encoder has a table from the start (C77_lookup_partial, C77_lookup_large_partial), with the conditions of C30. If it has none at first, under tables without the keys written before the first was given (C77_lookup_late_partial, C77_lookup_late_large_partial)."
  },
  {
   "property": "C78",
   "status": "partial",
   "theorems": [
    "Fleece.Props.C78_any_bytes",
    "Fleece.Props.C78_release_partial",
    "Fleece.Props.C78_strings",
    "Fleece.Props.C78_refused",
    "Fleece.Props.C78_only_states",
    "Fleece.Props.C78_refuted",
    "Fleece.Props.C78_refuted_bytes"
   ],
   "note": "What it does on any bytes is proved exactly for builds with debug assertions, and for release builds on bytes that those accept; the full claim is refuted by C78_refuted and C78_refuted_bytes."
  },
  {
   "property": "C79",
   "status": "proved",
   "theorems": [
    "Fleece.Props.C79_same",
    "Fleece.Props.C79_lines",
    "Fleece.Props.C79_faithful",
    "Fleece.Props.C79_shows"
   ],
   "note": "core::fmt's builders and PadAdapter are modelled from their documentation and source; the text of floats is left open but for the characters in it."
  },
  {
   "property": "C80",
   "status": "partial",
   "theorems": [
    "Fleece.Props.C80_calls",
    "Fleece.Props.C80_answer",
    "Fleece.Props.C80_loads",
    "Fleece.Props.C80_document_partial",
    "Fleece.Props.C80_large_partial"
   ],
   "note": "The documents leave out what C20_small_partial and C20_large_partial leave out: those over 16 KiB with a collection neither clearly small nor clearly large, and one-byte names in small collections (false there, C29_refuted_short). Names must be UTF-8, which insertions of up to 15 bytes keep."
  },
  {
   "property": "C81",
   "status": "proved",
   "theorems": [
    "Fleece.Props.C81_iter",
    "Fleece.Props.C81_text",
    "Fleece.Props.C81_lines",
    "Fleece.Props.C81_faithful"
   ],
   "note": "That the map hands out its entries in the order of insertion is part of the model of folklore's map (Model/SharedKeys.lean)."
  }
 ]
}
