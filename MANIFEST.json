{
 "claims": [
  {
   "property": "C01",
   "status": "proved",
   "theorems": [
    "Ssz.C01_round_trip",
    "Ssz.C01_written"
   ],
   "note": "For all legal types whose sizes are below 2^63 bytes. C01_written is without a bound on the encoding: whatever is written is read as an equal value."
  },
  {
   "property": "C02",
   "status": "partial",
   "theorems": [
    "Ssz.C02_accepts_exactly_partial",
    "Ssz.C02_canonical_iff_partial",
    "Ssz.C02_long_refuted",
    "Ssz.C02_canonical_refuted",
    "Ssz.C02_canonical_partial",
    "Ssz.C02_only_input_partial",
    "Ssz.C02_canonical_types_partial"
   ],
   "note": "False as stated: a list of variable-size elements accepts a zero first offset followed by anything (C02_canonical_refuted). Proved instead, for every legal type: the accepted inputs are exactly those of Spec.Accepts (C02_accepts_exactly_partial); a value has one accepted input iff it holds no empty list of variable-size elements (C02_canonical_iff_partial); the claim itself for every type without such lists. Inputs may have any length up to the 2^63 bytes a slice can have. From 2^32 bytes on a decoded value may not be written at all (C02_long_refuted); it still has no second input (C02_only_input_partial)."
  },
  {
   "property": "C03",
   "status": "partial",
   "theorems": [
    "Ssz.C03_panics_exactly_partial",
    "Ssz.C03_short_no_panic_partial",
    "Ssz.C03_decode_panics",
    "Ssz.C03_decode_panics_debug",
    "Ssz.C03_decode_no_panic_partial",
    "Ssz.C03_decode_no_panic_fixed_partial"
   ],
   "note": "False as stated: lists of variable-size elements panic in every build, structs with two variable-size fields in debug builds (witnesses C03_decode_panics, C03_decode_panics_debug). Proved instead, for every legal type and both builds: decoding panics exactly on Spec.Crashes (C03_panics_exactly_partial); never on fewer than eight bytes; never for types without variable-size elements (release), with at most one variable-size field per struct (debug), and for fixed-size types. For inputs of any length a slice can have."
  },
  {
   "property": "C04",
   "status": "proved",
   "theorems": [
    "Ssz.C04_decoded_valid"
   ],
   "note": ""
  },
  {
   "property": "C05",
   "status": "proved",
   "theorems": [
    "Ssz.C05_conforms",
    "Ssz.C05_written",
    "Ssz.C05_decode_conforms"
   ],
   "note": "Encoding and decoding side."
  },
  {
   "property": "C06",
   "status": "proved",
   "theorems": [
    "Ssz.C06_appends"
   ],
   "note": ""
  },
  {
   "property": "C07",
   "status": "proved",
   "theorems": [
    "Ssz.C07_fixed_size"
   ],
   "note": ""
  },
  {
   "property": "C08",
   "status": "proved",
   "theorems": [
    "Ssz.C08_injective"
   ],
   "note": "Equality is Rust's ==, i.e. equality of norm."
  },
  {
   "property": "C09",
   "status": "proved",
   "theorems": [
    "Ssz.C09_serialize_total",
    "Ssz.C09_serialize_valid",
    "Ssz.C09_overlong_list",
    "Ssz.C09_overlong_bitlist"
   ],
   "note": "Exact characterisation of Ok, for every storable value."
  },
  {
   "property": "C10",
   "status": "partial",
   "theorems": [
    "Ssz.C10_buffer_refuted",
    "Ssz.C10_buffer_partial",
    "Ssz.C10_left_partial",
    "Ssz.C10_left_variant"
   ],
   "note": "False for Option and derived enums, which leave selector bytes (C10_buffer_refuted). C10_left_partial says, for every type and value, exactly which bytes a failing serialize leaves: the selectors of the value and of the payloads directly inside it. Nothing is left for every type other than Option and enums (C10_buffer_partial)."
  },
  {
   "property": "C11",
   "status": "proved",
   "theorems": [
    "Ssz.C11_exact_length"
   ],
   "note": ""
  },
  {
   "property": "C12",
   "status": "proved",
   "theorems": [
    "Ssz.C12_encode_selector",
    "Ssz.C12_decode_selector",
    "Ssz.C12_reject"
   ],
   "note": ""
  },
  {
   "property": "C13",
   "status": "proved",
   "theorems": [
    "Ssz.C13_list_length",
    "Ssz.C13_vector_length"
   ],
   "note": ""
  },
  {
   "property": "C14",
   "status": "proved",
   "theorems": [
    "Ssz.C14_fields_tile"
   ],
   "note": ""
  },
  {
   "property": "C15",
   "status": "proved",
   "theorems": [
    "Ssz.C15_option_encode",
    "Ssz.C15_option_decode",
    "Ssz.C15_option_root",
    "Ssz.C15_option_generalized_index"
   ],
   "note": "Encoding, decoding, root and generalized index."
  },
  {
   "property": "C16",
   "status": "proved",
   "theorems": [
    "Ssz.C16_array_encode",
    "Ssz.C16_array_decode",
    "Ssz.C16_array_root",
    "Ssz.C16_array_traits"
   ],
   "note": ""
  },
  {
   "property": "C17",
   "status": "partial",
   "theorems": [
    "Ssz.C17_newtype_encoding_partial",
    "Ssz.C17_newtype_root_partial",
    "Ssz.C17_newtype_composite_partial",
    "Ssz.C17_newtype_element_refuted"
   ],
   "note": "Encoding and decoding: proved in every place a newtype can stand. Root, generalized indices and proofs: proved for the newtype itself, and in every place when the wrapped type is not a packed basic type. False for the root of a collection whose elements are newtypes of a basic type (C17_newtype_element_refuted)."
  },
  {
   "property": "C18",
   "status": "proved",
   "theorems": [
    "Ssz.C18_vector_from_vec",
    "Ssz.C18_vector_from_slice",
    "Ssz.C18_vector_zero",
    "Ssz.C18_list_from",
    "Ssz.C18_vector_default",
    "Ssz.C18_bitvector_from_bools",
    "Ssz.C18_bitlist_from_bools",
    "Ssz.C18_bits_from_bytes"
   ],
   "note": "Vector, List, Bitvector, Bitlist, from owned data, slices, booleans and bytes. A Bitvector<0> is excluded: its Default panics."
  },
  {
   "property": "C19",
   "status": "partial",
   "theorems": [
    "Ssz.C19_operations",
    "Ssz.C19_observations",
    "Ssz.C19_stored",
    "Ssz.C19_encoding_refuted",
    "Ssz.C19_encoding_partial",
    "Ssz.C19_root_partial",
    "Ssz.C19_encoding_exact_partial",
    "Ssz.C19_encoding_iff_partial",
    "Ssz.C19_round_trip_iff_partial",
    "Ssz.C19_root_exact_partial",
    "Ssz.C19_root_iff_partial"
   ],
   "note": "Operations act on the bit sequence (proved). Encoding and root depend on stale storage bits after pop of a set bit (C19_encoding_refuted); proved for all sequences without such pops, and for every reachable state: what exactly is written and hashed (C19_encoding_exact_partial, C19_root_exact_partial), and that the encoding, the round trip and (for a hash without collisions among the inputs used) the root are right if and only if no stale bit is set."
  },
  {
   "property": "C20",
   "status": "proved",
   "theorems": [
    "Ssz.C20_set",
    "Ssz.C20_bits_only",
    "Ssz.C20_encoding",
    "Ssz.C20_default"
   ],
   "note": ""
  },
  {
   "property": "C21",
   "status": "partial",
   "theorems": [
    "Ssz.C21_decode_iff_partial",
    "Ssz.C21_panic_iff_partial",
    "Ssz.C21_round_trip_iff_partial",
    "Ssz.C21_round_trip_refuted",
    "Ssz.C21_empty_refuted",
    "Ssz.C21_round_trip_partial",
    "Ssz.C21_root"
   ],
   "note": "Round trip is false for overlapping variants and empty encodings (witnesses). Proved for all variants and values: it succeeds iff the encoding is nonempty and each later variant rejects it (C21_round_trip_iff_partial); exactly which inputs decode to which value and which panic (C21_decode_iff_partial, C21_panic_iff_partial). Root: proved."
  },
  {
   "property": "C22",
   "status": "proved",
   "theorems": [
    "Ssz.C22_serializable",
    "Ssz.C22_hashTreeRoot",
    "Ssz.C22_indexable",
    "Ssz.C22_prove",
    "Ssz.C22_simpleSerialize",
    "Ssz.C22_legal",
    "Ssz.C22_complete"
   ],
   "note": "For every item: each of the five derive macros returns iff the item has the legal shape and well-formed attributes; accepted items denote legal types and every legal container, newtype and union has an accepted declaration. Parsing by syn is not modelled."
  },
  {
   "property": "C23",
   "status": "partial",
   "theorems": [
    "Ssz.C23_vector_refuted",
    "Ssz.C23_bitvector_refuted",
    "Ssz.C23_zero_bound_partial",
    "Ssz.C23_vector_partial",
    "Ssz.C23_vector_ignored_partial",
    "Ssz.C23_bitvector_exact_partial",
    "Ssz.C23_bitvector_decode_partial"
   ],
   "note": "False as stated (witnesses for Vector and Bitvector). Proved: bound zero is rejected; for every positive N the length is ignored by serialize, with the exact bytes and count (C23_vector_ignored_partial, C23_bitvector_exact_partial); decoding rejects the encoding of a Vector of wrong length and accepts that of a Bitvector exactly if N bits have the same bytes."
  },
  {
   "property": "C24",
   "status": "proved",
   "theorems": [
    "Ssz.C24_limit",
    "Ssz.C24_no_limit"
   ],
   "note": "Both with and without a limit."
  },
  {
   "property": "C25",
   "status": "partial",
   "theorems": [
    "Ssz.C25_merkleize_partial",
    "Ssz.C25_list_partial",
    "Ssz.C25_bitlist_refuted"
   ],
   "note": "Proved for List and for merkleization itself. A Bitlist with too many bits also fails, but with a serialization error instead (C25_bitlist_refuted)."
  },
  {
   "property": "C26",
   "status": "proved",
   "theorems": [
    "Ssz.C26_zero_table",
    "Ssz.C26_lookups"
   ],
   "note": "Table entries and lookups."
  },
  {
   "property": "C27",
   "status": "partial",
   "theorems": [
    "Ssz.C27_conforms_partial",
    "Ssz.C27_exact_partial",
    "Ssz.C27_conforms_refuted",
    "Ssz.C27_wrapped_refuted"
   ],
   "note": "False for collections of arrays or newtypes of basic types, whose root is not the one of the specification (C27_conforms_refuted, with the real SHA-256). Proved for all types without these; arrays that are exactly one chunk, as [u8; 32], are covered. C27_exact_partial says what the root is for every type. C27_wrapped_refuted: without overflow checks the limit of List<u64, 2^61> wraps and nonempty lists have no root."
  },
  {
   "property": "C28",
   "status": "partial",
   "theorems": [
    "Ssz.C28_binding_partial",
    "Ssz.C28_binding_std_partial",
    "Ssz.C28_half_ignored",
    "Ssz.C28_binding_refuted",
    "Ssz.C28_checked_partial"
   ],
   "note": "False without overflow checks for lists with a limit above 2^63: the second half of the elements does not enter the root (C28_half_ignored, C28_binding_refuted). Proved for all types with limits in range, in the tree the library builds, and in the specification tree for the types where they agree; with overflow checks also for list limits of any size (C28_checked_partial)."
  },
  {
   "property": "C29",
   "status": "partial",
   "theorems": [
    "Ssz.C29_overlong_refuted",
    "Ssz.C29_overlong_iff_partial",
    "Ssz.C29_overlong_partial",
    "Ssz.C29_overlong_bitlist_partial"
   ],
   "note": "False for lists of packed basic types when the surplus fits the last chunk (C29_overlong_refuted). C29_overlong_iff_partial: for every element type and number of in-bounds elements, exactly when there is a root and which. Also proved: no root for over-long lists of elements that are not packed, whatever these are, and for over-long bitlists."
  },
  {
   "property": "C30",
   "status": "partial",
   "theorems": [
    "Ssz.C30_equal_refuted",
    "Ssz.C30_equal_partial",
    "Ssz.C30_encoding_exact_partial",
    "Ssz.C30_encoding_iff_partial",
    "Ssz.C30_encoding_std_iff_partial",
    "Ssz.C30_round_trip_iff_partial",
    "Ssz.C30_root_exact_partial",
    "Ssz.C30_root_iff_partial"
   ],
   "note": "False for bitlists after popping a set bit (C30_equal_refuted). Proved for all values without stale bits (C30_equal_partial). For in-bounds values of every type with any stale bits: exactly what is written and hashed, that equal values are written alike if and only if they agree in all stale bits but the first of each Bitlist, that they survive the round trip if and only if these are clear, and that two values have the same root if and only if they are equal with the same stale bits (unless a collision is exhibited)."
  },
  {
   "property": "C31",
   "status": "partial",
   "theorems": [
    "Ssz.C31_root_panics",
    "Ssz.C31_no_panic_partial",
    "Ssz.C31_exact_partial",
    "Ssz.C31_bounded",
    "Ssz.C31_empty_panics"
   ],
   "note": "False for list limits out of range (C31_root_panics, C31_empty_panics). C31_exact_partial: with overflow checks, an in-bounds value panics exactly if it contains a list whose limit is out of range; all other values have their root in every build. C31_no_panic_partial also covers values beyond their bounds, for types with limits in range."
  },
  {
   "property": "C32",
   "status": "partial",
   "theorems": [
    "Ssz.C32_points_partial",
    "Ssz.C32_points_packed_partial",
    "Ssz.C32_points_refuted",
    "Ssz.C32_points_packed_refuted"
   ],
   "note": "The code violates the claim for collections of newtypes of basic values and of arrays of packed values (two refutations with witnesses); arrays of exactly one chunk, as [u8; 32], are fine. Proved against the consensus specification for types without those (Std), and against the trees the code hashes for paths that do not enter a collection of arrays of packed values (FlatOn). In builds without overflow checks the theorems ask that the index and the chunk counts on the path fit in 64 bits."
  },
  {
   "property": "C33",
   "status": "partial",
   "theorems": [
    "Ssz.C33_accepts_partial",
    "Ssz.C33_accepts_fits_partial",
    "Ssz.C33_checked_partial",
    "Ssz.C33_accepts_refuted"
   ],
   "note": "The code refuses the length of a Bitlist (refutation). Proved for all types and all other paths: every accepted path is valid; in builds without overflow checks every valid path is accepted; in builds with overflow checks every valid path is accepted or panics, and a path, valid or not, panics exactly if the index or a chunk count after a beginning of it does not fit in 64 bits (C33_checked_partial)."
  },
  {
   "property": "C34",
   "status": "partial",
   "theorems": [
    "Ssz.C34_overflow_refuted",
    "Ssz.C34_exact_partial",
    "Ssz.C34_outcome_partial",
    "Ssz.C34_exact_std_partial",
    "Ssz.C34_right_iff_partial",
    "Ssz.C34_count_partial",
    "Ssz.C34_count_refuted"
   ],
   "note": "The code violates the claim: an overflow of the index wraps in builds without overflow checks and panics with them (C34_overflow_refuted); so does an overflow of the chunk count of a collection on the path, even where the right index fits (C34_count_refuted). C34_right_iff_partial: for all types and all valid paths except the length of a Bitlist, the result is the right index if and only if it fits in 64 bits and no chunk count on the path overflows. The exact outcome otherwise: a panic with overflow checks; without, the index modulo 2^64 if the chunk counts fit (C34_outcome_partial), and an index that is too small if they do not and the right one fits (C34_count_partial)."
  },
  {
   "property": "C35",
   "status": "partial",
   "theorems": [
    "Ssz.C35_compose_partial",
    "Ssz.C35_compose_refuted"
   ],
   "note": "Refuted for overflowing indices in builds without overflow checks. Proved in all other cases: with overflow checks always, without them if the index and the chunk counts on the path fit in 64 bits."
  },
  {
   "property": "C36",
   "status": "partial",
   "theorems": [
    "Ssz.C36_exact_partial",
    "Ssz.C36_witness_partial",
    "Ssz.C36_witness_refuted",
    "Ssz.C36_stored_partial"
   ],
   "note": "The code violates the claim for Vector<[u8; 4], 16> (refutation with SHA-256). Proved for all types: the witness is the root of the tree with as many leaves as chunk_count says; this is hash_tree_root whenever chunk_count of the type itself gives the right depth (SameDepth), which excludes only some collections of arrays of packed values. Also for values whose Bitlists have any stale bits (theorem with _stored)."
  },
  {
   "property": "C37",
   "status": "partial",
   "theorems": [
    "Ssz.C37_verifies_node_partial",
    "Ssz.C37_verifies_partial",
    "Ssz.C37_verifies_refuted",
    "Ssz.C37_stored_partial",
    "Ssz.C37_verifies_iff_partial"
   ],
   "note": "The code violates the claim for paths into a variant that the value does not have (refutation with SHA-256). Proved, for every hash function, for paths that name the actual variants and do not enter a collection of arrays of packed values, and for every path whose index has a node. Also for values whose Bitlists have any stale bits (theorem with _stored). C37_verifies_iff_partial: for every path, the proof returned verifies if and only if the tree has a node at its index, unless a collision or a hash with 24 zero bytes is exhibited."
  },
  {
   "property": "C38",
   "status": "partial",
   "theorems": [
    "Ssz.C38_leaf_partial",
    "Ssz.C38_leaf_packed_partial",
    "Ssz.C38_node_partial",
    "Ssz.C38_leaf_refuted",
    "Ssz.C38_stored_partial",
    "Ssz.C38_verified_partial"
   ],
   "note": "The code violates the claim in builds without overflow checks when the index wraps (refutation with SHA-256). Proved for indices that fit in 64 bits, against the consensus specification for Std types and against the trees the code hashes for paths that do not enter a collection of arrays of packed values. Also for values whose Bitlists have any stale bits (theorem with _stored). C38_verified_partial: for every path, also with a wrapped index or into an absent variant, a proof that verifies carries the node at its index, with the exceptions of C37."
  },
  {
   "property": "C39",
   "status": "partial",
   "theorems": [
    "Ssz.C39_panics_refuted",
    "Ssz.C39_panics_array_refuted",
    "Ssz.C39_panics_large_refuted",
    "Ssz.C39_exact_partial",
    "Ssz.C39_full_partial",
    "Ssz.C39_active_partial",
    "Ssz.C39_exists_partial"
   ],
   "note": "The code panics for a path through a missing list element, for Vector<[u8; 64], 1>, and for an empty List<u8, 2^62> (three refutations for every build). Proved: for all types and paths the exact condition for a panic; no panic on paths to existing parts; no panic on any path if all lists are full and packed elements have at most 32 bytes; on paths that name the actual variants and do not enter a collection of arrays of packed values, a panic exactly if the tree has no node at the index."
  },
  {
   "property": "C40",
   "status": "proved",
   "theorems": [
    "Ssz.C40_sound",
    "Ssz.C40_complete"
   ],
   "note": "Also binds the branch, and the converse (completeness)."
  },
  {
   "property": "C41",
   "status": "partial",
   "theorems": [
    "Ssz.C41_no_panic_partial",
    "Ssz.C41_no_panic_multi_partial",
    "Ssz.C41_no_panic_depth_partial",
    "Ssz.C41_branch_panics"
   ],
   "note": "verify, is_valid_merkle_branch_for_generalized_index and verify_merkle_proof: proved. is_valid_merkle_branch panics for every depth above 64 (C41_branch_panics); proved up to depth 64."
  },
  {
   "property": "C42",
   "status": "proved",
   "theorems": [
    "Ssz.C42_length",
    "Ssz.C42_zero",
    "Ssz.C42_branch_length"
   ],
   "note": ""
  },
  {
   "property": "C43",
   "status": "proved",
   "theorems": [
    "Ssz.C43_verifiers_agree"
   ],
   "note": "The two return the same result, errors included."
  },
  {
   "property": "C44",
   "status": "proved",
   "theorems": [
    "Ssz.C44_depth_index"
   ],
   "note": "The two return the same result, errors included."
  },
  {
   "property": "C45",
   "status": "proved",
   "theorems": [
    "Ssz.C45_complete"
   ],
   "note": "For all lists of positions, also with repetitions and ancestors."
  },
  {
   "property": "C46",
   "status": "partial",
   "theorems": [
    "Ssz.C46_duplicate_refuted",
    "Ssz.C46_ancestor_refuted",
    "Ssz.C46_sound_partial",
    "Ssz.C46_exact_partial",
    "Ssz.C46_topmost_partial",
    "Ssz.C46_unchecked_refuted"
   ],
   "note": "False for repeated indices and for an index below another (C46_duplicate_refuted, C46_ancestor_refuted; C46_unchecked_refuted: such leaves are never looked at). Proved for antichains (C46_sound_partial), and for every list of positions at each index with no other above it (C46_topmost_partial); exact acceptance condition for every list of indices (C46_exact_partial)."
  },
  {
   "property": "C47",
   "status": "partial",
   "theorems": [
    "Ssz.C47_panics",
    "Ssz.C47_no_panic_partial",
    "Ssz.C47_no_panic_index_partial"
   ],
   "note": "Panics exactly when the numbers of nodes are right and no index is at least 1 (C47_panics is the empty case)."
  },
  {
   "property": "C48",
   "status": "proved",
   "theorems": [
    "Ssz.C48_helpers"
   ],
   "note": ""
  },
  {
   "property": "C49",
   "status": "proved",
   "theorems": [
    "Ssz.C49_single"
   ],
   "note": "The two return the same result, errors included."
  },
  {
   "property": "C50",
   "status": "proved",
   "theorems": [
    "Ssz.C50_serialize",
    "Ssz.C50_deserialize",
    "Ssz.C50_root",
    "Ssz.C50_index",
    "Ssz.C50_prove",
    "Ssz.C50_verify",
    "Ssz.C50_branch",
    "Ssz.C50_merkleProof",
    "Ssz.C50_multiproof",
    "Ssz.C50_transparent"
   ],
   "note": "Every modelled entry point: the result without overflow checks equals the result with them unless the latter panics, for every type, value, path and hash."
  },
  {
   "property": "C51",
   "status": "proved",
   "theorems": [
    "Ssz.C51_list",
    "Ssz.C51_vector",
    "Ssz.C51_bitlist",
    "Ssz.C51_bitvector",
    "Ssz.C51_valid",
    "Ssz.C51_round_trip"
   ],
   "note": "For List, Vector, Bitlist and Bitvector at every nesting depth over any element implementation; includes the round trip through text. serde's data model and the hex form of alloy_primitives are assumptions of the model."
  },
  {
   "property": "C52",
   "status": "partial",
   "theorems": [
    "Ssz.C52_as_union_partial",
    "Ssz.C52_witness_partial",
    "Ssz.C52_witness_never",
    "Ssz.C52_witness_refuted"
   ],
   "note": "False for every transparent enum: GeneralizedIndexable and Prove ignore the attribute (C52_witness_refuted with SHA-256; C52_witness_never: a witness equal to the root would be a fixed point of the hash). Proved: what the prover returns instead, namely index, proof and witness of the same enum without the attribute."
  },
  {
   "property": "C53",
   "status": "proved",
   "theorems": [
    "Ssz.C53_data",
    "Ssz.C53_elements",
    "Ssz.C53_again",
    "Ssz.C53_again_long"
   ],
   "note": "For inputs of any length a slice can have (C53_again, that the value is written again, below 4 GiB: longer ones may be refused, C02_long_refuted), legal types whose sizes are below 2^63 bytes, both builds."
  },
  {
   "property": "C54",
   "status": "partial",
   "theorems": [
    "Ssz.C54_range_refuted",
    "Ssz.C54_low_bits_partial",
    "Ssz.C54_sound_partial"
   ],
   "note": "False as stated: bits of the index above the depth are ignored, so index 2^depth + i is accepted whenever i is (C54_range_refuted). Proved instead: the answer is that for the index modulo 2^depth, so what is accepted is a sound proof for that leaf."
  },
  {
   "property": "C55",
   "status": "proved",
   "theorems": [
    "Ssz.C55_panics_iff",
    "Ssz.C55_valid",
    "Ssz.C55_zeros"
   ],
   "note": "C55_panics_iff for every type; C55_valid for legal types; C55_zeros for legal fixed-size types below 4 GiB. The default of an enum is taken to be that of its first variant; the standard library implements Default for arrays of at most 32 elements only, the model for all."
  },
  {
   "property": "C56",
   "status": "proved",
   "theorems": [
    "Ssz.C56_text",
    "Ssz.C56_injective"
   ],
   "note": "The formatter is taken to accept all writes; alternate flags are ignored by the code as well."
  },
  {
   "property": "C57",
   "status": "partial",
   "theorems": [
    "Ssz.C57_node_partial",
    "Ssz.C57_exact_partial",
    "Ssz.C57_zero",
    "Ssz.C57_below_length_refuted",
    "Ssz.C57_missing_refuted",
    "Ssz.C57_where_partial",
    "Ssz.C57_verifies_partial"
   ],
   "note": "The code violates the claim: below the length of a list the prover returns a proof that does not verify (refutation with SHA-256), and below a missing element it panics (refutation for every build). Proved: the exact result wherever the tree of a Flat type has a node, the error for index 0, and for all types, values and indices the exact outcome as a recursive answer over the layers of the value. C57_where_partial: the prover answers only at nodes and below lengths and selectors; C57_verifies_partial: of these proofs exactly the ones at nodes verify, unless a collision or a hash with 24 zero bytes is exhibited."
  },
  {
   "property": "C58",
   "status": "proved",
   "theorems": [
    "Ssz.C58_crate",
    "Ssz.C58_list",
    "Ssz.C58_vector",
    "Ssz.C58_array",
    "Ssz.C58_option",
    "Ssz.C58_newtype",
    "Ssz.C58_struct",
    "Ssz.C58_union",
    "Ssz.C58_union_none",
    "Ssz.C58_transparent",
    "Ssz.C58_round_trip",
    "Ssz.C58_list_bounds",
    "Ssz.C58_vector_bounds",
    "Ssz.C58_array_bounds",
    "Ssz.C58_option_bounds",
    "Ssz.C58_newtype_bounds",
    "Ssz.C58_struct_bounds",
    "Ssz.C58_union_bounds",
    "Ssz.C58_transparent_bounds",
    "Ssz.C58_list_root",
    "Ssz.C58_list_root_basic",
    "Ssz.C58_vector_root",
    "Ssz.C58_vector_root_basic",
    "Ssz.C58_struct_root",
    "Ssz.C58_option_root",
    "Ssz.C58_newtype_root",
    "Ssz.C58_union_root",
    "Ssz.C58_union_none_root",
    "Ssz.C58_transparent_root",
    "Ssz.C58_crate_reads",
    "Ssz.C58_list_reads",
    "Ssz.C58_vector_reads",
    "Ssz.C58_array_reads",
    "Ssz.C58_option_reads",
    "Ssz.C58_newtype_reads",
    "Ssz.C58_struct_reads",
    "Ssz.C58_union_reads",
    "Ssz.C58_union_none_reads",
    "Ssz.C58_transparent_reads",
    "Ssz.C58_reads_encodings"
   ],
   "note": "For every implementation of the traits that follows a codec (Spec/Parts.lean), and, for the inputs accepted, every implementation of Deserialize that reads a format (Spec/Reads.lean); transparent enums round trip for the values that round trip at all (C21), and read an input as the last declared variant that accepts it. Hypotheses: sizes and inputs below 2^63 bytes, encodings below 2^32 bytes, collections held in memory below 2^58 elements."
  },
  {
   "property": "C59",
   "status": "partial",
   "theorems": [
    "Ssz.C59_variable_partial",
    "Ssz.C59_fixed_never",
    "Ssz.C59_fixed_refuted"
   ],
   "note": "False for every payload of a fixed-size type: the struct is four bytes longer, as any enum counts as variable-size (C59_fixed_never, witness C59_fixed_refuted). Proved for payloads of variable-size types."
  },
  {
   "property": "C60",
   "status": "partial",
   "theorems": [
    "Ssz.C60_decode_partial",
    "Ssz.C60_decode_release_partial",
    "Ssz.C60_decode_refuted"
   ],
   "note": "False without overflow checks: the error path for an offset beyond the input subtracts with wraparound and reports a provided length near 2^64 (C60_decode_refuted). Proved with overflow checks for all types; without them for the types whose structs have at most one variable-size field, and for every input on which the build with overflow checks does not panic."
  },
  {
   "property": "C61",
   "status": "proved",
   "theorems": [
    "Ssz.C61_serialize"
   ],
   "note": "Every type SSZ allows and every value, also values beyond their bounds."
  },
  {
   "property": "C62",
   "status": "proved",
   "theorems": [
    "Ssz.C62_path_error"
   ],
   "note": "Every type and every path; no hypotheses."
  },
  {
   "property": "C63",
   "status": "partial",
   "theorems": [
    "Ssz.C63_tree_debug_refuted"
   ],
   "note": "False for every tree: Debug takes the 32 bytes of a node for its hexadecimal text and unwraps the error (C63_tree_debug_refuted). Nothing of the property remains true. Debug for Tree exists with the feature serde only and the library does not call it."
  },
  {
   "property": "C64",
   "status": "partial",
   "theorems": [
    "Ssz.C64_update_partial",
    "Ssz.C64_update_refuted"
   ],
   "note": "The code violates the claim for paths into collections of arrays of packed values (refutation with SHA-256). Proved for all other paths in all types, with bounds under which trees fit in memory, and indices that fit in 64 bits."
  },
  {
   "property": "C65",
   "status": "partial",
   "theorems": [
    "Ssz.C65_compose_partial",
    "Ssz.C65_compose_refuted",
    "Ssz.C65_verify"
   ],
   "note": "The claim about verification is proved for all proofs. The code violates the claim about prove if the inner path stays at the root of a collection of arrays of packed values (refutation with SHA-256). Proved for all types and all other paths, with bounds under which trees fit in memory, and indices that fit in 64 bits."
  },
  {
   "property": "C66",
   "status": "proved",
   "theorems": [
    "Ssz.C66_crate",
    "Ssz.C66_vector",
    "Ssz.C66_list",
    "Ssz.C66_option",
    "Ssz.C66_newtype",
    "Ssz.C66_struct",
    "Ssz.C66_union",
    "Ssz.C66_transparent"
   ],
   "note": "For every implementation that resolves its paths (Spec/PartTrees.lean, Resolves): computes the index if it fits in 64 bits and, with overflow checks, never another one. Hypothesis: at most 2^56 chunks in a collection or fields in a struct."
  },
  {
   "property": "C67",
   "status": "partial",
   "theorems": [
    "Ssz.C67_crate",
    "Ssz.C67_list",
    "Ssz.C67_list_basic",
    "Ssz.C67_vector",
    "Ssz.C67_vector_basic",
    "Ssz.C67_option",
    "Ssz.C67_newtype",
    "Ssz.C67_struct",
    "Ssz.C67_union",
    "Ssz.C67_transparent_partial",
    "Ssz.C67_prove",
    "Ssz.C67_stored"
   ],
   "note": "Fails for transparent enums, which hash by the tree of the payload but prove by the tree of the enum (C67_transparent_partial says so for every implementation of the payloads; see C52). Proved for all other types, for every implementation of the parts that hashes and proves by a tree, with at most 2^56 chunks in a collection or fields in a struct and indices that fit in 64 bits. Also for values whose Bitlists have any stale bits (theorem with _stored)."
  },
  {
   "property": "C68",
   "status": "proved",
   "theorems": [
    "Ssz.C68_type",
    "Ssz.C68_instance",
    "Ssz.C68_serialize",
    "Ssz.C68_deserialize",
    "Ssz.C68_merkleization",
    "Ssz.C68_message"
   ],
   "note": "All errors, for every table of characters that the standard library prints unescaped."
  },
  {
   "property": "C69",
   "status": "proved",
   "theorems": [
    "Ssz.C69_list",
    "Ssz.C69_vector",
    "Ssz.C69_bound",
    "Ssz.C69_bits"
   ],
   "note": "Every element type whose Debug text can be read back; shown for integers, Bitlists, Bitvectors, and lists and vectors of these."
  },
  {
   "property": "C70",
   "status": "proved",
   "theorems": [
    "Ssz.C70_consistent",
    "Ssz.C70_unique",
    "Ssz.C70_unique_multi",
    "Ssz.C70_below"
   ],
   "note": "No assumption on the hash function: a collision among the strings hashed in verifying is the only way out. The uniqueness of multiproofs is for sets of indices of which none is below another."
  },
  {
   "property": "C71",
   "status": "partial",
   "theorems": [
    "Ssz.C71_written",
    "Ssz.C71_all_written",
    "Ssz.C71_least",
    "Ssz.C71_greatest",
    "Ssz.C71_unwritten",
    "Ssz.C71_short",
    "Ssz.C71_long_partial",
    "Ssz.C71_long_refuted"
   ],
   "note": "Bounds on what is written, and that both are attained, are proved for every legal type. The upper bound on accepted inputs holds for types without lists of variable-size elements; with them it is refuted (C71_long_refuted). Inputs of any length a slice can have."
  },
  {
   "property": "C72",
   "status": "proved",
   "theorems": [
    "Ssz.C72_written",
    "Ssz.C72_read",
    "Ssz.C72_raised",
    "Ssz.C72_upgrade",
    "Ssz.C72_root"
   ],
   "note": "The roots are compared for types with the same packing and the same depths of trees; both types have to be legal and within the sizes of a 64-bit machine."
  },
  {
   "property": "C73",
   "status": "proved",
   "theorems": [
    "Ssz.C73_equal",
    "Ssz.C73_equal_bytes",
    "Ssz.C73_round_trip",
    "Ssz.C73_cmp_equal",
    "Ssz.C73_order",
    "Ssz.C73_swap",
    "Ssz.C73_trans",
    "Ssz.C73_unused"
   ],
   "note": "For every type of the model. That == is equality of encodings is for in-bounds values without stale bits of legal types (stale bits: C30). Comparison of slices, bit slices, U256 and derived code is transcribed from the documentation of the standard library, bitvec and alloy_primitives."
  },
  {
   "property": "C74",
   "status": "partial",
   "theorems": [
    "Ssz.C74_single_partial",
    "Ssz.C74_claim_partial",
    "Ssz.C74_multi_partial",
    "Ssz.C74_arrays_refuted"
   ],
   "note": "Refuted for elements that are arrays of packed elements (C74_arrays_refuted), whose generalized indices are wrong. Otherwise for all types of the model with bounds in the supported range, indices that fit in 64 bits (without overflow checks; with them there is no other index), and multiproofs for positions of nodes of the tree, none above another (see C46)."
  },
  {
   "property": "C75",
   "status": "partial",
   "theorems": [
    "Ssz.C75_part_partial",
    "Ssz.C75_root_partial",
    "Ssz.C75_index_partial",
    "Ssz.C75_proof_partial",
    "Ssz.C75_arrays_refuted"
   ],
   "note": "Refuted where arrays of parts that are elements of a collection become arrays of roots (C75_arrays_refuted: the implementation packs arrays of Node, the specification does not; likewise it packs arrays of basic types, whose roots cannot stand in place of them). Otherwise for all types of the model with bounds in the supported range; proofs for paths that do not enter a collection of arrays of packed elements, name the active variants, and have indices that fit in 64 bits (without overflow checks; with them there is no other index)."
  },
  {
   "property": "C76",
   "status": "proved",
   "theorems": [
    "Ssz.C76_same",
    "Ssz.C76_exact",
    "Ssz.C76_limit",
    "Ssz.C76_merkleize",
    "Ssz.C76_root",
    "Ssz.C76_decoded",
    "Ssz.C76_prover",
    "Ssz.C76_value"
   ],
   "note": "On copies of the functions of merkleization with counters, which are proved to return the same (C76_same). Counted are calls of the hash function and iterations of the loops of merkleization; the loops of serialization inside pack are not counted (the amount of bytes is, through the number of chunks). C76_exact for up to 2^63 chunks. C76_prover: the tree that the prover builds is computed in full, at a cost that depends on the limit, as the source says (\"naive implementation\"). C76_value: the exact number for whole values within their bounds."
  },
  {
   "property": "C77",
   "status": "proved",
   "theorems": [
    "Ssz.C77_same",
    "Ssz.C77_linear",
    "Ssz.C77_hashed",
    "Ssz.C77_elements"
   ],
   "note": "Steps are counted by a copy of the decoder with counters, shown to return the same (C77_same). Decoding of transparent enums is counted in C82."
  },
  {
   "property": "C78",
   "status": "proved",
   "theorems": [
    "Ssz.C78_same",
    "Ssz.C78_verify",
    "Ssz.C78_verify_63",
    "Ssz.C78_branch",
    "Ssz.C78_multi",
    "Ssz.C78_multi_bound"
   ],
   "note": "Counted by copies of the functions with counters, shown to return the same (C78_same). Comparisons made by sort_by are not counted."
  },
  {
   "property": "C79",
   "status": "proved",
   "theorems": [
    "Ssz.C79_same",
    "Ssz.C79_bound",
    "Ssz.C79_exact",
    "Ssz.C79_linear",
    "Ssz.C79_deep"
   ],
   "note": "Steps are counted by a copy of the encoder with counters, shown to do the same (C79_same). Growth of buffers and transparent enums are not counted."
  },
  {
   "property": "C80",
   "status": "proved",
   "theorems": [
    "Ssz.C80_same",
    "Ssz.C80_exact",
    "Ssz.C80_prove",
    "Ssz.C80_room",
    "Ssz.C80_list",
    "Ssz.C80_bound"
   ],
   "note": "Calls are counted by a copy of the prover with counters, shown to return the same (C80_same). Not counted are the loops over the bits of an index (at most 64 iterations each) and compute_generalized_index. Types with a layer of more than 2^56 leaves are excluded (Shallow)."
  },
  {
   "property": "C81",
   "status": "partial",
   "theorems": [
    "Ssz.C81_same",
    "Ssz.C81_again_partial",
    "Ssz.C81_success",
    "Ssz.C81_used_refuted",
    "Ssz.C81_twice_refuted",
    "Ssz.C81_left_partial",
    "Ssz.C81_left_refuted"
   ],
   "note": "The code violates it: C81_used_refuted and C81_twice_refuted hold for every value, C81_left_refuted has a witness. What does hold is C81_again_partial, C81_success and C81_left_partial, for all types and values; nothing is excluded except indices of more than 64 bits, which do not exist."
  },
  {
   "property": "C82",
   "status": "proved",
   "theorems": [
    "Ssz.C82_crate",
    "Ssz.C82_list",
    "Ssz.C82_vector",
    "Ssz.C82_array",
    "Ssz.C82_option",
    "Ssz.C82_newtype",
    "Ssz.C82_struct",
    "Ssz.C82_union",
    "Ssz.C82_transparent",
    "Ssz.C82_steps",
    "Ssz.C82_nested_rejected",
    "Ssz.C82_nested_accepted",
    "Ssz.C82_nested_union"
   ],
   "note": "For parts of any implementation: each constructor keeps T.Same (the counted deserialize returns the same) and T.Linear. C82_steps is exact for transparent enums; the exponential growth is exact too."
  },
  {
   "property": "C83",
   "status": "partial",
   "theorems": [
    "Ssz.C83_same",
    "Ssz.C83_verify",
    "Ssz.C83_branch_partial",
    "Ssz.C83_branch_refuted",
    "Ssz.C83_deposit_refuted",
    "Ssz.C83_release_partial",
    "Ssz.C83_debug_partial",
    "Ssz.C83_outcome_partial",
    "Ssz.C83_index_refuted",
    "Ssz.C83_usize_refuted"
   ],
   "note": "The code violates it: C83_branch_refuted (all branches longer than the width, for example those of deposits), C83_index_refuted and C83_usize_refuted. What holds is proved for all widths up to 64: C83_verify for all proofs, C83_outcome_partial and the like for all types that meet FitsWidth. C83_same ties the functions of Model/Width.lean to those of the other theorems. The multiproof verifier does no arithmetic that depends on the width."
  },
  {
   "property": "C84",
   "status": "partial",
   "theorems": [
    "Ssz.C84_round_trip",
    "Ssz.C84_levels",
    "Ssz.C84_bounds",
    "Ssz.C84_more",
    "Ssz.C84_short_partial",
    "Ssz.C84_exact",
    "Ssz.C84_overflow_refuted",
    "Ssz.C84_index",
    "Ssz.C84_root",
    "Ssz.C84_prove"
   ],
   "note": "The code violates it: C84_overflow_refuted (for every amount of stack a valid encoding that overflows it). What holds of decoding all inputs is C84_short_partial, whose bound is the best one for fixed-size T (C84_exact). Encodings, decoded values, indices, roots and proofs are proved for all trees, for any implementation of T. One shape of recursive declaration is modelled: a value and a list of the struct itself."
  },
  {
   "property": "C85",
   "status": "partial",
   "theorems": [
    "Ssz.C85_same",
    "Ssz.C85_linear_partial",
    "Ssz.C85_value_partial",
    "Ssz.C85_reserved",
    "Ssz.C85_bound_refuted",
    "Ssz.C85_factor_refuted"
   ],
   "note": "Violated: List<T, N> reserves (first offset / 4) * size_of::<T>() bytes whatever N, also for inputs then rejected, and the size in memory is not limited by that of the encoding. Shown: linear in the input with a factor given by the type. Size in memory is a parameter; growth of vectors by doubling and the vectors of ContainerDeserializer (one entry per field) are not counted."
  },
  {
   "property": "C86",
   "status": "partial",
   "theorems": [
    "Ssz.C86_same",
    "Ssz.C86_exact_partial",
    "Ssz.C86_root_partial",
    "Ssz.C86_aliased",
    "Ssz.C86_wrapped_refuted",
    "Ssz.C86_root_refuted",
    "Ssz.C86_half_ignored",
    "Ssz.C86_binding_refuted"
   ],
   "note": "The code violates it for lists whose limit is out of range for the target: C86_wrapped_refuted (no root), C86_root_refuted (wrong root), C86_binding_refuted (the same root for different lists, whatever the hash function). Otherwise it is proved for all types without collections of usize: C86_exact_partial says exactly when there is a root and when there is a panic, C86_root_partial that it is the one of the specification. C86_same ties Model/WidthRoot.lean to the functions of the other theorems."
  },
  {
   "property": "C87",
   "status": "partial",
   "theorems": [
    "Ssz.C87_serialize_partial",
    "Ssz.C87_encoding_partial",
    "Ssz.C87_deserialize_partial",
    "Ssz.C87_accepts_partial",
    "Ssz.C87_panics_partial",
    "Ssz.C87_portable_partial",
    "Ssz.C87_errors_refuted",
    "Ssz.C87_usize_refuted",
    "Ssz.C87_usize_list_refuted",
    "Ssz.C87_size_refuted",
    "Ssz.C87_bitlist_refuted"
   ],
   "note": "The code violates it: C87_errors_refuted (numbers in errors), C87_usize_refuted and C87_usize_list_refuted (encodings of usize), C87_size_refuted (a type for which decoding always panics), C87_bitlist_refuted (a Bitlist that cannot be decoded). Otherwise it is proved for all types in the range of the target: C87_serialize_partial, C87_encoding_partial, C87_deserialize_partial, C87_accepts_partial, C87_panics_partial, C87_portable_partial."
  },
  {
   "property": "C88",
   "status": "partial",
   "theorems": [
    "Ssz.C88_same",
    "Ssz.C88_release_partial",
    "Ssz.C88_prove_partial",
    "Ssz.C88_debug_partial",
    "Ssz.C88_verifies_partial",
    "Ssz.C88_wrap_refuted",
    "Ssz.C88_tree_refuted"
   ],
   "note": "The code violates it: C88_wrap_refuted (the proof of another part, in release builds) and C88_tree_refuted (a type whose tree does not fit although its roots can be computed). Otherwise it is proved for all types that meet ShallowW: C88_prove_partial for indices in range, C88_release_partial and C88_debug_partial for all paths, C88_verifies_partial that the proofs verify. C88_same ties Model/WidthProve.lean to the functions of the other theorems."
  },
  {
   "property": "C89",
   "status": "proved",
   "theorems": [
    "Ssz.C89_same",
    "Ssz.C89_merkleize",
    "Ssz.C89_root",
    "Ssz.C89_values",
    "Ssz.C89_decoded",
    "Ssz.C89_proof",
    "Ssz.C89_prove",
    "Ssz.C89_bound",
    "Ssz.C89_room",
    "Ssz.C89_list"
   ],
   "note": "Bytes are counted by a copy of the code with the largest number held at one time (Model/Peak.lean), shown to return the same (C89_same). Lengths of vectors are counted, not their capacity (a vector that grows may have twice as much room); the branch of the proof and what serialize takes for one packed element are not. Proofs: types with a layer of more than 2^56 leaves are excluded (Shallow)."
  },
  {
   "property": "C90",
   "status": "proved",
   "theorems": [
    "Ssz.C90_same",
    "Ssz.C90_bound",
    "Ssz.C90_buffer",
    "Ssz.C90_low",
    "Ssz.C90_bytes",
    "Ssz.C90_deep"
   ],
   "note": "Bytes are counted by a copy of the encoder with the largest number held at one time (Model/EncodeMemory.lean), shown to do the same (C90_same). Vectors count with the capacity they were made with or their length; spare room of vectors that grow and what bitfields hold on the way are not counted. Transparent enums are not included."
  },
  {
   "property": "C91",
   "status": "proved",
   "theorems": [
    "Ssz.C91_crate",
    "Ssz.C91_list",
    "Ssz.C91_vector",
    "Ssz.C91_array",
    "Ssz.C91_option",
    "Ssz.C91_newtype",
    "Ssz.C91_struct",
    "Ssz.C91_union",
    "Ssz.C91_union_none",
    "Ssz.C91_transparent",
    "Ssz.C91_rejects",
    "Ssz.C91_struct_safe",
    "Ssz.C91_list_safe"
   ],
   "note": "For every implementation of Deserialize whose outcomes are known (Spec/Behaves.lean), crashing ones included; inputs and sizes below 2^63 bytes. That collections crash on bad offsets is a defect of the code (C03); here it is said exactly when, for parts of any kind."
  },
  {
   "property": "C92",
   "status": "proved",
   "theorems": [
    "Ssz.C92_list",
    "Ssz.C92_vector",
    "Ssz.C92_array",
    "Ssz.C92_none",
    "Ssz.C92_some",
    "Ssz.C92_newtype",
    "Ssz.C92_struct",
    "Ssz.C92_union",
    "Ssz.C92_union_unit",
    "Ssz.C92_union_none",
    "Ssz.C92_transparent",
    "Ssz.C92_crate",
    "Ssz.C92_serialize",
    "Ssz.C92_left",
    "Ssz.C92_succeeds"
   ],
   "note": "For every implementation of Serialize whose outcome for the values at hand is known (Spec/Writes.lean), failing and crashing ones included. Hypotheses: the size hints of the parts of collections and structs are returned and below 2^63."
  },
  {
   "property": "C93",
   "status": "proved",
   "theorems": [
    "Ssz.C93_list",
    "Ssz.C93_list_basic",
    "Ssz.C93_vector",
    "Ssz.C93_vector_basic",
    "Ssz.C93_struct",
    "Ssz.C93_option",
    "Ssz.C93_newtype",
    "Ssz.C93_union",
    "Ssz.C93_union_none",
    "Ssz.C93_transparent",
    "Ssz.C93_all",
    "Ssz.C93_first_error",
    "Ssz.C93_first_crash"
   ],
   "note": "For every implementation of the traits for the parts, failing and crashing ones included; the sizes in the hypotheses are those a 64-bit machine can hold."
  },
  {
   "property": "C94",
   "status": "proved",
   "theorems": [
    "Ssz.C94_long",
    "Ssz.C94_short",
    "Ssz.C94_right",
    "Ssz.C94_exactly",
    "Ssz.C94_list",
    "Ssz.C94_list_whole"
   ],
   "note": "For every type of fixed size, and for lists of such; inputs below 2^63 bytes."
  }
 ]
}