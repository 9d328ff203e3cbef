{"id": "C01", "title": "Round trip", "statement": "For a value within its type's bounds whose encoding is shorter than 2^32 bytes, serialize returns Ok and deserialize of those bytes returns Ok of an equal value.", "quantifier": "every type built from the crate's types and the derive macro, every in-bounds value, debug and release builds", "why_tests_cant": "Types nest without limit and values are unbounded; a test covers one type and a few values. Offsets depend on all sizes at once.", "anchors": ["ssz-rs/src/ser.rs: Serializer", "ssz-rs/src/de.rs: deserialize_homogeneous_composite, ContainerDeserializer", "ssz-rs/src/lib.rs: serialize, deserialize", "ssz-rs-derive/src/lib.rs: derive_serialize_impl, derive_deserialize_impl"]}
{"id": "C02", "title": "Canonical decoding", "statement": "If deserialize accepts a byte string shorter than 2^32 bytes and returns v, then serialize(v) returns exactly that byte string; no value has two accepted encodings.", "quantifier": "every type, every accepted byte string below 2^32 bytes", "why_tests_cant": "Malleability hides in byte strings nobody thought to write down; the space of inputs is infinite.", "anchors": ["ssz-rs/src/de.rs: deserialize_variable_homogeneous_composite, ContainerDeserializer::finalize", "ssz-rs/src/bitlist.rs: deserialize", "ssz-rs/src/bitvector.rs: deserialize", "ssz-rs/src/boolean.rs: deserialize"]}
{"id": "C03", "title": "Decoding never panics", "statement": "deserialize returns Ok or Err on every byte string; it never panics.", "quantifier": "every type, every byte string, debug and release builds", "why_tests_cant": "Inputs come from the network; only a universally quantified statement covers adversarial offsets.", "anchors": ["ssz-rs/src/de.rs: deserialize_variable_homogeneous_composite, ContainerDeserializer::parse", "ssz-rs/src/list.rs: deserialize", "ssz-rs-derive/src/lib.rs: derive_deserialize_impl"]}
{"id": "C04", "title": "Decoded values respect the bounds of their type", "statement": "Every value returned by deserialize has exactly N elements in each Vector, array and Bitvector, at most N in each List and Bitlist, at every nesting depth.", "quantifier": "every type, every accepted byte string", "why_tests_cant": "Out-of-bounds values would come from unusual inputs at some nesting depth; enumeration cannot reach all of them.", "anchors": ["ssz-rs/src/vector.rs: TryFrom<Vec<T>>", "ssz-rs/src/list.rs: deserialize", "ssz-rs/src/bitlist.rs: deserialize", "ssz-rs/src/bitvector.rs: deserialize", "ssz-rs/src/array.rs: deserialize"]}
{"id": "C05", "title": "Encoding conforms to the SSZ specification", "statement": "serialize of an in-bounds value below 2^32 bytes yields the encoding defined by the SSZ specification: little-endian integers, fixed parts with 4-byte offsets to the variable parts laid out in order, bit packing with the delimiting bit, selector byte for unions.", "quantifier": "every type, every in-bounds value with an encoding below 2^32 bytes", "why_tests_cant": "Conformance vectors sample a few shapes; other layouts of fixed and variable fields are never exercised.", "anchors": ["ssz-rs/src/ser.rs: Serializer::serialize", "ssz-rs/src/uint.rs", "ssz-rs/src/boolean.rs", "ssz-rs/src/bitlist.rs: serialize_with_length", "ssz-rs/src/bitvector.rs: serialize", "ssz-rs/src/union.rs", "ssz-rs-derive/src/lib.rs: derive_serialize_impl"]}
{"id": "C06", "title": "serialize appends and reports the byte count", "statement": "A successful serialize leaves the earlier content of the buffer unchanged, appends the encoding after it, and returns the number of bytes appended.", "quantifier": "every type, every in-bounds value, every initial buffer", "why_tests_cant": "The initial buffer is arbitrary; tests start from an empty one.", "anchors": ["ssz-rs/src/ser.rs: Serialize", "ssz-rs/src/bitlist.rs: serialize_with_length", "ssz-rs/src/bitvector.rs: serialize"]}
{"id": "C07", "title": "Size of fixed-size types", "statement": "For a type that reports is_variable_size() == false, every successful encoding of an in-bounds value has exactly size_hint() bytes.", "quantifier": "every fixed-size type, every in-bounds value", "why_tests_cant": "Homogeneous decoding slices by size_hint, so one deviating value corrupts its neighbours; tests check single values.", "anchors": ["ssz-rs/src/lib.rs: Serializable", "ssz-rs-derive/src/lib.rs: derive_variable_size_impl, derive_size_hint_impl", "ssz-rs/src/vector.rs: size_hint", "ssz-rs/src/bitvector.rs: size_hint"]}
{"id": "C08", "title": "Different values have different encodings", "statement": "Two in-bounds values of the same type with the same encoding are equal.", "quantifier": "every type, every pair of in-bounds values with encodings below 2^32 bytes", "why_tests_cant": "Quantifies over pairs of values; a collision would be found by a test only by luck.", "anchors": ["ssz-rs/src/ser.rs: Serializer", "ssz-rs/src/bitlist.rs: serialize_with_length", "ssz-rs/src/union.rs", "ssz-rs-derive/src/lib.rs: derive_serialize_impl"]}
{"id": "C09", "title": "serialize rejects exactly the values it should", "statement": "serialize returns Err for a List or Bitlist with more than N elements and for any composite whose encoding reaches 2^32 bytes, returns Ok for in-bounds values below that size, and never panics.", "quantifier": "every type, every value that safe code can build, debug and release builds", "why_tests_cant": "The size limit needs 4 GiB values, which tests do not build.", "anchors": ["ssz-rs/src/ser.rs: MAXIMUM_LENGTH, Serializer::serialize", "ssz-rs/src/list.rs: serialize", "ssz-rs/src/bitlist.rs: serialize_with_length"]}
{"id": "C10", "title": "Failed serialize leaves the buffer alone", "statement": "If serialize returns Err, the caller's buffer has the content it had before the call.", "quantifier": "every type, every value that fails to serialize, every initial buffer", "why_tests_cant": "Partial writes depend on where in a nested value the failure occurs.", "anchors": ["ssz-rs/src/ser.rs: Serializer::serialize", "ssz-rs/src/union.rs: serialize", "ssz-rs-derive/src/lib.rs: derive_serialize_impl"]}
{"id": "C11", "title": "Fixed-size decoding accepts only the exact length", "statement": "deserialize of a fixed-size type returns Err on every input whose length differs from size_hint(): neither truncated nor over-long input is accepted.", "quantifier": "every fixed-size type, every byte string", "why_tests_cant": "All lengths and all nestings are covered at once; tests try one short and one long input.", "anchors": ["ssz-rs/src/uint.rs: deserialize", "ssz-rs/src/array.rs: deserialize", "ssz-rs/src/vector.rs: deserialize", "ssz-rs/src/bitvector.rs: deserialize", "ssz-rs/src/de.rs: ContainerDeserializer"]}
{"id": "C12", "title": "Union selectors", "statement": "The encoding of an enum value starts with the position of its variant, and deserialize accepts an input only if its first byte is the position of a declared variant, yielding that variant.", "quantifier": "every derived enum accepted by the macro, every value, every byte string", "why_tests_cant": "Ranges over all enum declarations and all selector bytes.", "anchors": ["ssz-rs/src/union.rs", "ssz-rs-derive/src/lib.rs: derive_serialize_impl, derive_deserialize_impl"]}
{"id": "C13", "title": "Decoded collections are no larger than their input", "statement": "The number of elements of a List or Vector returned by deserialize is at most the number of input bytes. (The memory that the elements take is in C85.)", "quantifier": "every list and vector type, every accepted byte string", "why_tests_cant": "A bound for all inputs cannot be sampled.", "anchors": ["ssz-rs/src/de.rs: deserialize_fixed_homogeneous_composite, deserialize_variable_homogeneous_composite"]}
{"id": "C14", "title": "Container fields tile the input", "statement": "When a derived struct decodes successfully, the byte ranges read for the fields together with the offset words cover every input byte exactly once, in declaration order.", "quantifier": "every derived struct, every accepted byte string", "why_tests_cant": "Gaps and overlaps between fields depend on attacker-chosen offsets.", "anchors": ["ssz-rs/src/de.rs: ContainerDeserializer::parse, ContainerDeserializer::finalize", "ssz-rs-derive/src/lib.rs: derive_deserialize_impl"]}
{"id": "C15", "title": "Option is the union of None and T", "statement": "Option<T> has the encodings, decoding behaviour and hash tree root of the derived enum { None, Some(T) }.", "quantifier": "every type T, every value, every byte string", "why_tests_cant": "Two independent implementations must agree on all values and all inputs.", "anchors": ["ssz-rs/src/union.rs", "ssz-rs-derive/src/lib.rs: derive_serialize_impl, derive_deserialize_impl, derive_merkleization_impl"]}
{"id": "C16", "title": "Arrays and Vectors agree", "statement": "[T; N] and Vector<T, N> holding the same elements have the same encoding, decode the same inputs to the same elements, and have the same hash tree root.", "quantifier": "every element type, every N, every value, every byte string", "why_tests_cant": "Two independent implementations must agree on all values and all inputs.", "anchors": ["ssz-rs/src/array.rs", "ssz-rs/src/vector.rs"]}
{"id": "C17", "title": "Newtype structs are transparent", "statement": "A derived struct with one unnamed field behaves as the wrapped type: same encoding, same decoding, same hash tree root, also when used as an element of another type.", "quantifier": "every type T and every type built around the newtype", "why_tests_cant": "The effect of wrapping shows only inside other types, of which there are infinitely many.", "anchors": ["ssz-rs-derive/src/lib.rs: derive_serialize_impl, derive_merkleization_impl", "ssz-rs/src/merkleization/merkleize.rs: HashTreeRoot::is_composite_type"]}
{"id": "C18", "title": "Constructors enforce the bounds", "statement": "TryFrom for Vector, List, Bitvector and Bitlist succeeds exactly when the given data fits the bound, keeps the elements, and otherwise returns an error that names the bound and the given length.", "quantifier": "every N, every input sequence", "why_tests_cant": "Ranges over all N and all lengths.", "anchors": ["ssz-rs/src/vector.rs: TryFrom", "ssz-rs/src/list.rs: TryFrom", "ssz-rs/src/bitvector.rs: TryFrom", "ssz-rs/src/bitlist.rs: TryFrom", "ssz-rs/src/vector.rs: Default"]}
{"id": "C19", "title": "Bitlist behaves as a list of booleans", "statement": "push, pop, get, set and the conversions on a Bitlist act on its sequence of bits, and serialization and hash tree root depend on that sequence only.", "quantifier": "every sequence of operations, every N", "why_tests_cant": "Bits outside the logical length are invisible to equality, so a test comparing values cannot see them.", "anchors": ["ssz-rs/src/bitlist.rs: serialize_with_length, pack_bits, get, set, DerefMut"]}
{"id": "C20", "title": "Bitvector behaves as a vector of booleans", "statement": "get, set and the conversions on a Bitvector act on its bits, and serialization and hash tree root depend on these bits only.", "quantifier": "every N, every sequence of bits, every operation", "why_tests_cant": "Bits outside the logical length are invisible to equality.", "anchors": ["ssz-rs/src/bitvector.rs: serialize, deserialize, pack_bits, get, set"]}
{"id": "C21", "title": "Transparent enums round trip", "statement": "An enum with #[ssz(transparent)] decodes the encoding of each of its values to an equal value, and its hash tree root is that of the payload.", "quantifier": "every transparent enum, every value", "why_tests_cant": "Decoding tries the variants one after another; whether another variant captures the bytes depends on all variants and the value.", "anchors": ["ssz-rs-derive/src/lib.rs: derive_deserialize_impl, derive_serialize_impl, derive_merkleization_impl"]}
{"id": "C22", "title": "The derive macro accepts exactly the legal shapes", "statement": "The derive macro rejects unit structs, empty structs, structs with several unnamed fields, Rust unions, enums without or with more than 127 variants, variants with named or with several fields, unit variants other than a leading None followed by at least one more variant (in a transparent enum: any), and misplaced or malformed attributes; it accepts every other struct or enum, and none of the panics in its code generators is reachable after validation.", "quantifier": "every item the macro can be attached to", "why_tests_cant": "Infinitely many declarations; compile-fail tests cover a handful.", "anchors": ["ssz-rs-derive/src/lib.rs: validate_derive_input, validate_no_attrs"]}
{"id": "C23", "title": "A Vector with a wrong number of elements is not encoded", "statement": "serialize returns Err for a Vector<T, N> that does not hold N elements and for a Bitvector<N> that does not hold N bits.", "quantifier": "every N, every vector reachable through the mutable access the type gives", "why_tests_cant": "Needs mutation through DerefMut, which the tests do not do.", "anchors": ["ssz-rs/src/vector.rs: serialize, DerefMut", "ssz-rs/src/bitvector.rs: serialize, DerefMut"]}
{"id": "C24", "title": "Merkleization equals the padded tree", "statement": "The root computed over chunks with a limit is the root of the full binary tree whose leaves are the chunks followed by zero chunks up to the next power of two of the limit (of the number of chunks without a limit).", "quantifier": "every number of chunks, every chunk content, every limit up to 2^63, every hash function", "why_tests_cant": "The in-place layer algorithm has many boundary cases; limits like 2^40 cannot be compared against a materialised tree.", "anchors": ["ssz-rs/src/merkleization/merkleize.rs: merkleize, merkleize_chunks_with_virtual_padding"]}
{"id": "C25", "title": "Chunk limit is enforced exactly", "statement": "Computing the root of a List or Bitlist fails with InputExceedsLimit exactly when the data occupies more chunks than the limit of the type.", "quantifier": "every limit, every number of chunks", "why_tests_cant": "Boundary behaviour for all limits, including those too large to fill.", "anchors": ["ssz-rs/src/merkleization/merkleize.rs: merkleize"]}
{"id": "C26", "title": "Zero-subtree cache", "statement": "Entry i of the precomputed table is the root of the full tree of depth i over zero chunks, for every depth the code looks up, and no lookup is out of range.", "quantifier": "every depth below 64, every hash function", "why_tests_cant": "The table is generated by a build script; comparing a few entries leaves the others unchecked.", "anchors": ["ssz-rs/build.rs: compute_zero_hashes", "ssz-rs/src/merkleization/merkleize.rs: Context"]}
{"id": "C27", "title": "hash_tree_root conforms to the SSZ specification", "statement": "hash_tree_root of an in-bounds value equals the root defined by the SSZ specification.", "quantifier": "every type, every in-bounds value, every hash function", "why_tests_cant": "Conformance vectors sample types; the classification of element types into basic and composite matters for nested types.", "anchors": ["ssz-rs/src/merkleization/merkleize.rs", "ssz-rs/src/vector.rs: HashTreeRoot", "ssz-rs/src/list.rs: HashTreeRoot", "ssz-rs/src/array.rs: HashTreeRoot", "ssz-rs-derive/src/lib.rs: derive_merkleization_impl"]}
{"id": "C28", "title": "hash_tree_root is binding", "statement": "Two in-bounds values of the same type with the same hash tree root are equal, or else two different inputs with the same SHA-256 hash can be computed from them.", "quantifier": "every type, every pair of in-bounds values, every hash function", "why_tests_cant": "A second preimage cannot be found by testing; the structural argument needs a proof.", "anchors": ["ssz-rs/src/merkleization/merkleize.rs", "ssz-rs/src/list.rs: HashTreeRoot", "ssz-rs/src/bitlist.rs: HashTreeRoot", "ssz-rs-derive/src/lib.rs: derive_merkleization_impl"]}
{"id": "C29", "title": "Over-long lists have no root", "statement": "hash_tree_root returns Err for a List or Bitlist that holds more than N elements.", "quantifier": "every element type, every N, every list reachable through mutable access", "why_tests_cant": "Needs mutation through DerefMut and lists that still fit the last chunk.", "anchors": ["ssz-rs/src/list.rs: HashTreeRoot, DerefMut", "ssz-rs/src/bitlist.rs: pack_bits"]}
{"id": "C30", "title": "Equal values have equal roots and encodings", "statement": "Two values that compare equal have the same hash_tree_root and the same serialize result.", "quantifier": "every type, every pair of equal values reachable in safe code", "why_tests_cant": "Equality ignores unused bits of the storage, which tests based on equality cannot observe.", "anchors": ["ssz-rs/src/bitlist.rs: PartialEq, pack_bits, serialize_with_length", "ssz-rs/src/bitvector.rs"]}
{"id": "C31", "title": "hash_tree_root never panics", "statement": "hash_tree_root returns Ok or Err for every value of every type.", "quantifier": "every type, every value that safe code can build, debug and release builds", "why_tests_cant": "Index arithmetic over flat buffers for every length and every limit.", "anchors": ["ssz-rs/src/merkleization/merkleize.rs: merkleize_chunks_with_virtual_padding, elements_to_chunks", "ssz-rs/src/list.rs: chunk_count"]}
{"id": "C32", "title": "Generalized index points at the element", "statement": "If generalized_index accepts a path, then in the Merkle tree of every in-bounds value in which the path exists, the node at that index is the root of the addressed element, the chunk containing it if it is a packed basic value, or the length or selector.", "quantifier": "every type, every accepted path, every in-bounds value", "why_tests_cant": "Ranges over paths of any length and all trees; tests check a few fixed indices.", "anchors": ["ssz-rs/src/merkleization/generalized_index.rs: generalized_index, compute_generalized_index", "ssz-rs/src/vector.rs", "ssz-rs/src/list.rs", "ssz-rs/src/union.rs", "ssz-rs-derive/src/lib.rs: derive_generalized_indexable_impl"]}
{"id": "C33", "title": "Generalized index accepts exactly the valid paths", "statement": "generalized_index returns Ok exactly for the paths that name a field, an index within the bound, a length or a selector at each step of the type, and Err for all others.", "quantifier": "every type, every path", "why_tests_cant": "Infinitely many malformed paths.", "anchors": ["ssz-rs/src/merkleization/generalized_index.rs", "ssz-rs/src/vector.rs: compute_generalized_index", "ssz-rs/src/list.rs: compute_generalized_index", "ssz-rs/src/bitlist.rs: compute_generalized_index", "ssz-rs-derive/src/lib.rs: derive_generalized_indexable_impl"]}
{"id": "C34", "title": "Generalized index overflow is reported", "statement": "When the generalized index of a path does not fit in 64 bits, generalized_index returns Err instead of a wrong index.", "quantifier": "every type, every path, debug and release builds", "why_tests_cant": "Needs types whose tree is deeper than 63 levels.", "anchors": ["ssz-rs/src/merkleization/generalized_index.rs", "ssz-rs/src/vector.rs: compute_generalized_index", "ssz-rs/src/list.rs: compute_generalized_index"]}
{"id": "C35", "title": "Generalized indices compose", "statement": "The index of a path p followed by q is the concatenation of the index of p and the index of q within the type reached by p; all indices are at least 1.", "quantifier": "every type, every path split at every position", "why_tests_cant": "All types, all paths, all splits.", "anchors": ["ssz-rs/src/merkleization/generalized_index.rs: compute_generalized_index"]}
{"id": "C36", "title": "prove returns the hash tree root as witness", "statement": "When prove succeeds, the witness it returns is hash_tree_root of the value.", "quantifier": "every type, every in-bounds value, every path on which prove succeeds", "why_tests_cant": "Two independent tree computations (virtual padding and materialised tree) must agree everywhere.", "anchors": ["ssz-rs/src/merkleization/proofs.rs: Prover::compute_proof, prove", "ssz-rs/src/merkleization/merkleize.rs: compute_merkle_tree"]}
{"id": "C37", "title": "Proofs produced by prove verify", "statement": "When prove succeeds with a proof and a witness, verifying the proof against the witness succeeds.", "quantifier": "every type, every in-bounds value, every path on which prove succeeds, every hash function", "why_tests_cant": "Index arithmetic across nested subtrees for all depths.", "anchors": ["ssz-rs/src/merkleization/proofs.rs: Prover::compute_proof, Proof::verify"]}
{"id": "C38", "title": "Proofs carry the addressed element", "statement": "The leaf of a proof produced for a path is the node of the Merkle tree at the generalized index of that path: the root of the element, or the chunk containing it.", "quantifier": "every type, every in-bounds value, every path to an existing element", "why_tests_cant": "A proof of a neighbouring element would verify too, so verification in tests does not show it.", "anchors": ["ssz-rs/src/merkleization/proofs.rs: Prover::compute_proof", "ssz-rs/src/list.rs: prove_element", "ssz-rs/src/vector.rs: prove_element", "ssz-rs-derive/src/lib.rs: derive_prove_impl"]}
{"id": "C39", "title": "prove never panics", "statement": "prove returns Ok or Err for every value and every path.", "quantifier": "every type, every in-bounds value, every path", "why_tests_cant": "Paths may come from a request; all combinations of path and value shape are possible.", "anchors": ["ssz-rs/src/merkleization/proofs.rs: Prover::compute_proof", "ssz-rs/src/list.rs: prove_element", "ssz-rs/src/merkleization/merkleize.rs: compute_merkle_tree"]}
{"id": "C40", "title": "Proof verification is sound", "statement": "If a proof verifies against the root of a Merkle tree that has a node at the index of the proof, then the leaf is that node, or two different inputs with the same SHA-256 hash can be computed.", "quantifier": "every tree, every proof, every index, every hash function", "why_tests_cant": "Forgeries are not enumerable.", "anchors": ["ssz-rs/src/merkleization/proofs.rs: Proof::verify, is_valid_merkle_branch_for_generalized_index, is_valid_merkle_branch"]}
{"id": "C41", "title": "Proof verification never panics", "statement": "Verifying a proof returns Ok or Err for every leaf, branch, index, depth and root.", "quantifier": "every input of verify, is_valid_merkle_branch_for_generalized_index and is_valid_merkle_branch, debug and release builds", "why_tests_cant": "Proofs come from the network; all depths and indices must be covered.", "anchors": ["ssz-rs/src/merkleization/proofs.rs: Proof::verify, is_valid_merkle_branch, get_depth, get_index"]}
{"id": "C42", "title": "Branch length must match the index", "statement": "A proof whose branch is shorter or longer than the depth of its index is rejected, and so is every proof for index 0.", "quantifier": "every proof and every root", "why_tests_cant": "All lengths and all indices.", "anchors": ["ssz-rs/src/merkleization/proofs.rs: is_valid_merkle_branch, get_depth", "ssz-rs/src/merkleization/multiproofs.rs: calculate_merkle_root"]}
{"id": "C43", "title": "The two single-proof verifiers agree", "statement": "verify_merkle_proof and Proof::verify accept exactly the same (leaf, branch, index, root).", "quantifier": "every leaf, branch, index and root", "why_tests_cant": "Two independent implementations must agree on all inputs.", "anchors": ["ssz-rs/src/merkleization/proofs.rs: is_valid_merkle_branch_for_generalized_index", "ssz-rs/src/merkleization/multiproofs.rs: verify_merkle_proof, calculate_merkle_root"]}
{"id": "C44", "title": "Depth-and-index verification equals generalized-index verification", "statement": "is_valid_merkle_branch with depth d and index i below 2^d accepts exactly what verification at generalized index 2^d + i accepts.", "quantifier": "every depth below 64, every index below 2^depth, every branch and root", "why_tests_cant": "Two addressing schemes must agree on all inputs.", "anchors": ["ssz-rs/src/merkleization/proofs.rs: is_valid_merkle_branch, is_valid_merkle_branch_for_generalized_index, get_subtree_index"]}
{"id": "C45", "title": "Multiproofs are complete", "statement": "For every set of positions of a Merkle tree, the nodes at these positions together with the nodes at the helper indices in the order given by the library verify against the root.", "quantifier": "every tree, every nonempty list of distinct positions none of which is an ancestor of another, every hash function", "why_tests_cant": "All trees and all sets of positions; tests use one small tree.", "anchors": ["ssz-rs/src/merkleization/multiproofs.rs: get_helper_indices, calculate_multi_merkle_root, verify_merkle_multiproof"]}
{"id": "C46", "title": "Multiproof verification is sound", "statement": "If a multiproof verifies against the root of a Merkle tree, then every claimed leaf is the node of the tree at its index, or two different inputs with the same SHA-256 hash can be computed.", "quantifier": "every tree, every list of indices, every leaves and proof, every hash function", "why_tests_cant": "Forgeries are not enumerable; duplicated and nested indices are easy to overlook.", "anchors": ["ssz-rs/src/merkleization/multiproofs.rs: calculate_multi_merkle_root, verify_merkle_multiproof"]}
{"id": "C47", "title": "Multiproof verification never panics", "statement": "Verifying a multiproof returns Ok or Err for all inputs.", "quantifier": "every leaves, proof, indices and root, debug and release builds", "why_tests_cant": "Inputs come from the network.", "anchors": ["ssz-rs/src/merkleization/multiproofs.rs: calculate_multi_merkle_root"]}
{"id": "C48", "title": "Helper indices are exactly the needed ones", "statement": "The helper indices for a set of positions are the siblings of nodes on the paths to the root that are not themselves on such a path, each once, in descending order.", "quantifier": "every list of indices at least 1", "why_tests_cant": "All sets of positions.", "anchors": ["ssz-rs/src/merkleization/multiproofs.rs: get_helper_indices, get_branch_indices, get_path_indices"]}
{"id": "C49", "title": "Multiproof with one index is the single proof", "statement": "For one index, verify_merkle_multiproof accepts exactly the proofs accepted by verify_merkle_proof.", "quantifier": "every index at least 1, every leaf, branch and root", "why_tests_cant": "Two independent implementations must agree on all inputs.", "anchors": ["ssz-rs/src/merkleization/multiproofs.rs: verify_merkle_proof, verify_merkle_multiproof"]}
{"id": "C50", "title": "Debug and release builds agree", "statement": "Whenever the debug build returns a result, the release build returns the same result for serialization, decoding, roots, generalized indices, proofs and verification.", "quantifier": "every type, every input", "why_tests_cant": "Overflow behaviour differs between builds only on inputs that tests do not reach.", "anchors": ["ssz-rs/src/de.rs: ContainerDeserializer::parse", "ssz-rs/src/merkleization/merkleize.rs", "ssz-rs/src/merkleization/proofs.rs", "ssz-rs/src/merkleization/generalized_index.rs"]}
{"id": "C51", "title": "Text decoding enforces the same bounds", "statement": "Values obtained through serde respect the bounds of List and Vector, and the hex text form of Bitlist and Bitvector accepts exactly the byte strings that deserialize accepts.", "quantifier": "every N, every sequence of elements, every byte string", "why_tests_cant": "All lengths and byte strings.", "anchors": ["ssz-rs/src/list.rs: serde::Deserialize", "ssz-rs/src/vector.rs: serde::Deserialize", "ssz-rs/src/bitlist.rs: serde::Deserialize", "ssz-rs/src/bitvector.rs: serde::Deserialize"]}
{"id": "C52", "title": "Proofs for transparent enums", "statement": "When prove succeeds on a value of an enum with #[ssz(transparent)] that also derives GeneralizedIndexable and Prove, the witness it returns is hash_tree_root of the value.", "quantifier": "for all transparent enums, values and paths", "why_tests_cant": "The tests derive only Serializable and HashTreeRoot for transparent enums; that the other two derive macros ignore the attribute shows up only in the combination, and the claim ranges over all payload types and values.", "anchors": ["ssz-rs-derive/src/lib.rs:349-401", "ssz-rs-derive/src/lib.rs:644-703", "ssz-rs-derive/src/lib.rs:967-992"]}
{"id": "C53", "title": "Decoding does not amplify", "statement": "A value returned by deserialize holds at most as many bytes of data as the input has, where every element of a collection counts for at least one byte, and its encoding, if it is written, is not longer than the input.", "quantifier": "every type, every input that is accepted", "why_tests_cant": "Ranges over all nestings and over inputs that are not encodings of any value, such as lists read from a zero offset.", "anchors": ["ssz-rs/src/de.rs: deserialize_variable_homogeneous_composite", "ssz-rs/src/list.rs: deserialize"]}
{"id": "C54", "title": "Leaf index out of range is rejected", "statement": "is_valid_merkle_branch rejects every index that is not a position at the given depth, that is every index of 2^depth or more.", "quantifier": "every leaf, branch, depth, index and root", "why_tests_cant": "The index ranges over all of usize and the root over all hashes.", "anchors": ["ssz-rs/src/merkleization/proofs.rs: is_valid_merkle_branch"]}
{"id": "C55", "title": "Default values", "statement": "default() panics exactly if it must build a Vector or Bitvector of length zero; otherwise the default is a valid value without stray bits, and for fixed-size types it is the value whose encoding is all zeros.", "quantifier": "every type", "why_tests_cant": "Ranges over all nestings of types and all bounds.", "anchors": ["ssz-rs/src/list.rs:41-52", "ssz-rs/src/vector.rs: Default", "ssz-rs/src/bitlist.rs:49-53", "ssz-rs/src/bitvector.rs: Default"]}
{"id": "C56", "title": "Debug text of bit sequences", "statement": "The Debug text of a Bitlist or Bitvector shows the bits in order in groups of four with an underscore between groups and none at the end, and two values of the same type have the same text exactly if they have the same bits.", "quantifier": "every N and every sequence of bits", "why_tests_cant": "All lengths and bit patterns; boundary between groups and at the end.", "anchors": ["ssz-rs/src/bitlist.rs:30-47", "ssz-rs/src/bitvector.rs:39-56"]}
{"id": "C57", "title": "Proving at any generalized index", "statement": "Prover::from(index) followed by compute_proof returns, for every index, the node of the Merkle tree at that index with its branch and the root as witness if the tree has such a node, and an error otherwise.", "quantifier": "every type, every in-bounds value, every index below 2^64", "why_tests_cant": "Ranges over all trees and all positions in them, also those that no path leads to.", "anchors": ["ssz-rs/src/merkleization/proofs.rs: Prover::from, Prover::compute_proof, compute_local_merkle_coordinates", "ssz-rs/src/merkleization/merkleize.rs: compute_merkle_tree, Tree::mix_in_decoration"]}
{"id": "C58", "title": "Types built from parts of any kind", "statement": "If every part of a type (element, field or payload) is encoded, decoded and hashed as its author intends, then a List, Vector, array, Option, newtype, struct or enum built from these parts is encoded, decoded and hashed as SSZ prescribes for such parts, and decodes only to values within the bounds. If every part accepts exactly the inputs that its author intends, then the type accepts exactly the inputs that SSZ prescribes, except that a List of variable-size parts also takes any input beginning with a zero offset for the empty list.", "quantifier": "every implementation of the traits for the parts, also hand-written ones and transparent enums; every bound and every value", "why_tests_cant": "Ranges over implementations of the traits that do not exist yet.", "anchors": ["ssz-rs/src/ser.rs: Serializer", "ssz-rs/src/de.rs: deserialize_homogeneous_composite, ContainerDeserializer", "ssz-rs-derive/src/lib.rs: derive_serialize_impl, derive_deserialize_impl", "ssz-rs/src/merkleization/merkleize.rs: elements_to_chunks, pack, merkleize"]}
{"id": "C59", "title": "A transparent enum stands for its payload", "statement": "A struct with a transparent enum as a field is encoded as the struct with the payload of the enum in its place.", "quantifier": "every transparent enum, all other fields, every value", "why_tests_cant": "Depends on the kind of payload and on the position in other types.", "anchors": ["ssz-rs-derive/src/lib.rs:263-269, 299-305 (is_variable_size and size_hint of enums)"]}
{"id": "C60", "title": "Decoding errors are truthful", "statement": "What a decoding error says about the input is true: the provided length is at most that of the input and on the stated side of the expected one, an invalid byte occurs in the input, lengths and offsets said to disagree do, and the type is never blamed.", "quantifier": "every type, every input below 2^63 bytes, both build modes", "why_tests_cant": "Every error path at every depth of every type.", "anchors": ["ssz-rs/src/de.rs: ContainerDeserializer::parse", "ssz-rs/src/de.rs: deserialize_homogeneous_composite", "ssz-rs/src/uint.rs, boolean.rs, bitlist.rs, bitvector.rs, union.rs: Deserialize"]}
{"id": "C61", "title": "Serialization errors are truthful", "statement": "A serialization error about the encoded length reports at least 2^32 bytes, an error about a bound reports more elements than the bound, and no other error occurs for a type SSZ allows.", "quantifier": "every type and every value, in bounds or not", "why_tests_cant": "Every error path at every depth of every type.", "anchors": ["ssz-rs/src/ser.rs: Serializer::serialize", "ssz-rs/src/list.rs: Serialize", "ssz-rs/src/bitlist.rs: serialize_with_length"]}
{"id": "C62", "title": "Path errors name what is wrong", "statement": "An error of generalized_index names an element of the path, or is about a nonempty end of the path.", "quantifier": "every type and every path", "why_tests_cant": "All types and all paths.", "anchors": ["ssz-rs/src/merkleization/generalized_index.rs", "ssz-rs/src/list.rs, vector.rs, bitlist.rs, bitvector.rs, union.rs: compute_generalized_index", "ssz-rs-derive/src/lib.rs: derive_generalized_indexable_impl"]}
{"id": "C63", "title": "Debug text of Merkle trees", "statement": "Formatting a Merkle tree with Debug lists its nodes and does not panic.", "quantifier": "every tree that compute_merkle_tree returns", "why_tests_cant": "All trees; no test formats one.", "anchors": ["ssz-rs/src/merkleization/merkleize.rs:255-258", "ssz-rs/src/merkleization/merkleize.rs:279-284"]}
{"id": "C64", "title": "Branches survive a change of the proven part", "statement": "When a value changes only in the part that a path addresses, prove on the changed value returns the same branch and the same index, and the new leaf with the old branch verifies against the hash tree root of the changed value.", "quantifier": "every type, every two in-bounds values that are equal except in the part, every path on which prove succeeds", "why_tests_cant": "Quantifies over pairs of values of every type; light clients depend on it and no test changes a value.", "anchors": ["ssz-rs/src/merkleization/proofs.rs:60-185", "ssz-rs/src/merkleization/merkleize.rs:180-277"]}
{"id": "C65", "title": "Proofs compose along paths", "statement": "The proof for a path p followed by q consists of the leaf and branch of the proof for q in the part at p, followed by the branch of the proof for p; its index is the concatenation of the two. A proof against the leaf of another proof, put together with it, verifies against the root of the other.", "quantifier": "every type, value, and paths p, q where the part at p has a node of its own; every two proofs", "why_tests_cant": "Relates proofs of different types over all values and paths; tests prove single fixed paths.", "anchors": ["ssz-rs/src/merkleization/proofs.rs:60-185", "ssz-rs/src/merkleization/generalized_index.rs:48-66"]}
{"id": "C66", "title": "Generalized indices in types built from parts of any kind", "statement": "If every part of a type (element, field or payload) resolves the paths into it, then a List, Vector, array, Option, newtype, struct or enum built from these parts resolves exactly the paths that start at one of its parts (or at its length or selector), to the generalized index of the part followed by that within the part.", "quantifier": "every implementation of the traits for the parts, also hand-written ones; every bound, every path and every index of the whole in a larger value", "why_tests_cant": "Ranges over implementations of the traits that do not exist yet, and over all paths.", "anchors": ["ssz-rs/src/array.rs:97-117", "ssz-rs/src/list.rs:243-277", "ssz-rs/src/union.rs:94-129", "ssz-rs-derive/src/lib.rs:429-575"]}
{"id": "C67", "title": "Proofs in types built from parts of any kind", "statement": "If every part of a type (element, field or payload) hashes and proves by a Merkle tree, then a List, Vector, array, Option, newtype, struct or enum built from these parts hashes and proves by the Merkle tree that SSZ builds over the trees of the parts; prove returns the node that the path leads to, with its branch, index and the hash tree root, and the proof verifies.", "quantifier": "every implementation of the traits for the parts, also hand-written ones and transparent enums; every bound, every value and every path", "why_tests_cant": "Ranges over implementations of the traits that do not exist yet, and over all values and paths.", "anchors": ["ssz-rs/src/merkleization/proofs.rs:60-185", "ssz-rs/src/array.rs:119-143", "ssz-rs/src/list.rs:280-300", "ssz-rs/src/union.rs:132-170", "ssz-rs-derive/src/lib.rs:577-720"]}
{"id": "C68", "title": "Error messages identify the error", "statement": "Two errors with the same Display text are equal: the text determines the kind of error, the nested error, every number and every element of a path in it.", "quantifier": "all errors of Error, SerializeError, DeserializeError, MerkleizationError, InstanceError and TypeError, with any numbers and any names of fields in paths", "why_tests_cant": "Compares all pairs of infinitely many errors; names of fields in paths can hold quotes, brackets and commas.", "anchors": ["ssz-rs/src/error.rs:36-46", "ssz-rs/src/error.rs:58-66", "ssz-rs/src/error.rs:80-93", "ssz-rs/src/de.rs:44-61", "ssz-rs/src/ser.rs:34-45", "ssz-rs/src/merkleization/mod.rs:47-68"]}
{"id": "C69", "title": "Debug text of collections", "statement": "Two lists (or two vectors) of the same type with the same Debug text are equal, if this holds for the elements: the text can be read back, also in the middle of a longer text.", "quantifier": "every element type whose Debug text can be read back, every bound and all lists and vectors", "why_tests_cant": "Compares all pairs of collections of any length, nested to any depth.", "anchors": ["ssz-rs/src/list.rs:28-40", "ssz-rs/src/vector.rs:73-85", "ssz-rs/src/bitlist.rs:30-47", "ssz-rs/src/bitvector.rs:39-56"]}
{"id": "C70", "title": "Proofs accepted for one root are consistent", "statement": "All single proofs and multiproofs that verify against one root are read off one Merkle tree with that root, unless two different strings hashed in verifying them have the same hash. So two accepted proofs for one index are equal, and a proof below another one's index extends it.", "quantifier": "all finite collections of single proofs and multiproofs that verify against one root, whoever made them", "why_tests_cant": "Speaks about every proof that anybody could make for a root; no tree or value is given that could be enumerated.", "anchors": ["ssz-rs/src/merkleization/proofs.rs:183-235", "ssz-rs/src/merkleization/multiproofs.rs:73-150"]}
{"id": "C71", "title": "Sizes of encodings lie in the range given by the type", "statement": "What serialize writes for a value has at least minSize and at most maxSize bytes, numbers computed from the type alone; both are attained. If maxSize is below 4 GiB every value is written. deserialize accepts no input shorter than minSize, and none longer than maxSize for types without lists of variable-size elements; with such lists the upper bound on inputs is refuted.", "quantifier": "every legal type and all of its values and inputs", "why_tests_cant": "Holds for every type that can be put together and every value of it, also at the largest sizes.", "anchors": ["ssz-rs/src/ser.rs:73-130", "ssz-rs/src/de.rs:74-160", "ssz-rs/src/de.rs:171-290", "ssz-rs/src/list.rs:150-185", "ssz-rs/src/bitlist.rs:78-160"]}
{"id": "C72", "title": "Types that are encoded alike can replace each other", "statement": "Change a type, anywhere inside it, in the bounds of lists and bitlists, in the names of fields, by putting newtypes around parts or taking them away, by Vector for an array, or by an enum of nothing and one payload for an Option and back. A value within the bounds of both types is written as the same bytes by both, and an input is read as the value by one exactly if it is read as the value with the same contents by the other. If no bound gets smaller, everything the old type reads the new one reads. If also the depths of trees and what is packed stay, hash_tree_root stays.", "quantifier": "every pair of legal types related by such changes, all values, all inputs", "why_tests_cant": "Relates every two types that differ by any number of such changes at any depth.", "anchors": ["ssz-rs/src/list.rs:150-200", "ssz-rs/src/bitlist.rs:78-200", "ssz-rs/src/array.rs:10-100", "ssz-rs/src/vector.rs:150-230", "ssz-rs/src/union.rs:1-80", "ssz-rs-derive/src/lib.rs:60-330"]}
{"id": "C73", "title": "Comparisons agree with encodings and with each other", "statement": "== holds for two values exactly if they are written as the same bytes; in particular a value read back from its bytes is == to the original, and unused storage bits play no part. cmp answers Equal exactly if == holds, and is a total order: integers by size, collections by their first difference and then by length, structs field by field, enums by the position of the variant and then by the payload.", "quantifier": "every type built from the crate's types and derived structs and enums, every two or three values", "why_tests_cant": "PartialEq is written by hand beside a derived Ord, and Bitlists keep unused bits in storage; agreement and transitivity quantify over pairs and triples of values of every type.", "anchors": ["ssz-rs/src/list.rs:16-63", "ssz-rs/src/vector.rs:18-36", "ssz-rs/src/bitlist.rs:27-28", "ssz-rs/src/bitvector.rs:36-37"]}
{"id": "C74", "title": "A proof that verifies tells the value of the part", "statement": "Let a proof for the generalized index of a path verify against the hash tree root of a value. Then, unless two different strings with the same hash were hashed in computing the root and verifying, its leaf is the hash tree root of the part at the path; for a path to an element in a chunk, the bytes at the place of the element in the leaf deserialize to the element; for a path to a bit, the bit at its place in the leaf is that bit; for the length of a list or the selector of an Option or enum, the leaf is that number. So a value with the leaf as its hash tree root is == to the part. The same holds for every leaf of a multiproof for distinct positions, none above another.", "quantifier": "every type with bounds in the supported range, every value, every path, every leaf and branch given as proof", "why_tests_cant": "Says that no proof whatever can make a verifier believe a wrong value; tests try a few manipulations.", "anchors": ["ssz-rs/src/merkleization/proofs.rs:183-233", "ssz-rs/src/merkleization/generalized_index.rs:1-70", "ssz-rs/src/merkleization/multiproofs.rs:48-150"]}
{"id": "C75", "title": "Roots may stand in place of parts", "statement": "Let Node stand in place of some parts of a type (as in a block header the root of the body stands in place of the body), parts that are elements of a collection being of types that are not packed into chunks. Then a value, and the value where these parts are replaced by their hash tree roots, have the same hash tree root; every path that has a generalized index in the type with Node has the same one in the whole; and the proof and root that the prover returns for such a path are those that it returns for the whole.", "quantifier": "every type with bounds in the supported range, every choice of parts, every value, every path", "why_tests_cant": "Holds for every choice of parts at every depth; tests compare a few pairs of structs.", "anchors": ["ssz-rs/src/merkleization/merkleize.rs:96-250", "ssz-rs/src/merkleization/node.rs:1-85", "ssz-rs/src/merkleization/proofs.rs:33-180", "ssz-rs-derive/src/lib.rs:310-420"]}
{"id": "C76", "title": "Merkleization works on the data, not on the limit", "statement": "merkleize calls the hash function exactly once for each inner node of the tree that has a chunk of the data below it, and for no other: a limit costs one call for each level it adds, and nothing for empty data. hash_tree_root of a value makes fewer than 65 calls and 194 loop iterations for each value inside it, and of a decoded value fewer than a number that depends only on the length of the input and the number of types in the type, not on the bounds in it.", "quantifier": "all chunks and limits; every type with bounds in the supported range and every value or input", "why_tests_cant": "A statement about the number of operations for all sizes and limits; tests look at results only, and limits up to 2^63 cannot be tried against a tree that is built in full.", "anchors": ["ssz-rs/src/merkleization/merkleize.rs:79-84", "ssz-rs/src/merkleization/merkleize.rs:96-206", "ssz-rs/src/merkleization/merkleize.rs:225-236", "ssz-rs/src/merkleization/merkleize.rs:286-326"]}
{"id": "C77", "title": "Decoding takes steps linear in the input", "statement": "deserialize makes fewer than four steps (calls of deserialize and loop iterations) for each input byte and each type that occurs in the type, on every input, also on one that it rejects: no offsets in the input can make it take more, and the bounds in the type do not matter. The elements of a list of variable-size elements share the bytes behind the offsets; no two of them read the same byte.", "quantifier": "every type (also outside the supported range), every input of any length, with or without debug assertions", "why_tests_cant": "A statement about the number of operations on all inputs, hostile ones included; tests look at results only.", "anchors": ["ssz-rs/src/de.rs:66-287", "ssz-rs/src/list.rs:168-193", "ssz-rs/src/vector.rs:179-208", "ssz-rs-derive/src/lib.rs:105-237"]}
{"id": "C78", "title": "Verification of a proof takes as many hash calls as the tree is deep", "statement": "Proof::verify calls the hash function exactly once for each level above the node, at most 63 times, and not at all if the branch has a length other than the depth: a branch that is too long is rejected before it is read. verify_merkle_multiproof calls it exactly once for each node above one of the indices that is not an index itself, at most 63 times for each index, and makes at most 571 loop iterations for each index, whatever the proof.", "quantifier": "all proofs, branches, leaves, indices and roots, those that are rejected included", "why_tests_cant": "A statement about the number of operations for all inputs, hostile ones included; tests look at results only.", "anchors": ["ssz-rs/src/merkleization/proofs.rs:183-232", "ssz-rs/src/merkleization/multiproofs.rs:11-149"]}
{"id": "C79", "title": "Encoding moves each byte at most twice for each level of nesting", "statement": "serialize makes exactly so many steps (calls of serialize, loop iterations, and bytes written to a buffer, also those moved from one buffer to another): for each part of a collection or struct its own steps, two iterations and its bytes, in case of variable size its bytes twice and an offset. So there are fewer steps than four for each value inside, one for each byte of the encoding, and two more for each byte and each level of nesting; also if the value is rejected. This is linear in the length of the encoding for each type, but quadratic in the nesting: d nested lists around nothing have an encoding of 4 * d bytes and take (2 * d + 1)^2 steps.", "quantifier": "all supported types and all values in memory, with or without debug assertions; the bound in terms of the length of the encoding for values within their bounds", "why_tests_cant": "A statement about the number of operations for all values; tests look at results only.", "anchors": ["ssz-rs/src/ser.rs:59-118", "ssz-rs/src/list.rs:150-165", "ssz-rs/src/vector.rs:161-176", "ssz-rs/src/array.rs:28-43", "ssz-rs-derive/src/lib.rs:22-99"]}
{"id": "C80", "title": "A proof costs as many hash calls as the type has room for parts, not as there are", "statement": "A proof at an index calls the hash function exactly so often: in each layer that the index passes, for the roots of all parts of the value there, for all inner nodes of the tree over the room that the type has for parts (also where there is no data), and once for a length or selector; and not more often if it fails. So in a list a proof of anything, even of the length of an empty list, takes at least two calls for each chunk that the list might have (2^39 for List<u64, 2^40>), while the root takes fewer than 65 for each value. In all, at most 65 calls for each value and each type inside the type, and the room for parts of each type.", "quantifier": "all supported types whose layers have at most 2^56 leaves, all values within their bounds, every 64-bit generalized index and every path with such an index", "why_tests_cant": "A statement about the number of operations for all values and indices; tests look at results only, and on small types.", "anchors": ["ssz-rs/src/merkleization/proofs.rs:69-117", "ssz-rs/src/merkleization/merkleize.rs:241-326", "ssz-rs/src/list.rs:286-293", "ssz-rs/src/union.rs:136-158", "ssz-rs-derive/src/lib.rs:592-703"]}
{"id": "C81", "title": "Using a prover twice", "statement": "A Prover can be used for more than one proof: a proof made with a prover that was used before is the same as with a new one, and a failed proof leaves the prover as it was. (Refuted: the branch is kept, so that a second proof of the same or another value succeeds but verifies against no root unless the first was for index 1; after a failure the index may be that of the node inside a part, and asking again then gives a proof for this other index. Holds: the outcome is that of a new prover for the same index with the branch behind the old one; a success leaves the index and adds as many nodes as the index is deep; whatever happens, the branch is only extended and the index left is the old one or its last bits below a leading one.)", "quantifier": "all supported types, all values, all provers with a 64-bit index, debug and release builds", "why_tests_cant": "The tests of the repository never use a prover twice or after a failure, and the claim is about every value and every index at which a proof may fail.", "anchors": ["ssz-rs/src/merkleization/proofs.rs:45-117", "ssz-rs/src/merkleization/proofs.rs:119-135", "ssz-rs/src/list.rs:286-293", "ssz-rs/src/union.rs:146-158", "ssz-rs-derive/src/lib.rs:596-690"]}
{"id": "C82", "title": "What decoding a transparent enum costs", "statement": "Decoding an enum with #[ssz(transparent)] tries the variants from the last to the first, each on the whole input, until one does not return an error; the number of steps is one, plus one and its own steps for each variant tried. If the variants are linear in the input, so is the enum, with the sum of the sizes of the variants, alone or inside lists, vectors, arrays, options, newtypes, structs, enums and transparent enums. The size counts every occurrence of a type: k enums declared one inside the other, each with two variants of the enum before it, take 2^k times the steps on an input that the innermost type rejects, also if this input is one byte, but two steps each on one that it accepts. Without the attribute they take at most three steps each.", "quantifier": "all implementations of the parts, all inputs, all depths of nesting, debug and release builds", "why_tests_cant": "Only a proof bounds the steps for every input and every type, and shows the growth for every depth; the tests have one transparent enum, with two variants.", "anchors": ["ssz-rs-derive/src/lib.rs:159-180", "ssz-rs-derive/src/lib.rs:225-236", "ssz-rs/src/de.rs:74-149"]}
{"id": "C83", "title": "Proofs and generalized indices on targets with a smaller usize", "statement": "With a usize of fewer than 64 bits, single proofs are accepted and rejected as with 64 bits, by Proof::verify and verify_merkle_proof, and so are branches by is_valid_merkle_branch; and each path has the generalized index that it has with 64 bits. What holds of this: the first for all proofs; is_valid_merkle_branch only for branches with at most as many nodes as usize has bits, longer ones always make it panic (on 32-bit targets each branch of an Ethereum deposit, with 33 nodes); the indices for types in which the sizes of collections fit and whose elements are not usize, if the index fits. Then an index that does not fit comes out modulo 2^b without overflow checks, and panics with them: byte 32 of the first transaction of an Ethereum block has the index 1 on a 32-bit target, that of the whole list.", "quantifier": "all widths up to 64 bits, all types, all paths, all proofs, all hash functions, debug and release builds", "why_tests_cant": "The tests run on 64-bit targets only.", "anchors": ["ssz-rs/src/merkleization/generalized_index.rs:33-66", "ssz-rs/src/merkleization/generalized_index.rs:84", "ssz-rs/src/merkleization/proofs.rs:20-28", "ssz-rs/src/merkleization/proofs.rs:202-232", "ssz-rs/src/merkleization/multiproofs.rs:48-84", "ssz-rs/src/list.rs:242-275", "ssz-rs/src/uint.rs:70-72", "ssz-rs-derive/src/lib.rs:429-544"]}
{"id": "C84", "title": "Structs that contain themselves", "statement": "For struct Tree { value: T, children: List<Tree, N> } with any implementation of T, every value is encoded as SSZ has it and decoded from that, paths have their generalized indices, values their roots and proofs, and every input is decoded or rejected, with no more levels of calls on the stack than a number fixed beforehand. What holds of this: all of it except the last, for values with no more levels than there is room for on the stack; decoded values respect the bounds; more room changes no outcome other than an overflow; and inputs of fewer than k times the bytes that a level takes at least (the fixed part of the struct and one offset; 9 for a u8) never go deeper than k levels. What does not: whatever the room, there is a valid encoding of that many bytes per level that overflows it, so an input from outside can abort the process.", "quantifier": "all implementations of the field, all bounds of the list up to 2^56, all values and inputs shorter than 2^32 bytes, all amounts of stack, all hash functions, debug and release builds", "why_tests_cant": "Trees of every depth; the tests of the repository have no type that contains itself, and an overflow depends on the size of the stack.", "anchors": ["ssz-rs/src/list.rs:18-20", "ssz-rs/src/list.rs:137-148", "ssz-rs/src/list.rs:166-194", "ssz-rs-derive/src/lib.rs:144-155", "ssz-rs-derive/src/lib.rs:252-261", "ssz-rs-derive/src/lib.rs:284-297"]}
{"id": "C85", "title": "Memory reserved by decoding", "statement": "Decoding an input, accepted or not, takes no more than a fixed number of bytes of memory for each input byte, and for a List<T, N> no more than N elements. What holds of this: the memory taken for vectors, in which that of the vectors inside the decoded value is contained, is at most the length of the input times a number that depends on the sizes in memory of the types in the type, but not on the bounds of its lists. What does not: the vector for the elements of a list of variable-size elements is made as large as the first offset says, a quarter of it, before any other offset is looked at and without regard to N, so 4k bytes that are then rejected take memory for k elements; and an element may be larger in memory than in its encoding without limit, as with List<Option<[u8; m]>, N>, where an accepted input takes more than m bytes for every five.", "quantifier": "all types, all sizes of types in memory, all inputs, all bounds of lists, debug and release builds", "why_tests_cant": "A bound for all inputs cannot be sampled, and tests look at results and not at memory.", "anchors": ["ssz-rs/src/de.rs:74-149", "ssz-rs/src/list.rs:166-194", "ssz-rs/src/vector.rs:177-209", "ssz-rs/src/array.rs:45-75", "ssz-rs/src/union.rs:45-77", "ssz-rs-derive/src/lib.rs:105-237"]}
{"id": "C86", "title": "Roots on targets with a smaller usize", "statement": "With a usize of 32 to 64 bits, hash_tree_root returns the root of the specification for every value of every type in which the number of bits, the number of fields and the values in memory are in the range of the target. What holds of this: the root is right, in every build, for all values that contain no list whose limit is out of range (2^b bytes or more of packed elements, or more than 2^(b-1) others), if no collection has elements of type usize; with overflow checks exactly the others panic. Without overflow checks, limits of lists of packed elements count modulo 2^b bytes: on a 32-bit target List<u64, 2^29> has a root for the empty list only, List<u64, 2^29 + 4> has the roots of List<u64, 4>; and lists of other elements with a limit above 2^(b-1) have a root that does not depend on the second half of their elements, so that different lists have the same root.", "quantifier": "all widths from 32 to 64 bits, all types, all values that fit in memory, all hash functions, debug and release builds", "why_tests_cant": "The tests run on 64-bit targets only.", "anchors": ["ssz-rs/src/merkleization/merkleize.rs:96-236", "ssz-rs/src/list.rs:195-234", "ssz-rs/src/vector.rs:195-235", "ssz-rs/src/array.rs:59-86", "ssz-rs/src/bitvector.rs:170-178", "ssz-rs/src/bitlist.rs:181-190", "ssz-rs/src/union.rs:77-88", "ssz-rs-derive/src/lib.rs:326-394"]}
{"id": "C87", "title": "Encodings on targets with a smaller usize", "statement": "With a usize of 32 to 64 bits, serialize writes the encoding of the specification, deserialize accepts the same inputs with the same values and reports the same errors as with 64 bits, and what is written on one target is read as an equal value on any other. What holds of this: for all types without usize in which sizes, lengths and limits are in the range of the target and bit collections have fewer than 2^(b-3) bits, the encodings are the same (or the error), the same inputs are accepted, refused and panic, and the numbers in an error are those of a 64-bit target modulo 2^b; so in a build without overflow checks they differ if an offset is beyond the input. It is violated by usize itself, whose encoding has as many bytes as the target gives it: a usize written with 32 bits is refused with 64, and a List of two is read as a List of one. A List<Vector<u64, 2^(b-3)>, N> cannot be decoded: every input panics. A Bitlist of more than 2^(b-3) bits panics when it is decoded.", "quantifier": "all widths from 32 to 64 bits, all types, all values, all inputs shorter than 2^(b-1) bytes, debug and release builds", "why_tests_cant": "The tests run on 64-bit targets only.", "anchors": ["ssz-rs/src/ser.rs:73-120", "ssz-rs/src/de.rs:74-270", "ssz-rs/src/uint.rs:8-51", "ssz-rs/src/list.rs:150-193", "ssz-rs/src/vector.rs:150-193", "ssz-rs/src/array.rs:15-57", "ssz-rs/src/bitvector.rs:105-168", "ssz-rs/src/bitlist.rs:20-180", "ssz-rs/src/union.rs:14-75", "ssz-rs-derive/src/lib.rs:39-324"]}
{"id": "C88", "title": "Making of proofs on targets with a smaller usize", "statement": "With a usize of 32 to 64 bits, prove makes the proof that it makes with 64 bits, which verifies on the target. What holds of this: for all types in which every part has at most 2^(b-8) chunks and no collection has elements of type usize, prove returns the same proof or error, or panics, as with 64 bits, if the generalized index of the path is below 2^b; with overflow checks it panics for the other paths, without them it makes the proof for the index modulo 2^b. So in a release build on a 32-bit target the proof for byte 32 of the first element of a List<List<u8, 2^28>, 2^20> is a proof of the whole list with an empty branch, which verifies. With twice as many chunks no proof can be made: for List<Node, 2^(b-7)> prove panics for every path that it does not refuse, although hash_tree_root works.", "quantifier": "all widths from 32 to 64 bits, all types, all values that fit in memory, all paths, all hash functions, debug and release builds", "why_tests_cant": "The tests run on 64-bit targets only.", "anchors": ["ssz-rs/src/merkleization/proofs.rs:33-117", "ssz-rs/src/merkleization/proofs.rs:162-167", "ssz-rs/src/merkleization/merkleize.rs:261-326", "ssz-rs/src/list.rs:278-298", "ssz-rs/src/vector.rs:269-285", "ssz-rs/src/array.rs:120-141", "ssz-rs/src/union.rs:131-168", "ssz-rs-derive/src/lib.rs:596-703"]}
{"id": "C89", "title": "Memory held while roots and proofs are made", "statement": "merkleize holds one copy of its chunks, whatever the limit, as its documentation says (memory efficient). hash_tree_root of any value holds at most 64 bytes at one time for each value inside it, whatever the bounds in the type, and so for a decoded value a number linear in the length of the input; the exact number is given. A proof in contrast holds all nodes of the tree over the parts of the value with the room that the type has for parts (the naive implementation): at least 128 bytes for each chunk that a list might have, even if it is empty, so that 2^45 bytes are needed for a proof of the length of an empty List<u64, 2^40>; the exact number is given for every index, and an upper bound by the number of values and the room.", "quantifier": "all types, all values, all generalized indices and paths, all chunks and limits, all hash functions, debug and release builds", "why_tests_cant": "Tests look at what is returned, not at the memory taken on the way, and no test can make a proof in a type with a large limit.", "anchors": ["ssz-rs/src/merkleization/merkleize.rs:42-58", "ssz-rs/src/merkleization/merkleize.rs:77-199", "ssz-rs/src/merkleization/merkleize.rs:286-326", "ssz-rs/src/merkleization/proofs.rs:33-117"]}
{"id": "C90", "title": "Memory held while encoding", "statement": "What serialize holds in memory at one time (its buffer, the vectors made for the parts by Serializer::with_element, the vector for the parts of variable size, and the entries of the list of parts, w bytes each) is at most (w + 2 + d) times the length of the encoding, where d is the depth of the type, for every valid value, also where the call fails as the encoding is too long. It is at least the encoding with w bytes for each element or field of the value, so for a list of bytes between w + 1 and w + 3 times its length (25 to 27 with the 24 bytes of a 64-bit target), as each byte gets a vector of its own; and it is at least the encoding with the bytes of the parts of variable size once more. The depth is needed: n bytes inside d structs with one field each take at least (w + d) * n.", "quantifier": "all types, all valid values, all buffers, all sizes w of an entry, debug and release builds", "why_tests_cant": "Tests look at the bytes that are returned, not at the memory taken on the way, and cannot cover all types and values.", "anchors": ["ssz-rs/src/ser.rs:48-118", "ssz-rs/src/array.rs:28-42", "ssz-rs/src/vector.rs:160-175", "ssz-rs/src/list.rs:150-164", "ssz-rs/src/union.rs:30-45", "ssz-rs-derive/src/lib.rs:26-100", "ssz-rs/src/lib.rs:181-188"]}
{"id": "C91", "title": "Crashes of types built from parts of any kind", "statement": "Decoding a List, Vector, array, Option, newtype, struct or enum crashes exactly in these cases: the decoder of a part crashes on the bytes given to it, all parts before it having been read (for a transparent enum: all variants declared after it having rejected the input); the table of offsets of a collection of variable-size parts points outside of the input, all parts before having been read; or, only in a build with overflow checks, the second or a later offset of a struct points outside of the input. All other inputs are either accepted (C58) or rejected with an error. In particular a struct whose parts never crash never crashes in a release build.", "quantifier": "every implementation of Deserialize for the parts, also ones that crash; every bound and every input below 2^63 bytes", "why_tests_cant": "Ranges over implementations of the traits that do not exist yet and over all inputs.", "anchors": ["ssz-rs/src/de.rs: deserialize_homogeneous_composite, ContainerDeserializer", "ssz-rs/src/union.rs: Deserialize for Option", "ssz-rs-derive/src/lib.rs: derive_deserialize_impl"]}
{"id": "C92", "title": "Encoding values built from parts of any kind", "statement": "Encoding a List, Vector, array or struct encodes the parts in order. The first part that returns an error or crashes decides: the error is returned with the buffer left as it was, whatever the part wrote, and later parts are not encoded. If all succeed, the bytes they wrote are laid out as SSZ prescribes (the byte counts they return are not looked at), and the call succeeds exactly if the total is below 2^32 bytes. A list with too many elements is an error before any element is encoded; a vector or array of bound 0 always is. Option and enums write the selector and then do what the payload does, so that the selector and what a failing payload wrote stay in the buffer; transparent enums and newtypes do what the payload does. The types of the crate never crash.", "quantifier": "every implementation of Serialize for the parts, also ones that fail, leave bytes behind or crash; every value, bound and buffer", "why_tests_cant": "Ranges over implementations of the trait that do not exist yet, and over all values.", "anchors": ["ssz-rs/src/ser.rs: serialize_composite, Serializer", "ssz-rs/src/union.rs: Serialize for Option", "ssz-rs-derive/src/lib.rs: derive_serialize_impl", "ssz-rs/src/list.rs: Serialize for List", "ssz-rs/src/vector.rs: Serialize for Vector", "ssz-rs/src/array.rs: serialize"]}
{"id": "C93", "title": "Roots of values built from parts of any kind", "statement": "The root of a List, Vector, array or struct takes the roots of the parts in order (of parts that are not composite: the bytes that serialize writes, packed). The first part that returns an error or crashes decides, with its own error (wrapped as a serialization error for packed parts). If none does, the root is that of the tree over what was collected, where a list fails if it has more chunks than the type has room for, which is noticed only after all parts were hashed; vectors and arrays look at no length. Option and enums mix the selector into the root of the payload and fail as the payload does; transparent enums and newtypes have the root of the payload or its failure.", "quantifier": "every implementation of HashTreeRoot and Serialize for the parts, also ones that fail or crash; every value and every hash function; fewer than 2^58 parts, less than 2^63 bytes, bounds up to 2^63", "why_tests_cant": "Ranges over implementations of the traits that do not exist yet, and over all values.", "anchors": ["ssz-rs/src/merkleization/merkleize.rs:43-53", "ssz-rs/src/merkleization/merkleize.rs:195-236", "ssz-rs/src/list.rs: HashTreeRoot for List", "ssz-rs/src/vector.rs: HashTreeRoot for Vector", "ssz-rs/src/union.rs: HashTreeRoot for Option", "ssz-rs-derive/src/lib.rs: derive_hash_tree_root"]}
{"id": "C94", "title": "Inputs of the wrong length", "statement": "For a type of fixed size, an input longer than the type is rejected as too long, naming its length and that of the type. A shorter one is rejected as too short: naming its length and that of the type, or, for a struct, the bytes left for its first field that is not there as a whole and the size of that field. An input of the right length is decoded, or rejected for one of its bytes; it never crashes. For a list of elements of fixed size, an input that is no whole number of elements is rejected, naming its length and that of the whole elements in it; whole elements are rejected for one of their bytes, or decoded if they are at most the bound, or rejected naming the bound and their number.", "quantifier": "every type of fixed size and every list of such; every input below 2^63 bytes; both build modes", "why_tests_cant": "All types and all lengths.", "anchors": ["ssz-rs/src/uint.rs, boolean.rs, bitvector.rs, merkleization/node.rs: Deserialize", "ssz-rs/src/vector.rs, array.rs, list.rs: Deserialize", "ssz-rs/src/de.rs: ContainerDeserializer::parse, finalize"]}
