# Formal model of ssz-rs in Lean 4

Source under study: `/repo` (crates `ssz-rs` and `ssz-rs-derive`), read as text and never run.
Project: `/verif/lean` (Lean 4.33.0 with Mathlib), built with `lake build`.

## Layout

| Directory | Content |
| --- | --- |
| `lean/Verif/Model` | Transcription of the Rust functions. Each definition cites the file and lines it models. |
| `lean/Verif/Spec` | Small independent specification: SSZ encoding, SSZ roots, Merkle trees, generalized indices, branches, legal declarations, SHA-256. Uses no model helper; it shares only the syntax of types, their values and the byte type. |
| `lean/Verif/Proofs` | Lemmas. |
| `lean/Verif/Props` | One file per group of properties: the theorems named in `MANIFEST.json`, each with an `example` showing that its hypotheses are met by a concrete non-trivial case, and witnesses where the code violates a property. |
| `lean/Verif/Tests` | The inputs and expected results of the unit tests in `/repo/ssz-rs/src` and a selection of the official vectors in `/repo/ssz-rs/tests`, evaluated on the model with the real SHA-256. Tests of the transcription only; no theorem uses them. |
| `seeded/LOG.jsonl` | One line per deliberately wrong program tried against the theorems. |

## How the code is modelled

* **Outcomes.** `Res ε α` is `ok`, `err` or `panic`. Slicing out of range, `unwrap`/`expect` on a
  failure, division by zero, `vec![0; n]` beyond `isize::MAX` and arithmetic overflow with overflow
  checks are explicit panics.
* **Builds.** `Env.debug` selects a build with overflow checks and debug assertions or one without,
  where arithmetic wraps. Theorems hold for both unless they say otherwise.
* **SHA-256.** `Env.sha256 : Bytes → Node` is an arbitrary function. Positive theorems hold for every
  hash function; security statements conclude "or here are two different inputs with the same hash".
  Refutations that depend on the hash use the SHA-256 of `Spec/Sha256.lean` (FIPS 180-4), evaluated
  by the kernel.
* **Target.** `usize` has 64 bits, except in `Model/Width.lean` (C83: generalized indices and the
  verification of proofs), `Model/WidthRoot.lean` (C86: roots), `Model/WidthCode.lean` (C87: encodings) and
  `Model/WidthProve.lean` (C88: the making of proofs),
  which have other widths.
* **Buffers.** `serialize` is a function from the buffer to the new buffer and a result, so writes
  before an error are visible.
* **Traits.** A trait implementation is a record of functions; a generic `impl` is a function on
  records. `Ty` is the syntax of the types that are built from others in finitely many steps: integers, `U256`, `bool`, `Node`,
  `[T; N]`, `Vector`, `List`, `Bitvector`, `Bitlist`, `Option`, and derived newtypes, structs and
  enums, nested without limit. Structs that contain themselves (through the `Vec` in a `List`) are not
  among them; `Model/Recursive.lean` has a struct of this kind (C84). `Ty.impl` gives each its implementation. `Ty.Val` contains the
  values that safe code can build: `Vector` and `List` carry lists of any length and bit collections
  carry their unused storage bits, as these are reachable through `DerefMut`.
* **Derive macro.** The code generated for a struct or an enum is recursion over its fields or
  variants (`Model/Derive.lean`). Transparent enums are separate (`TransparentImpls`, not part
  of `Ty`); as parts of other types they are covered by C58 and C59, which hold for any
  implementation of the traits. The checks that decide whether a
  declaration is accepted (`Model/Macro.lean`) start from the attributes and fields that `syn` hands
  to the macro.
* **serde.** Implementations read and write a tree of sequences, strings and other values
  (`Model/Serde.lean`). The hexadecimal form is the documented one of `alloy_primitives`.

## Not modelled

* Memory exhaustion below `isize::MAX` bytes (C85 has the number of bytes reserved by decoding, C89 that
  held while roots and proofs are made, C90 that held while encoding) and stack
  overflow (except as the number of levels of calls in C84). Capacity overflow is modelled for
  `vec![0; n]` and for `Vec::with_capacity` in `Serializer::with_element`; not where the element size
  in memory matters (`Vector::default`, decoding of lists of variable-size elements), nor for `reserve`.
* The crates `sha2` (abstract function), `bitvec` (its operations are modelled in
  `Model/Bits.lean` from its documentation: unused bits of the last byte are kept by `pop`, fresh
  storage is zero; its limit of `usize::MAX / 8` bits is only modelled in `Model/WidthCode.lean`; a `BitVec` whose first bit is not the
  first bit of its storage, which safe code could assign through `DerefMut`, is not modelled),
  `alloy_primitives` (`U256` as a 256-bit number, `B256` as 32 bytes), `serde` and its data formats,
  and the Rust standard library (operations transcribed from its documentation).
* `Debug` other than that of `Bitlist`, `Bitvector`, `Tree`, `List`, `Vector` and `PathElement`, the alternate
  form `{:#?}` of all of them, `Index`/`IntoIterator` conveniences. In
  `Model/Display.lean` the standard library's formatting of numbers, strings and `Vec` is transcribed
  from its documentation; which characters it prints unescaped and the names that `any::type_name`
  gives are parameters.
* Rust parsing, name resolution and generics in the derive macro; `syn`'s parsing of attributes.
* The test generator crate `ssz-rs-test-gen` and the examples.
* Length sums in `Serializer` count bytes held in memory, so they are plain numbers. The position in
  a branch is a plain number where the code casts it to `u32`.
* The map of the multiproof verifier is a list of pairs; `HashMap` and the `BTreeMap` used without
  `std` agree with it because only lookups and insertions are used.

## Trusted base

* Lean's kernel and the three standard axioms `propext`, `Classical.choice`, `Quot.sound`: each
  theorem in `MANIFEST.json` depends on a subset of these three and on nothing else. No axiom
  is added; no `sorry`, `admit`, `native_decide` or `bv_decide`. `decide +kernel` is used for some
  concrete witnesses and relies on the kernel only.
* The fidelity of `Verif/Model` to the Rust source, by the citations on each definition. Evidence:
  the transcription was compared line by line twice, the expected values of the crate's own unit
  tests come out of the model, and so do all 1865 official vectors in `/repo/ssz-rs/tests` (833 valid,
  1032 invalid; a selection is in `Verif/Tests`).
* The fidelity of `Verif/Spec` to the SSZ specification (consensus-specs `ssz/simple-serialize.md`
  and `ssz/merkle-proofs.md`) and to FIPS 180-4.

## Specification

* `Spec.isVar`, `Spec.fixedLen`, `Spec.enc`: which types are variable-size, the size of the others,
  and the encoding of a value, by recursion on the type.
* `Spec.Legal`: bounds are positive where SSZ demands it, structs have fields, enums have 1..127
  variants with `None` only first. `Spec.Fits`: sizes are below 2^63, bounds fit in `usize`.
* `Spec.Valid`: the value respects the bounds of its type.
* `Spec.norm`: the value with unused storage bits cleared; `norm v = norm w` is Rust's `v == w` (C73).
* `Spec.Accepts`, `Spec.Crashes`: the inputs that decoding accepts for a value, and those that make it
  panic.
* `Spec.dataBytes`: the amount of data a value holds.
* `Spec.MTree`: binary trees with nodes at the leaves, `root`, the node at a generalized index.
* `Spec.tree`: the Merkle tree of a value; `Spec.htr` its root.
* `Spec/Index.lean`: the tree position of a path (`gindex`). `Spec/Branch.lean`: folding a branch.
* `Spec/Macro.lean`: declarations the macro should accept. `Spec/Errors.lean`: what an error claims.
  `Spec/Overflow.lean`: values with lists whose limit is out of range.
  `Spec/Stored.lean`: what is written, hashed and proven for values with stale bits.
  `Spec/Update.lean`: values that differ in one part, and the part at the end of a path.

## Where the code disagrees with the claims

Each has a theorem with a witness in `Verif/Props` (suffix `_refuted`, `_panics` or as named).

| Id | Disagreement |
| --- | --- |
| C02 | A list of variable-size elements accepts a first offset of zero followed by anything, as the empty list. |
| C02 | `deserialize` knows no longest input: 4 GiB are decoded as a `List<u8, N>` with a large `N`, and `serialize` refuses the value (`C02_long_refuted`). |
| C03 | Offsets beyond the input panic in lists of variable-size elements; in debug builds also in structs with two variable-size fields (a subtraction in an error path). |
| C10 | A failing `serialize` of an `Option` or enum leaves the selector byte in the buffer. |
| C17, C27, C32 | Newtypes of basic types used as elements are not packed, so the root and the index differ from the specification. |
| C19, C30 | `Bitlist::pop` of a set bit leaves the bit in storage, where `serialize` and `hash_tree_root` read it. The expected root in the crate's own test (merkleize.rs:640-646) contains the stale bit; see `Verif/Tests`. |
| C21 | A transparent enum does not round-trip if a later variant accepts the bytes, or if the encoding is empty. |
| C23 | A `Vector` or `Bitvector` of wrong length (through `DerefMut`) encodes without error. |
| C25 | An over-long `Bitlist` fails with a serialization error, not with `InputExceedsLimit`. |
| C29 | An over-long `List` of packed elements has a root if the surplus fits in the last chunk. |
| C31 | `hash_tree_root` panics for lists with a limit above 2^63 elements (or 2^64 packed bytes): always in debug builds, for the empty list in release builds. |
| C28 | In release builds, a list with a limit above 2^63 has a root that ignores the second half of its elements, so different lists have the same root. |
| C27 | In release builds, the limit of a list of packed elements wraps at 2^64 bytes: no nonempty `List<u64, 2^61>` has a root. |
| C32, C36, C39, C64, C65 | Collections of arrays of packed elements (other than arrays of exactly 32 bytes): the root packs the elements, the index and the prover count one chunk each. |
| C33 | The path to the length of a `Bitlist` is refused. |
| C34 | The chunk count of a collection is computed as `N * item_length + 31`, which overflows from `List<Node, 2^59>` on although the index would fit: release builds return an index that is too small, debug builds panic. |
| C34, C35, C38 | An index that does not fit in 64 bits wraps in release builds, and the prover then proves another leaf; it panics in debug builds. |
| C37 | A path into a variant that the value does not have yields a proof that does not verify. |
| C39, C57 | Proving below a missing list element panics. |
| C39 | Proving anything about a type with room for more than 2^57 chunks panics, even for an empty list: the prover allocates the whole tree. |
| C57 | Below a length or selector, where the tree has no nodes, the prover returns proofs that do not verify. |
| C41 | `is_valid_merkle_branch` panics for depths above 64. |
| C46 | The multiproof verifier accepts wrong leaves for repeated indices and for an index below another. |
| C47 | `calculate_multi_merkle_root` panics without indices. |
| C52 | For a transparent enum, `Prove` yields a proof for the enum without the attribute; its witness is not the root. |
| C54 | `is_valid_merkle_branch` ignores the bits of `index` above `depth`. |
| C59 | A transparent enum with a payload of a fixed-size type is written behind an offset when it is part of another type, so a struct with it is not encoded as with the payload. |
| C60 | Without overflow checks, the error for an offset beyond the input in a struct reports a provided length near 2^64 (the debug build panics there, C03). |
| C63 | `Debug` for `Tree` always panics: it reads the bytes of a node as hexadecimal text. The library does not call it. |
| C81 | `compute_proof` never clears the branch of the prover (proofs.rs:60-62, 106-111), so a second proof with one `Prover` succeeds but never verifies, unless the branch was empty. If the proof of an element fails, the index of the prover stays the one inside the element (proofs.rs:91-93), so asking again may give a proof for another index. `prove` makes a new prover each time and is not affected; the module `proofs` is public, so users may be |
| C82 | Transparent enums inside transparent enums: each one tries all its variants on the whole input (lib.rs:159-180), so decoding a rejected input takes a number of steps that is exponential in the number of declarations. Not a wrong result, but a type with thirty such declarations takes thousands of millions of steps on one byte |
| C83 | On 32-bit targets `is_valid_merkle_branch` panics for every branch of more than 32 nodes (`2usize.pow(32)`, proofs.rs:217), so for every Ethereum deposit (33 nodes). Indices above 2^32 wrap in release builds: byte 32 of the first transaction of a block has the index 1 there, that of the whole list. Collections of `usize` have other indices than on 64-bit targets |
| C84 | A struct may contain a `List` of itself, and decoding it calls itself for each level of the input, without a limit (list.rs:166-194, lib.rs:144-155). A level takes few bytes (9 with a field of type `u8`), so a short input overflows any stack, which aborts the process |
| C85 | `deserialize_variable_homogeneous_composite` makes a vector for as many elements as the first offset says (`Vec::with_capacity`, de.rs:123-124), before it has looked at another offset and without regard to the bound `N` of the list, so that a rejected input of 4k bytes takes `k * size_of::<T>()` bytes. A `None` of `Option<[u8; m]>` takes five bytes of input and m of memory |
| C86 | On targets with `b < 64` bits the limit of a list of packed elements is computed modulo `2^b` bytes in release builds (`N * T::size_hint()`, list.rs:215), so that with 32 bits `List<u64, 2^29>` has no root unless empty and `List<u64, 2^29 + 4>` has the roots of `List<u64, 4>`; and with a limit above `2^(b-1)` of other elements (`next_power_of_two`, merkleize.rs:203) the second half of the elements is not hashed. Debug builds panic. The same happens with 64 bits, for larger limits (C28, C31) |
| C87 | `usize` is encoded with as many bytes as it has on the target (uint.rs:8-51), so encodings are not portable: with 32 bits a `List` of two `usize` is written that is read as a `List` of one with 64 bits. With 32 bits `List<Vector<u64, 2^29>, N>` panics when it is decoded, whatever the input (`T::size_hint()` overflows; in release builds it is 0 and list.rs:172 takes the remainder by it), and a `Bitlist` of more than 2^29 bits panics when it is decoded, because of the limit of `bitvec`. In release builds the number in `ExpectedFurtherInput` for an offset beyond the input is a wrapped difference, which depends on the target |
| C88 | In release builds on 32-bit targets, `prove` for a path whose index is 2^32 or more makes a proof for the index modulo 2^32: for byte 32 of the first element of a `List<List<u8, 2^28>, 2^20>` it returns a proof of the whole list with an empty branch, which verifies. A type with more than 2^24 chunks has no proofs on a 32-bit target: the tree of `List<Node, 2^25>` has 2^32 - 32 bytes whatever the length of the list, and its allocation panics (merkleize.rs:305), although `hash_tree_root` works |

Also noticed: SSZ permits 128 union variants, the macro 127.

## Properties

Status words: *proved* = in full; *refuted + partial* = the code violates the property: a witness
theorem shows the violation and `_partial` theorems prove what remains true. The notes in
`MANIFEST.json` say what each partial theorem covers.

| Id | Model | Status and method |
| --- | --- | --- |
| C01 | SerDe, all types | proved: induction on the type; encoding and decoding lemmas per constructor |
| C02 | SerDe | refuted (a first offset of zero decodes to an empty list) + partial: exact set of accepted inputs (`Spec.Accepts`); canonical iff no decoded list of variable-size elements is empty |
| C03 | SerDe, Derive | refuted (unchecked offsets panic; subtraction in an error path panics in debug) + partial: exact set of inputs that panic (`Spec.Crashes`), in both builds |
| C04 | all deserialize | proved: induction on the type |
| C05 | all serialize | proved: serialize = `Spec.enc` by induction on the type |
| C06 | all serialize | proved: from C05, for every buffer |
| C07 | size_hint | proved: from C05 and a length lemma on `Spec.enc` |
| C08 | all | proved: corollary of C01 |
| C09 | Serializer, List, Bitlist | proved: exact characterisation of success |
| C10 | Serializer, Union | refuted (the selector byte stays) + partial: types that are not unions; for every type and value exactly which bytes stay |
| C11 | deserialize of fixed-size types | proved: induction on the type |
| C12 | Union, Derive | proved |
| C13 | homogeneous decoding | proved |
| C14 | ContainerDeserializer | proved: invariant of parse and finalize |
| C15 | Union, Derive | proved |
| C16 | Collections | proved |
| C17 | Union (newtype) | refuted (a newtype of a basic type used as an element changes the root) + partial: encoding and decoding everywhere; own root, indices and proofs; everywhere if the wrapped type is not packed |
| C18 | try_from | proved |
| C19 | Bits | refuted (pop leaves a stale bit that serialize and root read) + partial: without popping set bits; for every state exactly what is written and hashed, and that it is right iff no stale bit is set |
| C20 | Bits | proved |
| C21 | TransparentImpls | refuted + partial: round trip iff the encoding is nonempty and no later variant accepts it; exact decoding |
| C22 | validate_derive_input | proved: accepted iff legal |
| C23 | Vector, Bitvector | refuted + partial: bound zero; exactly what is written and what decoding makes of it |
| C24 | Merkleize | proved: invariant of the in-place layer loop |
| C25 | Merkleize | refuted for Bitlist (other error) + partial: merkleization and List |
| C26 | zero hashes | proved: loop invariant |
| C27 | hash_tree_root | refuted (arrays of basic elements and newtypes of basic types as elements) + partial: all other types, arrays of one chunk included; exact root for all types |
| C28 | hash_tree_root | refuted (list limits above 2^63, release) + partial: on the specification, transferred by C27 |
| C29 | List, Bitlist | refuted (packed elements within the last chunk) + partial: exactly which lists have a root |
| C30 | Bits | refuted for Bitlist after pop + partial (exact conditions for every type) |
| C31 | hash_tree_root | refuted for list limits out of range + partial: the exact values that panic with overflow checks |
| C32 | generalized index | refuted (two kinds of element) + partial: induction over the path for all paths that do not enter those |
| C33 | generalized index | refuted (length of a Bitlist) + partial |
| C34 | generalized index | refuted (wraps in release) + partial (for every type: right if and only if index and chunk counts fit; the outcome otherwise) |
| C35 | generalized index | refuted (wrapping) + partial |
| C36 | Prover | refuted (arrays of packed elements) + partial: the exact witness for all types |
| C37 | Prover, verify | refuted (absent variant) + partial: a returned proof verifies iff the tree has a node at its index |
| C38 | Prover | refuted (wrapping) + partial |
| C39 | Prover | refuted (path into a missing list element) + partial: the exact condition for a panic |
| C40 | verify | proved |
| C41 | verify | refuted for the explicit depth API + partial: generalized indices and depth up to 64 |
| C42 | verify | proved |
| C43 | verify, Multiproofs | proved |
| C44 | verify | proved |
| C45 | Multiproofs | proved |
| C46 | Multiproofs | refuted (duplicate and nested indices) + partial: for every list, the last leaf at each index with none above it; exact acceptance condition |
| C47 | Multiproofs | refuted (no index) + partial |
| C48 | Multiproofs | proved |
| C49 | Multiproofs | proved |
| C50 | all | proved: relational induction |
| C51 | serde conversion | proved on the conversion after the format layer |
| C52 | TransparentImpls, Prover | refuted + partial: the exact index, proof and witness |
| C53 | SerDe, all types | proved: from C02's exact set of accepted inputs |
| C54 | verify | refuted (high bits of the index are ignored) + partial: soundness for the index modulo 2^depth |
| C55 | Default | proved: induction on the type |
| C56 | Debug | proved: loop invariant over groups of four |
| C57 | Prover | refuted (below a length; below a missing element) + partial: the exact answer at every index, where there is one, and when it verifies |
| C58 | all generic impls and derived code | proved: for any implementation of the parts that follows a codec, and for the inputs accepted (`Spec/Reads.lean`) any that reads a format |
| C59 | TransparentImpls | refuted (fixed-size payloads) + partial: variable-size payloads |
| C60 | all deserialize | refuted (wrapping in an error path, release builds) + partial: induction on the type |
| C61 | all serialize | proved: induction on the type |
| C62 | generalized index | proved: induction on the type |
| C63 | TreeDebug | refuted for every tree |
| C64 | prover, proofs | refuted (arrays of packed elements) + partial: trees of values that differ in one part differ in one subtree: induction on the type |
| C65 | prover, proofs | refuted (arrays of packed elements) + partial for all other paths in all types: subtrees and branches along concatenated indices: induction on the type and on the branch |
| C66 | generalized index of all generic impls and derived code | proved: for any implementation of the parts that resolves its paths |
| C67 | prover in all generic impls and derived code | refuted for transparent enums (C52), otherwise for any implementation of the parts that hashes and proves by a tree |
| C68 | Display of the errors | proved: reading the text back, number by number and character by character |
| C69 | Debug of List and Vector | proved: reading the text back |
| C70 | verification of proofs and multiproofs | proved: merging the trees that accepted proofs describe, else a collision |
| C71 | lengths of encodings | partial: range of lengths by recursion on the type, both ends attained; the upper bound on inputs fails for lists of variable-size elements |
| C72 | pairs of types encoded alike | proved: relation between types by structural changes, encoding, acceptance and tree carried over by recursion on it |
| C73 | comparisons | proved: induction on the type; the order by prefix-free lists of numbers |
| C74 | generalized index, hash tree root, verification of proofs and multiproofs | refuted (arrays of packed elements) + partial for all other paths in all types: C32, C40, C46 and C65's subtrees combined |
| C75 | hash tree root, generalized index, prover | refuted (arrays of `Node` as elements are packed) + partial for all other types: the tree with `Node` is that of the whole with subtrees cut off |
| C76 | `merkleize`, `hash_tree_root`, `compute_merkle_tree` with counters of hash calls and loop iterations (`Model/Cost.lean`) | proved: the functions with counters return the same; exact number of calls of `merkleize`, bounds for whole and decoded values. The prover's tree costs as much as the limit (a known shortcoming, "naive implementation" in the source) |
| C77 | `deserialize` of all types with a counter of calls and loop iterations (`Model/DecodeCost.lean`) | proved, for all types and inputs. Not counted: `Transparent` enums (C82), allocation, and the work inside one step (reading an integer, comparing lengths) |
| C78 | `Proof::verify`, `is_valid_merkle_branch`, `verify_merkle_proof`, `verify_merkle_multiproof` with the counters of C76 (`Model/VerifyCost.lean`) | proved. Not counted: comparisons in `sort_by`, the cost of one operation on a hash map |
| C79 | `Serializer`, `serialize` of all types with a counter of calls, loop iterations and bytes written or moved (`Model/EncodeCost.lean`) | proved. Not counted: growth of a `Vec`, `Transparent` enums. `C79_deep` shows that the factor for the nesting is needed: every level copies the bytes of its variable-size parts twice (ser.rs:109 and :97) |
| C80 | `compute_proof`, `prove`, `Prove::chunks` and `prove_element` of all types with the counters of `Model/Cost.lean` (`Model/ProveCost.lean`) | proved: exact number of hash calls for every index (`Spec/ProveCost.lean`), lower bound by the room that the type has, upper bound. Not counted: loops over the bits of an index. The source calls `compute_merkle_tree` a naive implementation (merkleize.rs:286-289); `C80_list` says what this means: proofs in types with large limits are out of reach, whatever the value |
| C81 | `Prover::compute_proof` and `prove_element` of all types once more, with the prover as `&mut self` (`Model/ProverState.lean`): what is left behind, also by a failure | partial, as the code violates it: a prover used once gives only proofs that do not verify, and after a failure it may have another index. Exact: `C81_again_partial`, `C81_left_partial` |
| C82 | `deserialize` with a counter once more, for parts of any implementation (`Model/PartsCost.lean`), with transparent enums | proved, for all implementations of the parts. Counted as in C77 |
| C83 | `compute_generalized_index`, `Proof::verify`, `is_valid_merkle_branch`, `verify_merkle_proof` with a `usize` of any width (`Model/Width.lean`; the same as the others for 64 bits) | partial: violated for long branches, large indices and collections of `usize`; otherwise proved for all widths up to 64. Roots are the subject of C86, encodings of C87, the making of proofs of C88 |
| C84 | `struct Tree { value: T, children: List<Tree, N> }` with the derived functions, for any implementation of `T` (`Model/Recursive.lean`); the stack is a number of calls inside each other | partial: violated as no stack suffices for all inputs; encodings, decoding, indices, roots and proofs of trees by induction on the number of levels. Other recursive declarations are not modelled; that rustc accepts this one is from reading the bounds of the impls |
| C85 | The decoding functions with a counter of bytes of memory (`Model/Memory.lean`), the size of each type in memory being a parameter; shown equal to those without | partial: violated as the bound of a list is not looked at before memory is taken and as the factor is not the same for all types; linear in the input for each type. Not counted: growth of vectors by doubling, the vectors of `ContainerDeserializer` |
| C86 | `hash_tree_root` and `merkleize` with a `usize` of any width from 32 to 64 bits (`Model/WidthRoot.lean`; the same as the others for 64 bits). The size and the encoding of packed elements are as with 64 bits, so collections of `usize` are excluded | partial: violated for lists whose limit is out of range; otherwise proved |
| C87 | `serialize` and `deserialize` of all types of `Ty` with a `usize` of any width from 32 to 64 bits (`Model/WidthCode.lean`), with the limit of `bitvec`. Memory that is exhausted while writing is not modelled | partial: violated for `usize`, for sizes that are out of range, for long bit lists and for the numbers in errors; otherwise proved |
| C88 | `prove` of all types of `Ty` with a `usize` of any width from 32 to 64 bits (`Model/WidthProve.lean`) | partial: violated where the index or the tree is out of range; otherwise proved, including errors and panics |
| C89 | `pack`, `merkleize`, `elements_to_chunks`, `compute_merkle_tree`, `hash_tree_root`, `chunks` and `compute_proof` of all types with the largest number of bytes held in vectors at one time (`Model/Peak.lean`; shown equal to those without) | proved: exact for valid values (`Spec/Peak.lean`), at most 64 bytes for each value for roots of all values, bounds from below and above for proofs. Not counted: spare capacity, the branch of the proof, what `serialize` takes for one packed element |
| C90 | `Serializer`, `serialize` of all types with the largest number of bytes held at one time (`Model/EncodeMemory.lean`; shown equal to those without) | proved: at most `(w + 2 + depth)` times the length of the encoding for valid values, with `w` the size of an entry of `parts`; bounds from below by the number of parts and the bytes behind offsets; a family of types that needs the depth. Not counted: spare room of vectors that grow |
| C91 | `deserialize` of all generic impls and derived code, for parts of any implementation | proved: exactly which inputs crash (`Spec/Behaves.lean`), for parts that may crash themselves; inputs below 2^63 bytes |
| C92 | `serialize` of all generic impls and derived code, `Serializer`, for parts of any implementation | proved: what each call appends and returns (`Spec/Writes.lean`), for parts that may fail, leave bytes behind or crash; size hints of parts below 2^63 |
| C93 | `hash_tree_root` of all generic impls and derived code, `pack`, `merkleize`, `elements_to_chunks`, for parts of any implementation | proved: the root, or whose failure it is (`Spec/Hashes.lean`), for parts that may fail or crash |
| C94 | `deserialize` of all types of fixed size, of lists of such, `ContainerDeserializer::parse`, `finalize` | proved: which error for which length (`Spec/Lengths.lean`), by induction on the type |
