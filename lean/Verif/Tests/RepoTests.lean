import Verif.Model.Types
import Verif.Model.Proofs
import Verif.Model.Serde
import Verif.Spec.Sha256

/-!
# The unit tests of the crate, run on the model

These are tests of the transcription, not proofs: the inputs and expected results of the tests in
/repo/ssz-rs/src are evaluated on the definitions of `Verif.Model`, with the real SHA-256. No
theorem depends on this file. Left out are tests of iteration and ordering, tests whose trees have
more than 2^10 leaves (the model walks lists), and round trips, which C01 proves in general.
-/

namespace Ssz.Tests

/-- The value of a hexadecimal digit. -/
def nib (c : Char) : Nat := if c.isDigit then c.toNat - 48 else c.toNat - 87

/-- The bytes written in hexadecimal. -/
def hex : List Char → Bytes
  | a :: b :: r => BitVec.ofNat 8 (16 * nib a + nib b) :: hex r
  | _ => []

/-- `decode_node_from_hex` -/
def node (s : String) : Node :=
  if h : (hex s.toList).length = 32 then ⟨hex s.toList, h⟩ else zeroNode

def rootIs (r : Res MerkError Node) (h : String) : Bool := r == .ok (node h)

def rootOf (t : Ty) (v : t.Val) : Res MerkError Node := (t.impl release).hashTreeRoot v

/-- The encoding is as given and the reported length is right. -/
def encodes (t : Ty) (v : t.Val) (bytes : Bytes) : Bool :=
  match (t.impl release).serialize v [] with
  | (buf, .ok n) => buf == bytes && n == bytes.length
  | _ => false

def decode (t : Ty) (bytes : Bytes) : Res DeError t.Val := (t.impl release).deserialize bytes

def decodes (α : Type) [DecidableEq α] (r expected : Res DeError α) : Bool := r = expected

def index (t : Ty) (path : List PathElement) : Res MerkError Nat :=
  generalizedIndex (t.impl release) path

/-- `compute_and_verify_proof_for_path`: /repo/ssz-rs/src/merkleization/proofs.rs:245-252 -/
def proves (t : Ty) (v : t.Val) (path : List PathElement) : Bool :=
  match prove release (t.impl release) v path with
  | .ok (proof, witness) =>
    (t.impl release).hashTreeRoot v == .ok witness && proof.verify release witness == .ok ()
  | _ => false

/-- `compute_and_verify_proof_against_index`: /repo/ssz-rs/src/vector.rs:532-549 -/
def provesAt (t : Ty) (v : t.Val) (path : List PathElement) (expected : Nat) : Bool :=
  match prove release (t.impl release) v path,
      computeProof release (t.impl release) v (Prover.ofIndex expected) with
  | .ok (proof, witness), .ok prover =>
    proof.verify release witness == .ok () && index t path == .ok expected &&
      prover.proof == proof && prover.witness == witness
  | _, _ => false

def isErr {ε α : Type} : Res ε α → Bool
  | .err _ => true
  | _ => false

def expectedFurther {α : Type} : Res DeError α → Bool
  | .err (.expectedFurtherInput ..) => true
  | _ => false

def additional {α : Type} : Res DeError α → Bool
  | .err (.additionalInput ..) => true
  | _ => false

/-! ## uint.rs, boolean.rs -/

#guard encodes (.uint .u8) (2 : BitVec 8) [2]
#guard encodes (.uint .u16) (1337 : BitVec 16) [57, 5]
#guard encodes (.uint .u32) (1337 : BitVec 32) [57, 5, 0, 0]
#guard encodes (.uint .u64) (1337 : BitVec 64) [57, 5, 0, 0, 0, 0, 0, 0]
#guard encodes (.uint .u128) (1337 : BitVec 128) [57, 5, 0, 0, 0, 0, 0, 0, 0, 0, 0, 0, 0, 0, 0, 0]
#guard encodes .u256 (0x0202020202020202020202020202020202020202020202020202020202020202 : BitVec 256)
  (List.replicate 32 2)
#guard decodes (BitVec 16) (decode (.uint .u16) [57, 5])
  (.ok 1337)
#guard decodes (BitVec 64) (decode (.uint .u64) (List.replicate 8 255))
  (.ok (-1))
#guard encodes .bool false [0]
#guard encodes .bool true [1]
#guard decodes Bool (decode .bool [1])
  (.ok true)

/-! ## bitlist.rs, bitvector.rs -/

#guard encodes (.bitlist 256) Bits.new [1]
#guard encodes (.bitlist 256) ((Bits.new.push false).push true) [6]
#guard encodes (.bitlist 256) (Bits.new.extend [false, false, false, true, true, false, false, false])
  [24, 1]
#guard decodes Bits (decode (.bitlist 256) [1])
  (.ok Bits.new)
#guard ((decode (.bitlist 256) [24, 1] : Res DeError Bits).map Bits.live) ==
  .ok [false, false, false, true, true, false, false, false]
#guard ((decode (.bitlist 256) [24, 2] : Res DeError Bits).map Bits.live) ==
  .ok [false, false, false, true, true, false, false, false, false]
#guard ((decode (.bitlist 256) [24, 3] : Res DeError Bits).map Bits.live) ==
  .ok [false, false, false, true, true, false, false, false, true]
#guard decodes Bits (decode (.bitlist 256) [24, 0])
  (.err (.invalidByte 0))
#guard encodes (.bitvector 4) (Bits.repeatFalse 4) [0]
#guard encodes (.bitvector 12) (Bits.repeatFalse 12) [0, 0]
#guard encodes (.bitvector 12) (((Bits.repeatFalse 12).set 3 true).1.set 4 true).1 [24, 0]
#guard ((decode (.bitvector 4) [12] : Res DeError Bits).map Bits.live) == .ok [false, false, true, true]
#guard ((decode (.bitvector 12) [24, 1] : Res DeError Bits).map Bits.live) ==
  .ok [false, false, false, true, true, false, false, false, true, false, false, false]

/-- The text form of bits. -/
def text (T : Serde.Impl Bits) (v : Res Error Bits) : String :=
  match v with
  | .ok v =>
    match T.ser v with
    | .ok (.str s) => String.ofList s
    | _ => ""
  | _ => ""

#guard text (Serde.bitlist release 256) (Bitlist.tryFromBools 256
  [true, true, true, true, true, true, true, true, false, true, true, true]) == "0xff1e"
#guard text (Serde.bitvector 12) (Bitvector.tryFromBools 12
  [false, false, false, true, true, false, false, false, false, true, false, false]) == "0x1802"

/-! ## list.rs, vector.rs -/

#guard encodes (.list (.uint .u16) 32) (List.replicate 32 (33 : BitVec 16))
  (List.replicate 32 ([33, 0] : Bytes)).flatten
#guard encodes (.vector (.uint .u16) 32) (List.replicate 32 (33 : BitVec 16))
  (List.replicate 32 ([33, 0] : Bytes)).flatten
#guard encodes (.vector (.list (.uint .u8) 1) 4) ([[0], [1], [2], []] : List (List (BitVec 8)))
  [16, 0, 0, 0, 17, 0, 0, 0, 18, 0, 0, 0, 19, 0, 0, 0, 0, 1, 2]
#guard decodes (List (List (BitVec 8))) (decode (.vector (.list (.uint .u8) 1) 4)
    [16, 0, 0, 0, 17, 0, 0, 0, 18, 0, 0, 0, 19, 0, 0, 0, 0, 1, 2])
  (.ok [[0], [1], [2], []])
#guard expectedFurther (decode (.vector (.uint .u8) 6) [])
#guard isErr (SszVector.tryFromVec 1 (List.replicate 10 (2 : BitVec 8)))
#guard isErr (index (.list (.uint .u8) 4) [.index 5])
#guard isErr (index (.vector (.uint .u8) 4) [.index 5])

def w2 : Ty := .vector (.vector (.uint .u64) 2) 2
#guard [index w2 [.index 0, .index 0], index w2 [.index 0, .index 1], index w2 [.index 1, .index 0],
  index w2 [.index 1, .index 1]] == [.ok 2, .ok 2, .ok 3, .ok 3]
def v2 : Ty := .vector (.vector .u256 2) 2
#guard [index v2 [.index 0, .index 0], index v2 [.index 0, .index 1], index v2 [.index 1, .index 0],
  index v2 [.index 1, .index 1]] == [.ok 4, .ok 5, .ok 6, .ok 7]

#guard provesAt (.vector .u256 7) ([23, 34, 45, 56, 67, 78, 11] : List (BitVec 256)) [.index 3] 11
#guard provesAt (.vector (.uint .u64) 7) ([23, 34, 45, 56, 67, 78, 11] : List (BitVec 64))
  [.index 3] 2
def b2 : Ty := .vector (.vector .bool 2) 2
def b2v : b2.Val := ([[true, true], [true, true]] : List (List Bool))
#guard provesAt b2 b2v [.index 0] 2
#guard provesAt b2 b2v [.index 1] 3
#guard provesAt b2 b2v [.index 0, .index 1] 2
#guard provesAt b2 b2v [.index 1, .index 0] 3
def v2v : v2.Val := ([[1, 2], [1, 2]] : List (List (BitVec 256)))
#guard provesAt v2 v2v [.index 0] 2
#guard provesAt v2 v2v [.index 1] 3
#guard provesAt v2 v2v [.index 0, .index 0] 4
#guard provesAt v2 v2v [.index 0, .index 1] 5
#guard provesAt v2 v2v [.index 1, .index 0] 6
#guard provesAt v2 v2v [.index 1, .index 1] 7

#guard proves (.vector (.vector .u256 18) 2)
  (List.replicate 2 (List.replicate 18 (11 : BitVec 256))) [.index 1, .index 17]
#guard proves (.vector (.vector (.uint .u64) 18) 2)
  (List.replicate 2 (List.replicate 18 (11 : BitVec 64))) [.index 1, .index 17]
#guard proves (.vector (.vector .u256 3) 18)
  (List.replicate 18 (List.replicate 3 (11 : BitVec 256))) [.index 17, .index 2]
#guard proves (.vector (.vector (.uint .u64) 3) 18)
  (List.replicate 18 (List.replicate 3 (11 : BitVec 64))) [.index 17, .index 2]

#guard proves (.list .bool 32) ([true, true, false, true] : List Bool) [.index 27]
#guard proves (.list .bool 32) ([] : List Bool) [.index 27]
#guard proves (.list .bool 32) ([] : List Bool) [.length]
#guard proves (.list .u256 1) ([] : List (BitVec 256)) [.index 0]
#guard proves (.list .u256 256) ([11] : List (BitVec 256)) [.index 0]
#guard proves (.list .u256 256) ([11] : List (BitVec 256)) [.index 1]
#guard proves (.list .u256 256) ([11] : List (BitVec 256)) [.index 255]
#guard proves (.list .u256 3) ([23] : List (BitVec 256)) [.index 2]
#guard proves (.list .u256 3) ([23] : List (BitVec 256)) [.length]
#guard proves (.list .u256 3) ([] : List (BitVec 256)) [.index 0]

/-! ## container.rs -/

def basicContainer : Ty := .container (.cons "a" (.uint .u32) (.cons "d" .bool .nil))
def someContainer : Ty :=
  .container (.cons "a" (.uint .u32) (.cons "b" .bool (.cons "c" (.list .bool 32) .nil)))
def anotherContainer : Ty :=
  .container (.cons "a" (.uint .u32) (.cons "b" .bool (.cons "c" (.list .bool 32)
    (.cons "d" (.vector .bool 4) (.cons "e" (.uint .u8) .nil)))))
def varTestStruct : Ty :=
  .container (.cons "a" (.uint .u16) (.cons "b" (.list (.uint .u16) 1024) (.cons "c" (.uint .u8) .nil)))
def anotherVarTestStruct : Ty :=
  .container (.cons "a" (.list (.uint .u16) 1024) (.cons "b" (.uint .u16) (.cons "c" (.uint .u8) .nil)))

#guard encodes (.container (.cons "a" (.uint .u32) .nil)) ((5 : BitVec 32), ()) [5, 0, 0, 0]
#guard encodes (.container (.cons "a" (.list (.uint .u32) 128) .nil)) (([] : List (BitVec 32)), ())
  [4, 0, 0, 0]
#guard encodes basicContainer ((5 : BitVec 32), true, ()) [5, 0, 0, 0, 1]
#guard encodes someContainer ((5 : BitVec 32), true, ([true, false] : List Bool), ())
  [5, 0, 0, 0, 1, 9, 0, 0, 0, 1, 0]
#guard encodes anotherContainer ((5 : BitVec 32), true, ([true, false] : List Bool),
    (List.replicate 4 false : List Bool), (12 : BitVec 8), ())
  [5, 0, 0, 0, 1, 14, 0, 0, 0, 0, 0, 0, 0, 12, 1, 0]
#guard decodes (BitVec 32 × Bool × List Bool × Unit) (decode someContainer [5, 0, 0, 0, 1, 9, 0, 0, 0, 1, 0])
  (.ok (5, true, [true, false], ()))
#guard isErr (decode varTestStruct [5, 0, 7, 0, 0, 0, 5, 255])
#guard expectedFurther (decode anotherVarTestStruct [])
#guard expectedFurther (decode basicContainer [])

#guard proves basicContainer ((2343 : BitVec 32), true, ()) [.field "a"]
#guard proves basicContainer ((2343 : BitVec 32), true, ()) [.field "d"]
def anotherValue : anotherContainer.Val :=
  ((23089 : BitVec 32), false, ([true, false, false, false, true] : List Bool),
    ([true, true, false, true] : List Bool), (255 : BitVec 8), ())
#guard proves anotherContainer anotherValue [.field "a"]
#guard proves anotherContainer anotherValue [.field "c", .index 27]
#guard proves anotherContainer anotherValue [.field "c", .length]
#guard proves anotherContainer anotherValue [.field "d", .index 2]
#guard proves anotherContainer anotherValue [.field "e"]
def bar70 : Ty :=
  .container (.cons "a" (.vector (.vector .u256 70) 2) (.cons "b" (.uint .u64) .nil))
def bar70Value : bar70.Val :=
  ((List.replicate 2 (List.replicate 70 11) : List (List (BitVec 256))), (88888 : BitVec 64), ())
#guard proves bar70 bar70Value [.field "a"]
#guard proves bar70 bar70Value [.field "a", .index 0, .index 64]
#guard proves bar70 bar70Value [.field "b"]

/-! ## union.rs -/

def anotherOption : Ty := .union (.unit (.data (.uint .u8) (.data (.uint .u8) .nil)))
def inner : Ty := .container (.cons "data" (.list (.uint .u8) 8) .nil)
def boo : Ty :=
  .union (.data (.uint .u32) (.data inner (.data (.list (.uint .u8) 12)
    (.data (.vector (.uint .u8) 2) .nil))))
def booA (x : BitVec 32) : boo.Val := .inl x
def booB (x : List (BitVec 8)) : boo.Val := .inr (.inl (x, ()))
def booC (x : List (BitVec 8)) : boo.Val := .inr (.inr (.inl x))
def booD (x : List (BitVec 8)) : boo.Val := .inr (.inr (.inr (.inl x)))

#guard encodes (.option (.uint .u8)) (some 12 : Option (BitVec 8)) [1, 12]
#guard encodes (.option (.uint .u8)) (none : Option (BitVec 8)) [0]
#guard additional (decode (.option (.uint .u8)) [0, 123, 234])
#guard additional (decode anotherOption [0, 123, 234])
#guard encodes anotherOption (.inr (.inl (12 : BitVec 8)) : anotherOption.Val) [1, 12]
#guard encodes anotherOption (.inl () : anotherOption.Val) [0]
#guard encodes boo (booA 12) [0, 12, 0, 0, 0]
#guard encodes boo (booB [123]) [1, 4, 0, 0, 0, 123]
#guard encodes boo (booC [123, 253]) [2, 123, 253]
#guard encodes boo (booD [123, 253]) [3, 123, 253]
/-- The values of `boo`, spelled out. -/
abbrev BooVal : Type :=
  BitVec 32 ⊕ (List (BitVec 8) × Unit) ⊕ List (BitVec 8) ⊕ List (BitVec 8) ⊕ Empty
#guard decodes BooVal (decode boo [0, 12, 0, 0, 0])
  (.ok (booA 12))
#guard decodes BooVal (decode boo [1, 4, 0, 0, 0, 123])
  (.ok (booB [123]))
#guard decodes BooVal (decode boo [2, 123, 253])
  (.ok (booC [123, 253]))
#guard decodes BooVal (decode boo [3, 123, 253])
  (.ok (booD [123, 253]))

#guard proves (.option (.uint .u8)) (some 11 : Option (BitVec 8)) [.index 0]
#guard proves (.option (.uint .u8)) (some 11 : Option (BitVec 8)) [.index 1]
#guard proves (.option .u256) (some 23423 : Option (BitVec 256)) [.index 0]
#guard proves (.option .u256) (some 23423 : Option (BitVec 256)) [.index 1]
#guard proves (.option .u256) (some 23423 : Option (BitVec 256)) [.selector]
#guard proves (.option .u256) (none : Option (BitVec 256)) [.index 0]
#guard proves (.option .u256) (none : Option (BitVec 256)) [.index 1]
#guard proves (.option (.uint .u16)) (none : Option (BitVec 16)) [.index 0]
#guard proves (.option (.uint .u16)) (none : Option (BitVec 16)) [.index 1]
#guard proves (.option (.uint .u16)) (none : Option (BitVec 16)) [.selector]
#guard proves boo (booA 0) [.index 0]
#guard proves boo (booB []) [.index 1]
#guard proves boo (booB []) [.index 1, .field "data", .index 7]
#guard proves boo (booC []) [.index 2]
#guard proves boo (booC []) [.index 2, .index 0]
#guard proves boo (booD [0, 0]) [.index 3]
#guard proves boo (booD [0, 0]) [.index 3, .index 0]
#guard proves boo (booD [0, 0]) [.index 3, .index 1]

/-! ## merkleization/merkleize.rs -/

#guard pack (Ty.impl release .bool).toSerializable ([true] : List Bool) ==
  .ok (1 :: List.replicate 31 0)
#guard pack (Ty.impl release .bool).toSerializable ([true, false, false, true] : List Bool) ==
  .ok ([1, 0, 0, 1] ++ List.replicate 28 0)
#guard merkleize release [] none == .ok zeroNode
#guard merkleize release (1 :: List.replicate 31 0) none ==
  .ok (node ("01" ++ String.ofList (List.replicate 62 '0')))

/-- The test helper `merkleize_chunks`: merkleize.rs:331-339 -/
def naive (chunks : Bytes) (leafCount : Nat) (h : String) : Bool :=
  match computeMerkleTree release chunks leafCount with
  | .ok tree => tree.get release 1 == .ok (node h).1
  | _ => false

#guard naive (List.replicate 64 0) 2 "f5a5fd42d16a20302798ef6ed309979b43003d2320d9f0e8ea9831a92759fb4b"
#guard naive (List.replicate 64 1) 2 "7c8975e1e60a5c8337f28edf8c33c3b180360b7279644a9bc1af3c51e6220bf5"
#guard naive (List.replicate 32 0) 4 "db56114e00fdd4c1f85c892bf35ac9a89289aaecb1ebd0a96cde606a748b5d71"
#guard naive (List.replicate 32 1) 4 "29797eded0e83376b70f2bf034cc0811ae7f1414653b1d720dfd18f74cf13309"
#guard naive (List.replicate 32 2) 8 "fa4cf775712aa8a2fe5dcb5a517d19b2e9effcf58ff311b9fd8e4a7d308e6d00"
#guard naive (List.replicate 160 1) 8 "0ae67e34cba4ad2bbfea5dc39e6679b444021522d861fab00f05063c54341289"

#guard rootIs (merkleizeChunksWithVirtualPadding release (List.replicate 96 1) 4)
  "65aa94f2b59e517abd400cab655f42821374e433e41b8fe599f6bb15484adcec"
#guard rootIs (merkleizeChunksWithVirtualPadding release (List.replicate 160 1) 8)
  "0ae67e34cba4ad2bbfea5dc39e6679b444021522d861fab00f05063c54341289"
#guard rootIs (merkleizeChunksWithVirtualPadding release (List.replicate 192 1) 8)
  "0ef7df63c204ef203d76145627b8083c49aa7c55ebdee2967556f55a4f65a238"
#guard rootIs (merkleizeChunksWithVirtualPadding release (List.replicate 160 1) (2 ^ 10))
  "2647cb9e26bd83eeb0982814b2ac4d6cc4a65d0d98637f1a73a4c06d3db0e6ce"
#guard rootIs (merkleizeChunksWithVirtualPadding release (List.replicate (70 * 32) 1) (2 ^ 63))
  "9317695d95b5a3b46e976b5a9cbfcfccb600accaddeda9ac867cc9669b862979"

#guard rootIs (rootOf (.list (.uint .u16) 1024) (List.replicate 316 (65535 : BitVec 16)))
  "d20d2246e1438d88de46f6f41c7b041f92b673845e51f2de93b944bf599e63b1"
#guard rootIs (rootOf (.list (.uint .u16) 1024) ([] : List (BitVec 16)))
  "c9eece3e14d3c3db45c38bbf69a4cb7464981e2506d8424a0ba450dad9b9af30"

def bar : Ty := .union (.data (.uint .u32) (.data (.list .bool 32) .nil))
def foo : Ty :=
  .container (.cons "a" (.uint .u32) (.cons "b" (.vector (.uint .u32) 4) (.cons "c" .bool
    (.cons "d" (.bitlist 27) (.cons "e" bar (.cons "f" (.bitvector 4)
      (.cons "g" (.list (.uint .u16) 7) .nil)))))))
def fooD : Bits := Bits.new.extend
  [true, false, false, true, true, false, true, false, true, true, false, false, true, true, false,
   true, false, true, true, false, false, true, true, false, true, false, true]
def fooF : Bits := setAll 0 [false, true, false, true] (Bits.repeatFalse 4)
def foo1 : foo.Val :=
  ((16 : BitVec 32), ([3, 2, 1, 10] : List (BitVec 32)), true, fooD,
    (.inr (.inl ([true, true, false, false, false, true] : List Bool)) : bar.Val), fooF,
    ([1, 2] : List (BitVec 16)), ())
def foo2 (d : Bits) : foo.Val :=
  ((16 : BitVec 32), ([3, 2, 44, 10] : List (BitVec 32)), true, d, (.inl (33 : BitVec 32) : bar.Val),
    fooF, ([1, 2] : List (BitVec 16)), ())

#guard rootIs (rootOf foo foo1) "7078155bf8f0dc42d8afccec8d9b5aeb54f0a2e8e58fcef3e723f6a867232ce7"
/- The expected root after `d.pop()` is the one in which the popped bit is still hashed (C19, C30): -/
#guard rootIs (rootOf foo (foo2 fooD.pop))
  "0063bfcfabbca567483a2ee859fcfafb958329489eb328ac7f07790c7df1b231"
#guard !rootIs (rootOf foo (foo2 ⟨fooD.pop.live, List.replicate 6 false⟩))
  "0063bfcfabbca567483a2ee859fcfafb958329489eb328ac7f07790c7df1b231"

#guard rootIs (rootOf (.container (.cons "a" .u256 .nil)) ((68 : BitVec 256), ()))
  "4400000000000000000000000000000000000000000000000000000000000000"

/-! ## merkleization/generalized_index.rs -/

def qux : Ty := .container (.cons "a" (.vector (.uint .u16) 8) .nil)
def giFoo : Ty := .container (.cons "x" (.vector (.uint .u8) 32) (.cons "y" (.list qux 256) .nil))
def giBar : Ty :=
  .container (.cons "c" (.uint .u8) (.cons "f" giFoo (.cons "a" (.list (.uint .u8) 25) .nil)))

#guard [index (.vector (.uint .u8) 16) [.index 2], index (.list (.uint .u8) 256) [.index 2],
    index (.list (.uint .u8) 256) [.length], index giBar [.field "c"],
    index giBar [.field "a", .index 2],
    index giBar [.field "f", .field "y", .index 2, .field "a", .index 3],
    index giBar [.field "f", .field "y", .length]] ==
  [.ok 1, .ok 16, .ok 3, .ok 4, .ok 12, .ok 5634, .ok 23]

/-! ## merkleization/proofs.rs -/

def leaf3 : Node := node "94159da973dfa9e40ed02535ee57023ba2d06bad1017e451055470967eb71cd5"
def branch3 : List Node :=
  [node "8f594dbb4f4219ad4967f86b9cccdb26e37e44995a291582a431eef36ecba45c",
   node "f8c2ed25e9c31399d4149dcaa48c51f394043a6a1297e65780a5979e3d7bb77c",
   node "382ba9638ce263e802593b387538faefbaed106e9f51ce793d405f161b105ee6"]
def root3 : Node := node "27097c728aade54ff1376d5954681f6d45c282a81596ef19183148441b754abb"

#guard isValidMerkleBranch release leaf3 branch3 3 2 root3 == .ok ()
#guard Proof.verify release ⟨leaf3, branch3, 10⟩ root3 == .ok ()
#guard isErr (prove release (Ty.impl release (.uint .u8)) (8 : BitVec 8) [.length])
#guard isErr (prove release (Ty.impl release .bool) true [.index 234])
#guard proves (.uint .u8) (8 : BitVec 8) []
#guard proves (.uint .u64) (234238 : BitVec 64) []
#guard proves (.uint .u128) (-1 : BitVec 128) []
#guard proves .u256 (0xf8c2ed25e9c31399d4149dcaa48c51f394043a6a1297e65780a5979e3d7bb77c : BitVec 256) []
#guard proves .bool true []

/-! ## lib.rs -/

#guard rootIs (rootOf (.container (.cons "flag" .bool (.cons "value" (.uint .u64) .nil)))
    (true, (42 : BitVec 64), ()))
  "abde25256089fc38a25254778ebc4c8812dfd1a31e9634b013c6ff1983a77eda"
def someType : Ty := .container (.cons "flag" (.uint .u8) (.cons "value" (.list .u256 800) .nil))
#guard index someType [.field "value", .index 23] == .ok 6167

end Ssz.Tests
