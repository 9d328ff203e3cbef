import Verif.Model.Traits

/-!
# Basic types: unsigned integers, booleans, `Node`
-/

namespace Ssz

/-- Little-endian bytes of `x`, `n` of them (`to_le_bytes`). -/
def toLeBytes : Nat → Nat → Bytes
  | 0, _ => []
  | n + 1, x => BitVec.ofNat 8 (x % 256) :: toLeBytes n (x / 256)

/-- `from_le_bytes`. -/
def fromLeBytes : Bytes → Nat
  | [] => 0
  | b :: bs => b.toNat + 256 * fromLeBytes bs

/-- `pack_bytes`: /repo/ssz-rs/src/merkleization/merkleize.rs:31-39 -/
def packBytes (buffer : Bytes) : Bytes :=
  let incomplete := buffer.length % 32
  if incomplete ≠ 0 then buffer ++ List.replicate (32 - incomplete) 0 else buffer

/-- The integer types `define_uint!` is used for: /repo/ssz-rs/src/uint.rs:88-93.
`usize` has 64 bits (the modelled target). -/
inductive UintTy where
  | u8 | u16 | u32 | u64 | u128 | usize
  deriving Repr, DecidableEq

/-- `<$uint>::BITS` -/
@[reducible] def UintTy.bits : UintTy → Nat
  | .u8 => 8
  | .u16 => 16
  | .u32 => 32
  | .u64 => 64
  | .u128 => 128
  | .usize => 64

/-- `bits_to_bytes`: /repo/ssz-rs/src/uint.rs:13-15 -/
def bitsToBytes (count : Nat) : Nat := count / 8

/-- `Serializable` for the primitive integers: /repo/ssz-rs/src/uint.rs:19-56. -/
def Serializable.uint (u : UintTy) : Serializable (BitVec u.bits) where
  isVariableSize := false
  sizeHint := .ok (bitsToBytes u.bits)
  serialize v := do
    BufM.append (toLeBytes (bitsToBytes u.bits) v.toNat)
    BufM.ofRes (.ok (bitsToBytes u.bits))
  deserialize encoding :=
    let byteSize := bitsToBytes u.bits
    if encoding.length < byteSize then .err (.expectedFurtherInput encoding.length byteSize)
    else if encoding.length > byteSize then .err (.additionalInput encoding.length byteSize)
    else (slice encoding 0 byteSize).map fun bytes => BitVec.ofNat u.bits (fromLeBytes bytes)

/-- `Prove::chunks` for the primitive integers: /repo/ssz-rs/src/uint.rs:76-81. -/
def uintChunks (u : UintTy) (v : BitVec u.bits) : Res MerkError Bytes :=
  match (Serializable.uint u).serialize v [] with
  | (root, .ok _) => .ok (packBytes root)
  | (_, .err e) => .err (.serializationError e)
  | (_, .panic) => .panic

/-- `SimpleSerialize` for the primitive integers: /repo/ssz-rs/src/uint.rs:58-84. -/
def SimpleSerialize.uint (u : UintTy) : SimpleSerialize (BitVec u.bits) where
  toSerializable := Serializable.uint u
  hashTreeRoot v := do
    let root ← uintChunks u v
    toNode root
  isCompositeType := false
  itemLength := (Serializable.uint u).sizeHint
  chunkCount := defaultChunkCount
  computeGeneralizedIndex := defaultComputeGeneralizedIndex
  chunks v := uintChunks u v
  proveElement := defaultProveElement
  decoration := defaultDecoration

/-- `u32::deserialize(bytes)? as usize` -/
def deserializeU32 (bytes : Bytes) : Res DeError Nat :=
  ((Serializable.uint .u32).deserialize bytes).map BitVec.toNat

/-- `SimpleSerialize` for `U256`: /repo/ssz-rs/src/uint.rs:100-162. -/
def SimpleSerialize.u256 : SimpleSerialize (BitVec 256) where
  isVariableSize := false
  sizeHint := .ok 32
  serialize v := do
    BufM.append (toLeBytes 32 v.toNat)
    BufM.ofRes (.ok 32)
  deserialize encoding :=
    if encoding.length < 32 then .err (.expectedFurtherInput encoding.length 32)
    else if encoding.length > 32 then .err (.additionalInput encoding.length 32)
    else (slice encoding 0 32).map fun bytes => BitVec.ofNat 256 (fromLeBytes bytes)
  hashTreeRoot v := toNode (toLeBytes 32 v.toNat)
  isCompositeType := false
  itemLength := .ok 32
  chunkCount := defaultChunkCount
  computeGeneralizedIndex := defaultComputeGeneralizedIndex
  chunks v := .ok (toLeBytes 32 v.toNat)
  proveElement := defaultProveElement
  decoration := defaultDecoration

/-- `Prove::chunks` for `bool`: /repo/ssz-rs/src/boolean.rs:66-72. -/
def boolChunks (v : Bool) : Bytes :=
  (if v then 1 else 0) :: List.replicate 31 0

/-- `SimpleSerialize` for `bool`: /repo/ssz-rs/src/boolean.rs:12-75.
`hash_tree_root` (46-52) builds the same 32 bytes as `chunks`. -/
def SimpleSerialize.bool : SimpleSerialize Bool where
  isVariableSize := false
  sizeHint := .ok 1
  serialize v := do
    BufM.append [if v then 1 else 0]
    BufM.ofRes (.ok 1)
  deserialize encoding :=
    match encoding with
    | [] => .err (.expectedFurtherInput 0 1)
    | [b] => if b = 0 then .ok false else if b = 1 then .ok true else .err (.invalidByte b)
    | _ => .err (.additionalInput encoding.length 1)
  hashTreeRoot v := toNode (boolChunks v)
  isCompositeType := false
  itemLength := .ok 1
  chunkCount := defaultChunkCount
  computeGeneralizedIndex := defaultComputeGeneralizedIndex
  chunks v := .ok (boolChunks v)
  proveElement := defaultProveElement
  decoration := defaultDecoration

/-- `SimpleSerialize` for `Node`: /repo/ssz-rs/src/merkleization/node.rs:6-62. -/
def SimpleSerialize.node : SimpleSerialize Node where
  isVariableSize := false
  sizeHint := .ok 32
  serialize v := do
    BufM.append v.1
    BufM.ofRes (.ok 32)
  deserialize encoding :=
    if encoding.length < 32 then .err (.expectedFurtherInput encoding.length 32)
    else if encoding.length > 32 then .err (.additionalInput encoding.length 32)
    else do
      let bytes ← slice encoding 0 32
      toNode bytes
  hashTreeRoot v := toNode v.1
  isCompositeType := false
  itemLength := defaultItemLength
  chunkCount := defaultChunkCount
  computeGeneralizedIndex := defaultComputeGeneralizedIndex
  chunks v := .ok v.1
  proveElement := defaultProveElement
  decoration := defaultDecoration

end Ssz
