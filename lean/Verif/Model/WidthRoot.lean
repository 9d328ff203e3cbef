import Verif.Model.Width

/-!
# Roots on targets with a smaller `usize`

`hash_tree_root` once more, for a `usize` of any number of bits. The functions are those of the same name
(without `W`) with the arithmetic of the target where it may overflow: sizes computed from bounds in the
type, `next_power_of_two`, `2usize.pow(k)` and the allocation limit `isize::MAX`. Positions within a buffer
that exists do not overflow on any target and are as before. The number of bytes of a packed element
(`T::size_hint()`) and its encoding do not depend on the target unless the element is `usize`; collections
of `usize` are not covered here. `Proofs/WidthRoot.lean` shows that with 64 bits the functions are the same.
-/

namespace Ssz

/-- The target with `b` bits, for the kind of build given by `E`. -/
abbrev Env.on (E : Env) (b : Nat) : Target := ⟨b, E.debug⟩

/-- `usize::trailing_zeros`; `0usize.trailing_zeros() == usize::BITS` -/
def Target.trailingZeros (W : Target) (x : Nat) : Nat := trailingZerosAux W.bits x

/-- `vec![0u8; n]`: panics beyond `isize::MAX` bytes. -/
def zerosW (b : Nat) (n : Nat) : Res MerkError Bytes :=
  if n < 2 ^ (b - 1) then .ok (List.replicate n 0) else .panic

/-- The outer loop of `merkleize_chunks_with_virtual_padding`:
/repo/ssz-rs/src/merkleization/merkleize.rs:119-184. -/
def layersLoopW (b : Nat) (E : Env) (height : Nat) : Nat → Nat → Bytes → Res MerkError Bytes
  | 0, _, layer => .ok layer
  | k + 1, lastIndex, layer => do
    let bound ← ((E.on b).pow2 (k + 1)).lift
    let layer' ← layerLoop E bound lastIndex (height - (k + 1) - 1) 0 layer
    layersLoopW b E height k (lastIndex / 2) layer'

/-- `merkleize_chunks_with_virtual_padding`: /repo/ssz-rs/src/merkleization/merkleize.rs:96-191. The table
of zero hashes has 64 entries on every target (build.rs:14-24). -/
def merkleizeChunksWithVirtualPaddingW (b : Nat) (E : Env) (chunks : Bytes) (leafCount : Nat) :
    Res MerkError Node := do
  let _ ← (E.debugAssert (chunks.length % 32 == 0)).lift
  let _ ← if E.debug then
      (do let p ← ((E.on b).nextPowerOfTwo leafCount).lift
          (E.debugAssert (p == leafCount)).lift : Res MerkError Unit)
    else .ok ()
  let _ ← (E.debugAssert ((E.on b).trailingZeros leafCount < 64)).lift
  let chunkCount := chunks.length / 32
  let height := (E.on b).trailingZeros leafCount + 1
  if chunkCount = 0 then
    let depth := height - 1
    let root ← contextIndex E depth
    toNode root
  else
    let layer ← layersLoopW b E height (height - 1) (chunkCount - 1) chunks
    let root ← slice layer 0 32
    toNode root

/-- `merkleize`: /repo/ssz-rs/src/merkleization/merkleize.rs:195-206 -/
def merkleizeW (b : Nat) (E : Env) (chunks : Bytes) (limit : Option Nat) :
    Res MerkError Node := do
  let _ ← (E.debugAssert (chunks.length % 32 == 0)).lift
  let chunkCount := chunks.length / 32
  let leafCount ← ((E.on b).nextPowerOfTwo chunkCount).lift
  match limit with
  | none => merkleizeChunksWithVirtualPaddingW b E chunks leafCount
  | some limit =>
    if limit < chunkCount then .err (.inputExceedsLimit limit)
    else
      let leafCount' ← ((E.on b).nextPowerOfTwo limit).lift
      merkleizeChunksWithVirtualPaddingW b E chunks leafCount'

/-- `elements_to_chunks`: /repo/ssz-rs/src/merkleization/merkleize.rs:225-236 -/
def elementsToChunksW {α : Type} (b : Nat) (E : Env) (hashTreeRoot : α → Res MerkError Node)
    (elements : List α) (count : Nat) : Res MerkError Bytes := do
  let size ← ((E.on b).mul count 32).lift
  let chunks ← zerosW b size
  elementsToChunksLoop hashTreeRoot 0 elements chunks

/-- `assemble_chunks` of the collections: array.rs:59-73, vector.rs:195-208, list.rs:195-207; `root` is
`hash_tree_root` of the elements. -/
def assembleChunksW {α : Type} (b : Nat) (E : Env) (T : SimpleSerialize α) (root : α → Res MerkError Node)
    (elements : List α) : Res MerkError Bytes :=
  if T.isCompositeType then elementsToChunksW b E root elements elements.length
  else pack T.toSerializable elements

/-- `chunk_count` of a list, used for its root: /repo/ssz-rs/src/list.rs:214-216 -/
def listChunkCountW {α : Type} (b : Nat) (E : Env) (T : SimpleSerialize α) (n : Nat) : Calc Nat := do
  let s ← T.sizeHint
  let a ← (E.on b).mul n s
  .ok ((a + 31) / 32)

mutual

/-- `hash_tree_root` -/
def Ty.rootW (b : Nat) (E : Env) : (t : Ty) → t.Val → Res MerkError Node
  | .uint u, v => (SimpleSerialize.uint u).hashTreeRoot v
  | .u256, v => SimpleSerialize.u256.hashTreeRoot v
  | .bool, v => SimpleSerialize.bool.hashTreeRoot v
  | .node, v => SimpleSerialize.node.hashTreeRoot v
  -- /repo/ssz-rs/src/array.rs:75-86
  | .array t _, v => do
    let chunks ← assembleChunksW b E (t.impl E) (fun x => t.rootW b E x) v.1
    merkleizeW b E chunks none
  -- /repo/ssz-rs/src/vector.rs:210-235
  | .vector t _, v => do
    let chunks ← assembleChunksW b E (t.impl E) (fun x => t.rootW b E x) v
    merkleizeW b E chunks none
  -- /repo/ssz-rs/src/list.rs:195-234
  | .list t n, v => do
    let chunks ← assembleChunksW b E (t.impl E) (fun x => t.rootW b E x) v
    let dataRoot ←
      if (t.impl E).isCompositeType then merkleizeW b E chunks (some n)
      else do
        let count ← (listChunkCountW b E (t.impl E) n).lift
        merkleizeW b E chunks (some count)
    mixInDecoration E dataRoot (List.length v)
  -- /repo/ssz-rs/src/bitvector.rs:170-178
  | .bitvector n, v => do
    let chunks ← Bitvector.packBits n v
    merkleizeW b E chunks (some (bitsChunkCount n))
  -- /repo/ssz-rs/src/bitlist.rs:181-190
  | .bitlist n, v => do
    let chunks ← Bitlist.packBits n v
    let dataRoot ← merkleizeW b E chunks (some (bitsChunkCount n))
    mixInDecoration E dataRoot v.len
  -- /repo/ssz-rs/src/union.rs:77-88
  | .option t, v => match (v : Option t.Val) with
    | some x => do
      let node ← t.rootW b E x
      let chunks ← toNode node.1
      mixInDecoration E chunks 1
    | none => do
      let chunks ← toNode (List.replicate 32 0)
      mixInDecoration E chunks 0
  -- /repo/ssz-rs-derive/src/lib.rs:326-347
  | .newtype t, v => do
    let chunk ← t.rootW b E v
    let chunks ← copyInto (List.replicate (1 * 32) 0) (0 * 32) ((0 + 1) * 32) chunk.1
    merkleizeW b E chunks none
  -- /repo/ssz-rs-derive/src/lib.rs:326-347
  | .container fs, v => do
    let chunks ← fs.chunksW b E v 0 (List.replicate (fs.countW * 32) 0)
    merkleizeW b E chunks none
  -- /repo/ssz-rs-derive/src/lib.rs:349-394
  | .union vs, v => vs.rootW b E 0 v

/-- `assemble_chunks` of a struct: /repo/ssz-rs-derive/src/lib.rs:326-342 -/
def Fields.chunksW (b : Nat) (E : Env) :
    (fs : Fields) → fs.Val → Nat → Bytes → Res MerkError Bytes
  | .nil, _, _, chunks => .ok chunks
  | .cons _ t rest, v, i, chunks => do
    let chunk ← t.rootW b E v.1
    let chunks' ← copyInto chunks (i * 32) ((i + 1) * 32) chunk.1
    rest.chunksW b E v.2 (i + 1) chunks'

/-- `hash_tree_root` of an enum: /repo/ssz-rs-derive/src/lib.rs:349-394 -/
def Variants.rootW (b : Nat) (E : Env) : (vs : Variants) → Nat → vs.Val → Res MerkError Node
  | .nil, _, v => v.elim
  | .unit _, _, .inl _ => mixInDecoration E zeroNode 0
  | .unit rest, i, .inr v => rest.rootW b E (i + 1) v
  | .data t _, i, .inl v => do
    let chunks ← t.rootW b E v
    mixInDecoration E chunks i
  | .data _ rest, i, .inr v => rest.rootW b E (i + 1) v

end

end Ssz
