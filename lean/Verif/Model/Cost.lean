import Verif.Model.Types

/-!
# What merkleization costs

The code of /repo/ssz-rs/src/merkleization/merkleize.rs and of the `hash_tree_root` implementations
once more, now with two counters: how often SHA-256 is run, and how many iterations the loops of
merkleize.rs make. Each definition follows the one of the same name (without `C`) line by line;
`Proofs/Cost.lean` shows that without the counters they are the same. Not counted: the zero hashes,
which are computed when the crate is built (/repo/ssz-rs/build.rs), and what `serialize` does for a
packed element.
-/

namespace Ssz

/-- The counters. -/
structure Work where
  hashes : Nat
  steps : Nat
  deriving DecidableEq

/-- A computation with what it has cost when it ends, also if it ends with an error or a panic. -/
def Counted (α : Type) : Type := Work × Res MerkError α

namespace Counted

variable {α β : Type}

/-- Sequencing with `?`. -/
def bind (x : Counted α) (f : α → Counted β) : Counted β :=
  match x.2 with
  | .ok a => (⟨x.1.hashes + (f a).1.hashes, x.1.steps + (f a).1.steps⟩, (f a).2)
  | .err e => (x.1, .err e)
  | .panic => (x.1, .panic)

instance : Monad Counted where
  pure a := (⟨0, 0⟩, .ok a)
  bind := bind

/-- A computation that is not counted. -/
def free (r : Res MerkError α) : Counted α := (⟨0, 0⟩, r)

/-- One run of SHA-256. -/
def hash (r : Res MerkError α) : Counted α := (⟨1, 0⟩, r)

/-- The beginning of an iteration. -/
def step : Counted Unit := (⟨0, 1⟩, .ok ())

end Counted

open Counted

/-- The loop of `pack`: /repo/ssz-rs/src/merkleization/merkleize.rs:48-50 -/
def packLoopC {α : Type} (T : Serializable α) : List α → Bytes → Counted Bytes
  | [], buffer => free (.ok buffer)
  | v :: vs, buffer => do
    step
    match T.serialize v buffer with
    | (buffer', .ok _) => packLoopC T vs buffer'
    | (_, .err e) => free (.err (.serializationError e))
    | (_, .panic) => free .panic

/-- `pack`: /repo/ssz-rs/src/merkleization/merkleize.rs:43-53 -/
def packC {α : Type} (T : Serializable α) (values : List α) : Counted Bytes := do
  let buffer ← packLoopC T values []
  free (.ok (packBytes buffer))

/-- The inner loop of `merkleize_chunks_with_virtual_padding`, which ends with the `break` of line 168
in the first iteration past the data: /repo/ssz-rs/src/merkleization/merkleize.rs:121-182 -/
def layerLoopC (E : Env) (bound lastIndex depth : Nat) (i : Nat) (layer : Bytes) : Counted Bytes :=
  if h : i < bound then do
    step
    let parentIndex := i / 2
    if i < lastIndex then do
      let _ ← free (slice layer (parentIndex * 32) ((i + 2) * 32))
      let left ← free (slice layer (i * 32) ((i + 1) * 32))
      let right ← free (slice layer ((i + 1) * 32) ((i + 2) * 32))
      let layer' ← hash
        (copyInto layer (parentIndex * 32) (parentIndex * 32 + 32) (hashNodes E left right))
      layerLoopC E bound lastIndex depth (i + 2) layer'
    else if i = lastIndex then do
      let _ ← free (slice layer (parentIndex * 32) ((i + 1) * 32))
      let left ← free (slice layer (i * 32) ((i + 1) * 32))
      let right ← free (contextIndex E depth)
      let layer' ← hash
        (copyInto layer (parentIndex * 32) (parentIndex * 32 + 32) (hashNodes E left right))
      layerLoopC E bound lastIndex depth (i + 2) layer'
    else free (.ok layer)
  else free (.ok layer)
termination_by bound - i

/-- The outer loop: /repo/ssz-rs/src/merkleization/merkleize.rs:119-184 -/
def layersLoopC (E : Env) (height : Nat) : Nat → Nat → Bytes → Counted Bytes
  | 0, _, layer => free (.ok layer)
  | k + 1, lastIndex, layer => do
    step
    let bound ← free (E.pow2 (k + 1)).lift
    let layer' ← layerLoopC E bound lastIndex (height - (k + 1) - 1) 0 layer
    layersLoopC E height k (lastIndex / 2) layer'

/-- `merkleize_chunks_with_virtual_padding`:
/repo/ssz-rs/src/merkleization/merkleize.rs:96-191 -/
def merkleizeChunksWithVirtualPaddingC (E : Env) (chunks : Bytes) (leafCount : Nat) :
    Counted Node := do
  let _ ← free (E.debugAssert (chunks.length % 32 == 0)).lift
  let _ ← free (if E.debug then
      (do let p ← (E.nextPowerOfTwo leafCount).lift
          (E.debugAssert (p == leafCount)).lift : Res MerkError Unit)
    else .ok ())
  let _ ← free (E.debugAssert (trailingZeros leafCount < 64)).lift
  let chunkCount := chunks.length / 32
  let height := trailingZeros leafCount + 1
  if chunkCount = 0 then do
    let depth := height - 1
    let root ← free (contextIndex E depth)
    free (toNode root)
  else do
    let layer ← layersLoopC E height (height - 1) (chunkCount - 1) chunks
    let root ← free (slice layer 0 32)
    free (toNode root)

/-- `merkleize`: /repo/ssz-rs/src/merkleization/merkleize.rs:195-206 -/
def merkleizeC (E : Env) (chunks : Bytes) (limit : Option Nat) : Counted Node := do
  let _ ← free (E.debugAssert (chunks.length % 32 == 0)).lift
  let chunkCount := chunks.length / 32
  let leafCount ← free (E.nextPowerOfTwo chunkCount).lift
  match limit with
  | none => merkleizeChunksWithVirtualPaddingC E chunks leafCount
  | some limit =>
    if limit < chunkCount then free (.err (.inputExceedsLimit limit))
    else do
      let leafCount' ← free (E.nextPowerOfTwo limit).lift
      merkleizeChunksWithVirtualPaddingC E chunks leafCount'

/-- `mix_in_decoration`: /repo/ssz-rs/src/merkleization/merkleize.rs:208-223 -/
def mixInDecorationC (E : Env) (root : Node) (decoration : Nat) : Counted Node :=
  match usizeHashTreeRoot decoration with
  | .ok data => hash (toNode (hashNodes E root.1 data.1))
  | .err _ => free .panic
  | .panic => free .panic

/-- The loop of `elements_to_chunks`: /repo/ssz-rs/src/merkleization/merkleize.rs:230-234 -/
def elementsToChunksLoopC {α : Type} (hashTreeRoot : α → Counted Node) :
    Nat → List α → Bytes → Counted Bytes
  | _, [], chunks => free (.ok chunks)
  | i, x :: xs, chunks => do
    step
    let chunk ← hashTreeRoot x
    let chunks' ← free (copyInto chunks (i * 32) ((i + 1) * 32) chunk.1)
    elementsToChunksLoopC hashTreeRoot (i + 1) xs chunks'

/-- `elements_to_chunks`: /repo/ssz-rs/src/merkleization/merkleize.rs:225-236 -/
def elementsToChunksC {α : Type} (E : Env) (hashTreeRoot : α → Counted Node) (elements : List α)
    (count : Nat) : Counted Bytes := do
  let size ← free (E.mul count 32).lift
  let chunks ← free (zeros size)
  elementsToChunksLoopC hashTreeRoot 0 elements chunks

/-- `assemble_chunks`: array.rs:124-131, vector.rs:214-221, list.rs:199-206 -/
def assembleChunksC {α : Type} (E : Env) (T : SimpleSerialize α) (hashTreeRoot : α → Counted Node)
    (elements : List α) : Counted Bytes :=
  if T.isCompositeType then elementsToChunksC E hashTreeRoot elements elements.length
  else packC T.toSerializable elements

mutual

/-- `hash_tree_root`, with what it costs. -/
def Ty.rootC (E : Env) : (t : Ty) → t.Val → Counted Node
  | .uint u, v => free ((SimpleSerialize.uint u).hashTreeRoot v)
  | .u256, v => free (SimpleSerialize.u256.hashTreeRoot v)
  | .bool, v => free (SimpleSerialize.bool.hashTreeRoot v)
  | .node, v => free (SimpleSerialize.node.hashTreeRoot v)
  -- /repo/ssz-rs/src/array.rs:75-86
  | .array t _, v => do
    let chunks ← assembleChunksC E (t.impl E) (fun x => t.rootC E x) v.1
    merkleizeC E chunks none
  -- /repo/ssz-rs/src/vector.rs:210-235
  | .vector t _, v => do
    let chunks ← assembleChunksC E (t.impl E) (fun x => t.rootC E x) v
    merkleizeC E chunks none
  -- /repo/ssz-rs/src/list.rs:195-234
  | .list t n, v => do
    let chunks ← assembleChunksC E (t.impl E) (fun x => t.rootC E x) v
    let dataRoot ←
      if (t.impl E).isCompositeType then merkleizeC E chunks (some n)
      else do
        let count ← free (listChunkCount E (t.impl E) n).lift
        merkleizeC E chunks (some count)
    mixInDecorationC E dataRoot (List.length v)
  -- /repo/ssz-rs/src/bitvector.rs:170-178
  | .bitvector n, v => do
    let chunks ← free (Bitvector.packBits n v)
    merkleizeC E chunks (some (bitsChunkCount n))
  -- /repo/ssz-rs/src/bitlist.rs:181-190
  | .bitlist n, v => do
    let chunks ← free (Bitlist.packBits n v)
    let dataRoot ← merkleizeC E chunks (some (bitsChunkCount n))
    mixInDecorationC E dataRoot v.len
  -- /repo/ssz-rs/src/union.rs:77-88
  | .option t, v => match (v : Option t.Val) with
    | some x => do
      let node ← t.rootC E x
      let chunks ← free (toNode node.1)
      mixInDecorationC E chunks 1
    | none => do
      let chunks ← free (toNode (List.replicate 32 0))
      mixInDecorationC E chunks 0
  -- /repo/ssz-rs-derive/src/lib.rs:326-347
  | .newtype t, v => do
    let chunk ← t.rootC E v
    let chunks ← free (copyInto (List.replicate (1 * 32) 0) (0 * 32) ((0 + 1) * 32) chunk.1)
    merkleizeC E chunks none
  -- /repo/ssz-rs-derive/src/lib.rs:326-347
  | .container fs, v => do
    let chunks ← fs.chunksC E v 0 (List.replicate ((fs.impls E).count * 32) 0)
    merkleizeC E chunks none
  -- /repo/ssz-rs-derive/src/lib.rs:349-394
  | .union vs, v => vs.rootC E 0 v

/-- `assemble_chunks` of a struct: /repo/ssz-rs-derive/src/lib.rs:326-342. The generated code has no
loop; each field counts as an iteration. -/
def Fields.chunksC (E : Env) : (fs : Fields) → fs.Val → Nat → Bytes → Counted Bytes
  | .nil, _, _, chunks => free (.ok chunks)
  | .cons _ t rest, v, i, chunks => do
    step
    let chunk ← t.rootC E v.1
    let chunks' ← free (copyInto chunks (i * 32) ((i + 1) * 32) chunk.1)
    rest.chunksC E v.2 (i + 1) chunks'

/-- `hash_tree_root` of an enum: /repo/ssz-rs-derive/src/lib.rs:349-394 -/
def Variants.rootC (E : Env) : (vs : Variants) → Nat → vs.Val → Counted Node
  | .nil, _, v => v.elim
  | .unit _, _, .inl _ => mixInDecorationC E zeroNode 0
  | .unit rest, i, .inr v => rest.rootC E (i + 1) v
  | .data t _, i, .inl v => do
    let chunks ← t.rootC E v
    mixInDecorationC E chunks i
  | .data _ rest, i, .inr v => rest.rootC E (i + 1) v

end

/-- The loop of `compute_merkle_tree`: /repo/ssz-rs/src/merkleization/merkleize.rs:308-324 -/
def treeLoopC (E : Env) : Nat → Bytes → Counted Bytes
  | 0, buffer => free (.ok buffer)
  | i + 1, buffer => do
    step
    let parentIndex := i / 2
    let _ ← free (slice buffer (parentIndex * 32) ((i + 2) * 32))
    let left ← free (slice buffer (i * 32) ((i + 1) * 32))
    let right ← free (slice buffer ((i + 1) * 32) ((i + 2) * 32))
    let buffer' ← hash
      (copyInto buffer (parentIndex * 32) (parentIndex * 32 + 32) (hashNodes E left right))
    treeLoopC E (i - 1) buffer'

/-- `compute_merkle_tree`: /repo/ssz-rs/src/merkleization/merkleize.rs:290-326 -/
def computeMerkleTreeC (E : Env) (chunks : Bytes) (leafCount : Nat) : Counted Tree := do
  let _ ← free (E.debugAssert (chunks.length % 32 == 0)).lift
  let _ ← free (if E.debug then
      (do let p ← (E.nextPowerOfTwo leafCount).lift
          (E.debugAssert (p == leafCount)).lift : Res MerkError Unit)
    else .ok ())
  let twice ← free (E.mul 2 leafCount).lift
  let nodeCount ← free (E.sub twice 1).lift
  let interiorCount ← free (E.sub nodeCount leafCount).lift
  let leafStart ← free (E.mul interiorCount 32).lift
  let size ← free (E.mul nodeCount 32).lift
  let buffer ← free (zeros size)
  let stop ← free (E.add leafStart chunks.length).lift
  let buffer' ← free (copyInto buffer leafStart stop chunks)
  treeLoopC E (nodeCount - 1) buffer'

end Ssz
