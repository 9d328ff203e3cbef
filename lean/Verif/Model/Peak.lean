import Verif.Model.Types

/-!
# What the making of roots and proofs holds in memory

The code of /repo/ssz-rs/src/merkleization/merkleize.rs, of `Prover::compute_proof` and of the
implementations of `HashTreeRoot` and `Prove` once more, now with the largest number of bytes that are held
in byte vectors (`Vec<u8>`) at one time. A vector is held from where it is made to the end of the block of
its variable. Each definition follows the one of the same name (without `P`) line by line; `Proofs/Peak.lean`
shows that without the number they are the same. Lengths are counted: a vector that grows may have twice as
much room. Not counted: the branch of the proof, which is part of the answer and has one node for each level,
and what `serialize` takes for a packed element before it is put into the vector.
-/

namespace Ssz

/-- A computation with the largest number of bytes that it holds at one time, the vector that it returns
included. -/
def Peak (α : Type) : Type := Nat × Res MerkError α

namespace Peak

variable {α β : Type}

/-- Sequencing with `?`. What is held during the second part is not held by itself: see `holding`. -/
def bind (x : Peak α) (f : α → Peak β) : Peak β :=
  match x.2 with
  | .ok a => (max x.1 (f a).1, (f a).2)
  | .err e => (x.1, .err e)
  | .panic => (x.1, .panic)

instance : Monad Peak where
  pure a := (0, .ok a)
  bind := bind

/-- A computation that holds nothing. -/
def free (r : Res MerkError α) : Peak α := (0, r)

/-- A computation during which a vector of `n` bytes is held besides. -/
def holding (n : Nat) (x : Peak α) : Peak α := (n + x.1, x.2)

/-- A computation that makes a vector, and nothing if it fails. -/
def vec (r : Res MerkError Bytes) : Peak Bytes :=
  (match r with
    | .ok b => b.length
    | .err _ => 0
    | .panic => 0, r)

end Peak

open Peak

/-- The loop of `pack`: /repo/ssz-rs/src/merkleization/merkleize.rs:48-50 -/
def packLoopP {α : Type} (T : Serializable α) : List α → Bytes → Peak Bytes
  | [], buffer => vec (.ok buffer)
  | v :: vs, buffer =>
    match T.serialize v buffer with
    | (buffer', .ok _) => packLoopP T vs buffer'
    | (buffer', .err e) => holding buffer'.length (free (.err (.serializationError e)))
    | (buffer', .panic) => holding buffer'.length (free .panic)

/-- `pack`: /repo/ssz-rs/src/merkleization/merkleize.rs:43-53 -/
def packP {α : Type} (T : Serializable α) (values : List α) : Peak Bytes := do
  let buffer ← packLoopP T values []
  vec (.ok (packBytes buffer))

/-- `merkleize_chunks_with_virtual_padding`:
/repo/ssz-rs/src/merkleization/merkleize.rs:96-191. The vector is that of line 114; the loops work in it. -/
def merkleizeChunksWithVirtualPaddingP (E : Env) (chunks : Bytes) (leafCount : Nat) : Peak Node := do
  let _ ← free (E.debugAssert (chunks.length % 32 == 0)).lift
  let _ ← free (if E.debug then
      (do let p ← (E.nextPowerOfTwo leafCount).lift
          (E.debugAssert (p == leafCount)).lift : Res MerkError Unit)
    else .ok ())
  let _ ← free (E.debugAssert (trailingZeros leafCount < 64)).lift
  let chunkCount := chunks.length / 32
  let height := trailingZeros leafCount + 1
  if chunkCount = 0 then do
    let depth := height - 1
    let root ← free (contextIndex E depth)
    free (toNode root)
  else holding chunks.length (do
    let layer ← free (layersLoop E height (height - 1) (chunkCount - 1) chunks)
    let root ← free (slice layer 0 32)
    free (toNode root))

/-- `merkleize`: /repo/ssz-rs/src/merkleization/merkleize.rs:195-206 -/
def merkleizeP (E : Env) (chunks : Bytes) (limit : Option Nat) : Peak Node := do
  let _ ← free (E.debugAssert (chunks.length % 32 == 0)).lift
  let chunkCount := chunks.length / 32
  let leafCount ← free (E.nextPowerOfTwo chunkCount).lift
  match limit with
  | none => merkleizeChunksWithVirtualPaddingP E chunks leafCount
  | some limit =>
    if limit < chunkCount then free (.err (.inputExceedsLimit limit))
    else do
      let leafCount' ← free (E.nextPowerOfTwo limit).lift
      merkleizeChunksWithVirtualPaddingP E chunks leafCount'

/-- `hash_tree_root` of a `usize`, by way of a vector with room for a chunk: uint.rs:59-62, 77-82 -/
def usizeHashTreeRootP (n : Nat) : Peak Node := holding 32 (free (usizeHashTreeRoot n))

/-- `mix_in_decoration`: /repo/ssz-rs/src/merkleization/merkleize.rs:208-215. The vector of the first line
is gone when `output` is made. -/
def mixInDecorationP (E : Env) (root : Node) (decoration : Nat) : Peak Node :=
  match (usizeHashTreeRootP decoration).2 with
  | .ok data => (max (usizeHashTreeRootP decoration).1 32, toNode (hashNodes E root.1 data.1))
  | .err _ => ((usizeHashTreeRootP decoration).1, .panic)
  | .panic => ((usizeHashTreeRootP decoration).1, .panic)

/-- The loop of `elements_to_chunks`: /repo/ssz-rs/src/merkleization/merkleize.rs:230-234 -/
def elementsToChunksLoopP {α : Type} (hashTreeRoot : α → Peak Node) :
    Nat → List α → Bytes → Peak Bytes
  | _, [], chunks => free (.ok chunks)
  | i, x :: xs, chunks => do
    let chunk ← hashTreeRoot x
    let chunks' ← free (copyInto chunks (i * 32) ((i + 1) * 32) chunk.1)
    elementsToChunksLoopP hashTreeRoot (i + 1) xs chunks'

/-- `elements_to_chunks`: /repo/ssz-rs/src/merkleization/merkleize.rs:225-236 -/
def elementsToChunksP {α : Type} (E : Env) (hashTreeRoot : α → Peak Node) (elements : List α)
    (count : Nat) : Peak Bytes := do
  let size ← free (E.mul count 32).lift
  let chunks ← free (zeros size)
  holding chunks.length (elementsToChunksLoopP hashTreeRoot 0 elements chunks)

/-- `assemble_chunks`: array.rs:124-131, vector.rs:214-221, list.rs:199-206 -/
def assembleChunksP {α : Type} (E : Env) (T : SimpleSerialize α) (hashTreeRoot : α → Peak Node)
    (elements : List α) : Peak Bytes :=
  if T.isCompositeType then elementsToChunksP E hashTreeRoot elements elements.length
  else packP T.toSerializable elements

mutual

/-- `hash_tree_root`, with what it holds. -/
def Ty.rootP (E : Env) : (t : Ty) → t.Val → Peak Node
  -- by way of `chunks`: uint.rs:59-62, 137-140, node.rs:45-48
  | .uint u, v => holding 32 (free ((SimpleSerialize.uint u).hashTreeRoot v))
  | .u256, v => holding 32 (free (SimpleSerialize.u256.hashTreeRoot v))
  -- /repo/ssz-rs/src/boolean.rs:45-51
  | .bool, v => free (SimpleSerialize.bool.hashTreeRoot v)
  | .node, v => holding 32 (free (SimpleSerialize.node.hashTreeRoot v))
  -- /repo/ssz-rs/src/array.rs:79-82
  | .array t _, v => do
    let chunks ← assembleChunksP E (t.impl E) (fun x => t.rootP E x) v.1
    holding chunks.length (merkleizeP E chunks none)
  -- /repo/ssz-rs/src/vector.rs:210-235
  | .vector t _, v => do
    let chunks ← assembleChunksP E (t.impl E) (fun x => t.rootP E x) v
    holding chunks.length (merkleizeP E chunks none)
  -- /repo/ssz-rs/src/list.rs:195-234; `chunks` is held while the length is mixed in
  | .list t n, v => do
    let chunks ← assembleChunksP E (t.impl E) (fun x => t.rootP E x) v
    holding chunks.length (do
      let dataRoot ←
        if (t.impl E).isCompositeType then merkleizeP E chunks (some n)
        else do
          let count ← free (listChunkCount E (t.impl E) n).lift
          merkleizeP E chunks (some count)
      mixInDecorationP E dataRoot (List.length v))
  -- /repo/ssz-rs/src/bitvector.rs:170-178
  | .bitvector n, v => do
    let chunks ← vec (Bitvector.packBits n v)
    holding chunks.length (merkleizeP E chunks (some (bitsChunkCount n)))
  -- /repo/ssz-rs/src/bitlist.rs:181-190
  | .bitlist n, v => do
    let chunks ← vec (Bitlist.packBits n v)
    holding chunks.length (do
      let dataRoot ← merkleizeP E chunks (some (bitsChunkCount n))
      mixInDecorationP E dataRoot v.len)
  -- /repo/ssz-rs/src/union.rs:81-87; the vector of `chunks` is gone after line 82
  | .option t, v => match (v : Option t.Val) with
    | some x => do
      let node ← t.rootP E x
      let chunks ← holding 32 (free (toNode node.1))
      mixInDecorationP E chunks 1
    | none => do
      let chunks ← holding 32 (free (toNode (List.replicate 32 0)))
      mixInDecorationP E chunks 0
  -- /repo/ssz-rs-derive/src/lib.rs:326-347
  | .newtype t, v => do
    let chunks ← holding 32 (do
      let chunk ← t.rootP E v
      free (copyInto (List.replicate (1 * 32) 0) (0 * 32) ((0 + 1) * 32) chunk.1))
    holding chunks.length (merkleizeP E chunks none)
  -- /repo/ssz-rs-derive/src/lib.rs:326-347
  | .container fs, v => do
    let chunks ← holding ((fs.impls E).count * 32)
      (fs.chunksP E v 0 (List.replicate ((fs.impls E).count * 32) 0))
    holding chunks.length (merkleizeP E chunks none)
  -- /repo/ssz-rs-derive/src/lib.rs:349-394
  | .union vs, v => vs.rootP E 0 v

/-- `assemble_chunks` of a struct, after the vector is made: /repo/ssz-rs-derive/src/lib.rs:326-342 -/
def Fields.chunksP (E : Env) : (fs : Fields) → fs.Val → Nat → Bytes → Peak Bytes
  | .nil, _, _, chunks => free (.ok chunks)
  | .cons _ t rest, v, i, chunks => do
    let chunk ← t.rootP E v.1
    let chunks' ← free (copyInto chunks (i * 32) ((i + 1) * 32) chunk.1)
    rest.chunksP E v.2 (i + 1) chunks'

/-- `hash_tree_root` of an enum: /repo/ssz-rs-derive/src/lib.rs:349-394 -/
def Variants.rootP (E : Env) : (vs : Variants) → Nat → vs.Val → Peak Node
  | .nil, _, v => v.elim
  | .unit _, _, .inl _ => mixInDecorationP E zeroNode 0
  | .unit rest, i, .inr v => rest.rootP E (i + 1) v
  | .data t _, i, .inl v => do
    let chunks ← t.rootP E v
    mixInDecorationP E chunks i
  | .data _ rest, i, .inr v => rest.rootP E (i + 1) v

end

/-- `compute_merkle_tree`: /repo/ssz-rs/src/merkleization/merkleize.rs:290-326 -/
def computeMerkleTreeP (E : Env) (chunks : Bytes) (leafCount : Nat) : Peak Tree := do
  let _ ← free (E.debugAssert (chunks.length % 32 == 0)).lift
  let _ ← free (if E.debug then
      (do let p ← (E.nextPowerOfTwo leafCount).lift
          (E.debugAssert (p == leafCount)).lift : Res MerkError Unit)
    else .ok ())
  let twice ← free (E.mul 2 leafCount).lift
  let nodeCount ← free (E.sub twice 1).lift
  let interiorCount ← free (E.sub nodeCount leafCount).lift
  let leafStart ← free (E.mul interiorCount 32).lift
  let size ← free (E.mul nodeCount 32).lift
  let buffer ← free (zeros size)
  holding buffer.length (do
    let stop ← free (E.add leafStart chunks.length).lift
    let buffer' ← free (copyInto buffer leafStart stop chunks)
    free (treeLoop E (nodeCount - 1) buffer'))

/-- `Tree::mix_in_decoration`: /repo/ssz-rs/src/merkleization/merkleize.rs:241-253 -/
def Tree.mixInDecorationP (E : Env) (tree : Tree) (decoration : Nat) : Peak Tree := do
  let _ ← free (Tree.get E tree 3)
  let node ← usizeHashTreeRootP decoration
  let tree1 ← free (Tree.set E tree 3 node.1)
  let inner ← free (Tree.get E tree1 2)
  let deco ← free (Tree.get E tree1 3)
  free (Tree.set E tree1 1 (hashNodes E inner deco))

/-- `Prover::compute_proof`: /repo/ssz-rs/src/merkleization/proofs.rs:69-117, with the functions of
`Prove` that hold something as arguments. The proof of the element is finished before `chunks` and `tree`
are made, which are held to the end. -/
def computeProofP {α : Type} (E : Env) (T : SimpleSerialize α) (chunksP : α → Peak Bytes)
    (proveElementP : α → Nat → Prover → Peak Prover) (data : α) (prover : Prover) : Peak Prover := do
  let chunkCount ← free T.chunkCount.lift
  let leafCount0 ← free (E.nextPowerOfTwo chunkCount).lift
  let parentIndex := prover.proof.index
  let decoration := T.decoration data
  let leafCount ← free (if decoration.isSome then (E.mul leafCount0 2).lift
    else (.ok leafCount0 : Res MerkError Nat))
  let (localDepth, localIndex, localGeneralizedIndex) ←
    free (computeLocalMerkleCoordinates E parentIndex leafCount)
  let isLeafLocal := !decide (localGeneralizedIndex < parentIndex)
  let prover1 ←
    (if localGeneralizedIndex < parentIndex then do
        let parentDepth ← free (getDepth parentIndex)
        let childDepth ← free (E.sub parentDepth localDepth).lift
        let nodeCount ← free (E.pow2 childDepth).lift
        let r ← free (usizeRem parentIndex nodeCount)
        let childIndex ← free (E.add nodeCount r).lift
        let p ← proveElementP data localIndex
          { prover with proof := { prover.proof with index := childIndex } }
        free (.ok { p with proof := { p.proof with index := parentIndex } })
    else free (.ok prover) : Peak Prover)
  let chunks ← chunksP data
  holding chunks.length (do
    let tree0 ← computeMerkleTreeP E chunks leafCount
    holding tree0.length (do
      let tree ←
        (match decoration with
        | some d => Tree.mixInDecorationP E tree0 d
        | none => free (.ok tree0) : Peak Tree)
      let leaf ←
        free (if isLeafLocal then
          (do let l ← Tree.get E tree parentIndex
              toNode l : Res MerkError Node)
        else .ok prover1.proof.leaf)
      let branch ← free (siblingsLoop E tree localDepth localGeneralizedIndex prover1.proof.branch)
      let rootBytes ← free (Tree.get E tree 1)
      let root ← free (toNode rootBytes)
      free (.ok { proof := { leaf := leaf, branch := branch, index := prover1.proof.index }
                  witness := root })))

/-- `chunks` of an enum: /repo/ssz-rs-derive/src/lib.rs:368-400 -/
def Variants.chunksP (E : Env) : (vs : Variants) → vs.Val → Peak Bytes
  | .nil, v => v.elim
  | .unit _, .inl _ => vec (.ok zeroNode.1)
  | .unit rest, .inr v => rest.chunksP E v
  | .data t _, .inl v => do
    let root ← t.rootP E v
    vec (.ok root.1)
  | .data _ rest, .inr v => rest.chunksP E v

/-- `Prove::chunks`, with what it holds. -/
def Ty.chunksP (E : Env) : (t : Ty) → t.Val → Peak Bytes
  -- uint.rs:76-81, 157-159, boolean.rs:66-72, node.rs:56-60
  | .uint u, v => vec ((SimpleSerialize.uint u).chunks v)
  | .u256, v => vec (SimpleSerialize.u256.chunks v)
  | .bool, v => vec (SimpleSerialize.bool.chunks v)
  | .node, v => vec (SimpleSerialize.node.chunks v)
  -- /repo/ssz-rs/src/array.rs:124-131
  | .array t _, v => assembleChunksP E (t.impl E) (fun x => t.rootP E x) v.1
  -- /repo/ssz-rs/src/vector.rs:214-221
  | .vector t _, v => assembleChunksP E (t.impl E) (fun x => t.rootP E x) v
  -- /repo/ssz-rs/src/list.rs:199-206
  | .list t _, v => assembleChunksP E (t.impl E) (fun x => t.rootP E x) v
  -- /repo/ssz-rs/src/bitvector.rs:208-210, /repo/ssz-rs/src/bitlist.rs:221-223
  | .bitvector n, v => vec ((SimpleSerialize.bitvector E n).chunks v)
  | .bitlist n, v => vec ((SimpleSerialize.bitlist E n).chunks v)
  -- /repo/ssz-rs/src/union.rs:136-144
  | .option t, v => match (v : Option t.Val) with
    | some x => do
      let root ← t.rootP E x
      vec (.ok root.1)
    | none => vec (.ok (List.replicate 32 0))
  -- /repo/ssz-rs-derive/src/lib.rs:625-641
  | .newtype t, v => t.chunksP E v
  -- /repo/ssz-rs-derive/src/lib.rs:326-342
  | .container fs, v => holding ((fs.impls E).count * 32)
      (fs.chunksP E v 0 (List.replicate ((fs.impls E).count * 32) 0))
  | .union vs, v => vs.chunksP E v

/-- The proof of a zero, for values without a payload: /repo/ssz-rs/src/union.rs:152-155 and
/repo/ssz-rs-derive/src/lib.rs:669-672. -/
def zeroProofP (E : Env) (prover : Prover) : Peak Prover :=
  computeProofP E (SimpleSerialize.uint .usize)
    (fun v => vec ((SimpleSerialize.uint .usize).chunks v))
    (fun v i p => free (defaultProveElement v i p)) (0 : BitVec 64) prover

/-- `prove_element` for arrays (array.rs:133-140), vectors (vector.rs:277-284) and lists
(list.rs:286-293). -/
def collectionProveElementP {α : Type} (compute : α → Prover → Peak Prover) (n : Nat)
    (elements : List α) (i : Nat) (prover : Prover) : Peak Prover :=
  if i ≥ n then free (.err .invalidInnerIndex)
  else do
    let child ← free (index elements i)
    compute child prover

mutual

/-- `Prove::prove_element`, with what it holds. -/
def Ty.proveElementP (E : Env) : (t : Ty) → t.Val → Nat → Prover → Peak Prover
  | .uint _, v, i, p => free (defaultProveElement v i p)
  | .u256, v, i, p => free (defaultProveElement v i p)
  | .bool, v, i, p => free (defaultProveElement v i p)
  | .node, v, i, p => free (defaultProveElement v i p)
  | .array t n, v, i, p =>
    collectionProveElementP (computeProofP E (t.impl E) (t.chunksP E)
      (fun x i p => t.proveElementP E x i p)) n v.1 i p
  | .vector t n, v, i, p =>
    collectionProveElementP (computeProofP E (t.impl E) (t.chunksP E)
      (fun x i p => t.proveElementP E x i p)) n v i p
  | .list t n, v, i, p =>
    collectionProveElementP (computeProofP E (t.impl E) (t.chunksP E)
      (fun x i p => t.proveElementP E x i p)) n v i p
  | .bitvector _, v, i, p => free (defaultProveElement v i p)
  | .bitlist _, v, i, p => free (defaultProveElement v i p)
  -- /repo/ssz-rs/src/union.rs:146-158
  | .option t, v, i, p =>
    if i ≥ 2 then free (.err .invalidInnerIndex)
    else match (v : Option t.Val) with
      | some x => computeProofP E (t.impl E) (t.chunksP E) (fun x i p => t.proveElementP E x i p) x p
      | none => zeroProofP E p
  -- /repo/ssz-rs-derive/src/lib.rs:625-641
  | .newtype t, v, i, p => t.proveElementP E v i p
  -- /repo/ssz-rs-derive/src/lib.rs:599-620
  | .container fs, v, i, p =>
    if i ≥ (fs.impls E).count then free (.err .invalidInnerIndex)
    else fs.proveFieldP E v i p
  -- /repo/ssz-rs-derive/src/lib.rs:647-690
  | .union vs, v, i, p =>
    if i ≥ (vs.impls E).count then free (.err .invalidInnerIndex)
    else vs.proveVariantP E v p

/-- The match on the index in `prove_element` of a struct: /repo/ssz-rs-derive/src/lib.rs:599-620 -/
def Fields.proveFieldP (E : Env) : (fs : Fields) → fs.Val → Nat → Prover → Peak Prover
  | .nil, _, _, _ => free .panic
  | .cons _ t _, v, 0, p =>
    computeProofP E (t.impl E) (t.chunksP E) (fun x i p => t.proveElementP E x i p) v.1 p
  | .cons _ _ rest, v, i + 1, p => rest.proveFieldP E v.2 i p

/-- The match on the active variant in `prove_element` of an enum:
/repo/ssz-rs-derive/src/lib.rs:647-690 -/
def Variants.proveVariantP (E : Env) : (vs : Variants) → vs.Val → Prover → Peak Prover
  | .nil, v, _ => v.elim
  | .unit _, .inl _, p => zeroProofP E p
  | .unit rest, .inr v, p => rest.proveVariantP E v p
  | .data t _, .inl v, p =>
    computeProofP E (t.impl E) (t.chunksP E) (fun x i p => t.proveElementP E x i p) v p
  | .data _ rest, .inr v, p => rest.proveVariantP E v p

end

/-- `Prover::compute_proof` of a value of any type. -/
def Ty.computeProofP (E : Env) (t : Ty) (v : t.Val) (prover : Prover) : Peak Prover :=
  Ssz.computeProofP E (t.impl E) (t.chunksP E) (t.proveElementP E) v prover

/-- `Prove::prove`: /repo/ssz-rs/src/merkleization/proofs.rs:162-167 -/
def Ty.proveP (E : Env) (t : Ty) (v : t.Val) (path : List PathElement) : Peak (Proof × Node) := do
  let index ← free (generalizedIndex (t.impl E) path)
  let prover ← t.computeProofP E v (Prover.ofIndex index)
  free (.ok (prover.proof, prover.witness))

end Ssz
