import Verif.Model.WidthCode

/-!
# The making of proofs on targets with a smaller `usize`

`prove` once more, for a `usize` of any number of bits. The functions are those of the same name (without
`W`) with the arithmetic of the target where it may overflow: the number of leaves and nodes, the size of
the tree, powers of two and positions in the tree. Positions within the loop over the buffer of the tree do
not overflow on any target (`treeLoop`), and the chunk of a length or selector is the same on all targets.
-/

namespace Ssz

/-- `compute_local_merkle_coordinates`: /repo/ssz-rs/src/merkleization/proofs.rs:33-43 -/
def computeLocalMerkleCoordinatesW (b : Nat) (E : Env) (i leafCount : Nat) :
    Res MerkError (Nat × Nat × Nat) := do
  let twice ← ((E.on b).mul 2 leafCount).lift
  let nodeCount ← ((E.on b).sub twice 1).lift
  let i' := shrinkIndex nodeCount i
  let depth ← getDepth i'
  let index ← getIndexW (E.on b) i' depth
  .ok (depth, index, i')

/-- `tree[g]`: /repo/ssz-rs/src/merkleization/merkleize.rs:261-269 -/
def Tree.getW (b : Nat) (E : Env) (tree : Tree) (g : Nat) : Res MerkError Bytes := do
  let g1 ← ((E.on b).sub g 1).lift
  let start ← ((E.on b).mul g1 32).lift
  let stop ← ((E.on b).mul g 32).lift
  slice tree start stop

/-- `compute_merkle_tree`: /repo/ssz-rs/src/merkleization/merkleize.rs:290-326 -/
def computeMerkleTreeW (b : Nat) (E : Env) (chunks : Bytes) (leafCount : Nat) : Res MerkError Tree := do
  let _ ← (E.debugAssert (chunks.length % 32 == 0)).lift
  let _ ← if E.debug then
      (do let p ← ((E.on b).nextPowerOfTwo leafCount).lift
          (E.debugAssert (p == leafCount)).lift : Res MerkError Unit)
    else .ok ()
  let twice ← ((E.on b).mul 2 leafCount).lift
  let nodeCount ← ((E.on b).sub twice 1).lift
  let interiorCount ← ((E.on b).sub nodeCount leafCount).lift
  let leafStart ← ((E.on b).mul interiorCount 32).lift
  let size ← ((E.on b).mul nodeCount 32).lift
  let buffer ← zerosW b size
  let stop ← ((E.on b).add leafStart chunks.length).lift
  let buffer' ← copyInto buffer leafStart stop chunks
  treeLoop E (nodeCount - 1) buffer'

/-- The loop collecting siblings in `Prover::compute_proof`:
/repo/ssz-rs/src/merkleization/proofs.rs:106-111. -/
def siblingsLoopW (b : Nat) (E : Env) (tree : Tree) : Nat → Nat → List Node → Res MerkError (List Node)
  | 0, _, branch => .ok branch
  | n + 1, target, branch => do
    let sibling ←
      if target % 2 ≠ 0 then
        (do let t ← ((E.on b).sub target 1).lift
            Tree.getW b E tree t : Res MerkError Bytes)
      else
        (do let t ← ((E.on b).add target 1).lift
            Tree.getW b E tree t : Res MerkError Bytes)
    let node ← toNode sibling
    siblingsLoopW b E tree n (target / 2) (branch ++ [node])

/-- `Prover::compute_proof`: /repo/ssz-rs/src/merkleization/proofs.rs:69-117, for a type with the given
`chunk_count` and a value with the given `decoration`, `chunks` and `prove_element`. -/
def computeProofW (b : Nat) (E : Env) (chunkCount : Calc Nat) (decoration : Option Nat)
    (chunks : Res MerkError Bytes) (proveElement : Nat → Prover → Res MerkError Prover) (prover : Prover) :
    Res MerkError Prover := do
  let chunkCount ← chunkCount.lift
  let leafCount0 ← ((E.on b).nextPowerOfTwo chunkCount).lift
  let parentIndex := prover.proof.index
  let leafCount ← if decoration.isSome then ((E.on b).mul leafCount0 2).lift
    else (.ok leafCount0 : Res MerkError Nat)
  let (localDepth, localIndex, localGeneralizedIndex) ←
    computeLocalMerkleCoordinatesW b E parentIndex leafCount
  let isLeafLocal := !decide (localGeneralizedIndex < parentIndex)
  let prover1 ←
    if localGeneralizedIndex < parentIndex then
      (do
        let parentDepth ← getDepth parentIndex
        let childDepth ← (E.sub parentDepth localDepth).lift
        let nodeCount ← ((E.on b).pow2 childDepth).lift
        let r ← usizeRem parentIndex nodeCount
        let childIndex ← ((E.on b).add nodeCount r).lift
        let p ← proveElement localIndex
          { prover with proof := { prover.proof with index := childIndex } }
        .ok { p with proof := { p.proof with index := parentIndex } } : Res MerkError Prover)
    else .ok prover
  let chunks ← chunks
  let tree0 ← computeMerkleTreeW b E chunks leafCount
  let tree ←
    match decoration with
    | some d => Tree.mixInDecoration E tree0 d
    | none => (.ok tree0 : Res MerkError Tree)
  let leaf ←
    if isLeafLocal then
      (do let l ← Tree.getW b E tree parentIndex
          toNode l : Res MerkError Node)
    else .ok prover1.proof.leaf
  let branch ← siblingsLoopW b E tree localDepth localGeneralizedIndex prover1.proof.branch
  let rootBytes ← Tree.getW b E tree 1
  let root ← toNode rootBytes
  .ok { proof := { leaf := leaf, branch := branch, index := prover1.proof.index }
        witness := root }

/-- `prover.compute_proof(&0usize)`, used where a unit variant or `None` has a child: uint.rs:74-88. The
chunk of 0 is the same on all targets. -/
def proofOfZeroW (b : Nat) (E : Env) (prover : Prover) : Res MerkError Prover :=
  computeProofW b E defaultChunkCount none (uintChunks .usize (0 : BitVec 64))
    (fun _ _ => .err .noInnerElement) prover

/-- `prove_element` of the collections: array.rs:133-140, vector.rs:277-284, list.rs:286-293 -/
def collectionElementW {α : Type} (proof : α → Prover → Res MerkError Prover) (n : Nat)
    (elements : List α) (i : Nat) (prover : Prover) : Res MerkError Prover :=
  if i ≥ n then .err .invalidInnerIndex
  else do
    let child ← index elements i
    proof child prover

mutual

/-- `Prover::compute_proof` for a value of the type. -/
def Ty.proofW (b : Nat) (E : Env) : (t : Ty) → t.Val → Prover → Res MerkError Prover
  | .uint u, v, prover =>
    computeProofW b E defaultChunkCount none (uintChunks u v) (fun _ _ => .err .noInnerElement) prover
  | .u256, v, prover =>
    computeProofW b E defaultChunkCount none (.ok (toLeBytes 32 v.toNat)) (fun _ _ => .err .noInnerElement)
      prover
  | .bool, v, prover =>
    computeProofW b E defaultChunkCount none (.ok (boolChunks v)) (fun _ _ => .err .noInnerElement) prover
  | .node, v, prover =>
    computeProofW b E defaultChunkCount none (.ok v.1) (fun _ _ => .err .noInnerElement) prover
  -- /repo/ssz-rs/src/array.rs:93-95, 120-141
  | .array t n, v, prover =>
    computeProofW b E (itemChunkCountW (E.on b) (t.itemLengthW (E.on b)) n) none
      (assembleChunksW b E (t.impl E) (fun x => t.rootW b E x) v.1)
      (collectionElementW (fun x p => t.proofW b E x p) n v.1) prover
  -- /repo/ssz-rs/src/vector.rs:242-244, 269-285
  | .vector t n, v, prover =>
    computeProofW b E (itemChunkCountW (E.on b) (t.itemLengthW (E.on b)) n) none
      (assembleChunksW b E (t.impl E) (fun x => t.rootW b E x) v)
      (collectionElementW (fun x p => t.proofW b E x p) n v) prover
  -- /repo/ssz-rs/src/list.rs:242-244, 278-298
  | .list t n, v, prover =>
    computeProofW b E (itemChunkCountW (E.on b) (t.itemLengthW (E.on b)) n) (some (List.length v))
      (assembleChunksW b E (t.impl E) (fun x => t.rootW b E x) v)
      (collectionElementW (fun x p => t.proofW b E x p) n v) prover
  -- /repo/ssz-rs/src/bitvector.rs:178-180, 206-213
  | .bitvector n, v, prover =>
    computeProofW b E (.ok (bitsChunkCount n)) none (Bitvector.packBits n v)
      (fun _ _ => .err .noInnerElement) prover
  -- /repo/ssz-rs/src/bitlist.rs:190-192, 219-230
  | .bitlist n, v, prover =>
    computeProofW b E (.ok (bitsChunkCount n)) (some v.len) (Bitlist.packBits n v)
      (fun _ _ => .err .noInnerElement) prover
  -- /repo/ssz-rs/src/union.rs:131-168
  | .option t, v, prover => match (v : Option t.Val) with
    | some x =>
      computeProofW b E defaultChunkCount (some 1) ((t.rootW b E x).map (·.1))
        (fun i p => if i ≥ 2 then .err .invalidInnerIndex else t.proofW b E x p) prover
    | none =>
      computeProofW b E defaultChunkCount (some 0) (.ok (List.replicate 32 0))
        (fun i p => if i ≥ 2 then .err .invalidInnerIndex else proofOfZeroW b E p) prover
  -- /repo/ssz-rs-derive/src/lib.rs:559-568, 625-643
  | .newtype t, v, prover => t.proofW b E v prover
  -- /repo/ssz-rs-derive/src/lib.rs:549-558, 596-624
  | .container fs, v, prover =>
    computeProofW b E (.ok fs.countW) none (fs.chunksW b E v 0 (List.replicate (fs.countW * 32) 0))
      (fun i p => if i ≥ fs.countW then .err .invalidInnerIndex else fs.proofW b E v p i) prover
  -- /repo/ssz-rs-derive/src/lib.rs:571, 644-703
  | .union vs, v, prover =>
    computeProofW b E defaultChunkCount (some (vs.selectorW 0 v)) (vs.chunksW b E v)
      (fun i p => if i ≥ vs.countW then .err .invalidInnerIndex else vs.proofW b E v p) prover

/-- The match on the position of the field: /repo/ssz-rs-derive/src/lib.rs:599-620 -/
def Fields.proofW (b : Nat) (E : Env) : (fs : Fields) → fs.Val → Prover → Nat → Res MerkError Prover
  | .nil, _, _, _ => .panic
  | .cons _ t _, v, prover, 0 => t.proofW b E v.1 prover
  | .cons _ _ rest, v, prover, i + 1 => rest.proofW b E v.2 prover i

/-- The match on the active variant: /repo/ssz-rs-derive/src/lib.rs:647-690 -/
def Variants.proofW (b : Nat) (E : Env) : (vs : Variants) → vs.Val → Prover → Res MerkError Prover
  | .nil, v, _ => v.elim
  | .unit _, .inl _, prover => proofOfZeroW b E prover
  | .unit rest, .inr v, prover => rest.proofW b E v prover
  | .data t _, .inl v, prover => t.proofW b E v prover
  | .data _ rest, .inr v, prover => rest.proofW b E v prover

/-- `assemble_chunks` of an enum: /repo/ssz-rs-derive/src/lib.rs:368-400 -/
def Variants.chunksW (b : Nat) (E : Env) : (vs : Variants) → vs.Val → Res MerkError Bytes
  | .nil, v => v.elim
  | .unit _, .inl _ => .ok zeroNode.1
  | .unit rest, .inr v => rest.chunksW b E v
  | .data t _, .inl v => (t.rootW b E v).map (·.1)
  | .data _ rest, .inr v => rest.chunksW b E v

/-- `decoration`, the position of the active variant: /repo/ssz-rs-derive/src/lib.rs:654-673 -/
def Variants.selectorW : (vs : Variants) → Nat → vs.Val → Nat
  | .nil, _, v => v.elim
  | .unit _, i, .inl _ => i
  | .unit rest, i, .inr v => rest.selectorW (i + 1) v
  | .data _ _, i, .inl _ => i
  | .data _ rest, i, .inr v => rest.selectorW (i + 1) v

end

/-- `Prove::prove`: /repo/ssz-rs/src/merkleization/proofs.rs:162-167 -/
def Ty.proveW (b : Nat) (E : Env) (t : Ty) (v : t.Val) (path : List PathElement) :
    Res MerkError (Proof × Node) := do
  let index ← t.indexW (E.on b) 1 path
  let prover ← t.proofW b E v (Prover.ofIndex index)
  .ok (prover.proof, prover.witness)

end Ssz
