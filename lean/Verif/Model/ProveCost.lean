import Verif.Model.Cost

/-!
# What proving costs

`Prover::compute_proof` of /repo/ssz-rs/src/merkleization/proofs.rs and the implementations of
`Prove` once more, now with the counters of `Verif.Model.Cost`: calls of SHA-256, and the iterations of
the loops that build trees. Each definition follows the one of the same name (without `C`) line by line;
`Proofs/ProveCost.lean` shows that without the counters they are the same. Not counted are the loops
over the bits of an index (`while i > node_count` and the loop that collects the siblings), which have
at most 64 iterations each, and `compute_generalized_index`, which does not look at the value.
-/

namespace Ssz

open Counted

/-- `Tree::mix_in_decoration`: /repo/ssz-rs/src/merkleization/merkleize.rs:241-253 -/
def Tree.mixInDecorationC (E : Env) (tree : Tree) (decoration : Nat) : Counted Tree := do
  let _ ← free (Tree.get E tree 3)
  let node ← free (usizeHashTreeRoot decoration)
  let tree1 ← free (Tree.set E tree 3 node.1)
  let inner ← free (Tree.get E tree1 2)
  let deco ← free (Tree.get E tree1 3)
  hash (Tree.set E tree1 1 (hashNodes E inner deco))

/-- `Prover::compute_proof`: /repo/ssz-rs/src/merkleization/proofs.rs:69-117, with the functions of
`Prove` that cost something as arguments. -/
def computeProofC {α : Type} (E : Env) (T : SimpleSerialize α) (chunksC : α → Counted Bytes)
    (proveElementC : α → Nat → Prover → Counted Prover) (data : α) (prover : Prover) :
    Counted Prover := do
  let chunkCount ← free T.chunkCount.lift
  let leafCount0 ← free (E.nextPowerOfTwo chunkCount).lift
  let parentIndex := prover.proof.index
  let decoration := T.decoration data
  let leafCount ← free (if decoration.isSome then (E.mul leafCount0 2).lift
    else (.ok leafCount0 : Res MerkError Nat))
  let (localDepth, localIndex, localGeneralizedIndex) ←
    free (computeLocalMerkleCoordinates E parentIndex leafCount)
  let isLeafLocal := !decide (localGeneralizedIndex < parentIndex)
  let prover1 ←
    (if localGeneralizedIndex < parentIndex then do
        let parentDepth ← free (getDepth parentIndex)
        let childDepth ← free (E.sub parentDepth localDepth).lift
        let nodeCount ← free (E.pow2 childDepth).lift
        let r ← free (usizeRem parentIndex nodeCount)
        let childIndex ← free (E.add nodeCount r).lift
        let p ← proveElementC data localIndex
          { prover with proof := { prover.proof with index := childIndex } }
        free (.ok { p with proof := { p.proof with index := parentIndex } })
    else free (.ok prover) : Counted Prover)
  let chunks ← chunksC data
  let tree0 ← computeMerkleTreeC E chunks leafCount
  let tree ←
    (match decoration with
    | some d => Tree.mixInDecorationC E tree0 d
    | none => free (.ok tree0) : Counted Tree)
  let leaf ←
    free (if isLeafLocal then
      (do let l ← Tree.get E tree parentIndex
          toNode l : Res MerkError Node)
    else .ok prover1.proof.leaf)
  let branch ← free (siblingsLoop E tree localDepth localGeneralizedIndex prover1.proof.branch)
  let rootBytes ← free (Tree.get E tree 1)
  let root ← free (toNode rootBytes)
  free (.ok { proof := { leaf := leaf, branch := branch, index := prover1.proof.index }
              witness := root })

/-- `chunks` of an enum: /repo/ssz-rs-derive/src/lib.rs:368-400 -/
def Variants.chunksC (E : Env) : (vs : Variants) → vs.Val → Counted Bytes
  | .nil, v => v.elim
  | .unit _, .inl _ => free (.ok zeroNode.1)
  | .unit rest, .inr v => rest.chunksC E v
  | .data t _, .inl v => do
    let root ← t.rootC E v
    free (.ok root.1)
  | .data _ rest, .inr v => rest.chunksC E v

/-- `Prove::chunks`, with what it costs. -/
def Ty.chunksC (E : Env) : (t : Ty) → t.Val → Counted Bytes
  -- uint.rs:76-81, 157-159, boolean.rs:66-72, node.rs:56-60
  | .uint u, v => free ((SimpleSerialize.uint u).chunks v)
  | .u256, v => free (SimpleSerialize.u256.chunks v)
  | .bool, v => free (SimpleSerialize.bool.chunks v)
  | .node, v => free (SimpleSerialize.node.chunks v)
  -- /repo/ssz-rs/src/array.rs:124-131
  | .array t _, v => assembleChunksC E (t.impl E) (fun x => t.rootC E x) v.1
  -- /repo/ssz-rs/src/vector.rs:214-221
  | .vector t _, v => assembleChunksC E (t.impl E) (fun x => t.rootC E x) v
  -- /repo/ssz-rs/src/list.rs:199-206
  | .list t _, v => assembleChunksC E (t.impl E) (fun x => t.rootC E x) v
  -- /repo/ssz-rs/src/bitvector.rs:208-210, /repo/ssz-rs/src/bitlist.rs:221-223
  | .bitvector n, v => free ((SimpleSerialize.bitvector E n).chunks v)
  | .bitlist n, v => free ((SimpleSerialize.bitlist E n).chunks v)
  -- /repo/ssz-rs/src/union.rs:136-144
  | .option t, v => match (v : Option t.Val) with
    | some x => do
      let root ← t.rootC E x
      free (.ok root.1)
    | none => free (.ok (List.replicate 32 0))
  -- /repo/ssz-rs-derive/src/lib.rs:625-641
  | .newtype t, v => t.chunksC E v
  -- /repo/ssz-rs-derive/src/lib.rs:326-342
  | .container fs, v => fs.chunksC E v 0 (List.replicate ((fs.impls E).count * 32) 0)
  | .union vs, v => vs.chunksC E v

/-- The proof of a zero, for values without a payload: /repo/ssz-rs/src/union.rs:152-155 and
/repo/ssz-rs-derive/src/lib.rs:669-672. -/
def zeroProofC (E : Env) (prover : Prover) : Counted Prover :=
  computeProofC E (SimpleSerialize.uint .usize)
    (fun v => free ((SimpleSerialize.uint .usize).chunks v))
    (fun v i p => free (defaultProveElement v i p)) (0 : BitVec 64) prover

/-- `prove_element` for arrays (array.rs:133-140), vectors (vector.rs:277-284) and lists
(list.rs:286-293). -/
def collectionProveElementC {α : Type} (compute : α → Prover → Counted Prover) (n : Nat)
    (elements : List α) (i : Nat) (prover : Prover) : Counted Prover :=
  if i ≥ n then free (.err .invalidInnerIndex)
  else do
    let child ← free (index elements i)
    compute child prover

mutual

/-- `Prove::prove_element`, with what it costs. -/
def Ty.proveElementC (E : Env) : (t : Ty) → t.Val → Nat → Prover → Counted Prover
  | .uint _, v, i, p => free (defaultProveElement v i p)
  | .u256, v, i, p => free (defaultProveElement v i p)
  | .bool, v, i, p => free (defaultProveElement v i p)
  | .node, v, i, p => free (defaultProveElement v i p)
  | .array t n, v, i, p =>
    collectionProveElementC (computeProofC E (t.impl E) (t.chunksC E)
      (fun x i p => t.proveElementC E x i p)) n v.1 i p
  | .vector t n, v, i, p =>
    collectionProveElementC (computeProofC E (t.impl E) (t.chunksC E)
      (fun x i p => t.proveElementC E x i p)) n v i p
  | .list t n, v, i, p =>
    collectionProveElementC (computeProofC E (t.impl E) (t.chunksC E)
      (fun x i p => t.proveElementC E x i p)) n v i p
  | .bitvector _, v, i, p => free (defaultProveElement v i p)
  | .bitlist _, v, i, p => free (defaultProveElement v i p)
  -- /repo/ssz-rs/src/union.rs:146-158
  | .option t, v, i, p =>
    if i ≥ 2 then free (.err .invalidInnerIndex)
    else match (v : Option t.Val) with
      | some x => computeProofC E (t.impl E) (t.chunksC E) (fun x i p => t.proveElementC E x i p) x p
      | none => zeroProofC E p
  -- /repo/ssz-rs-derive/src/lib.rs:625-641
  | .newtype t, v, i, p => t.proveElementC E v i p
  -- /repo/ssz-rs-derive/src/lib.rs:599-620
  | .container fs, v, i, p =>
    if i ≥ (fs.impls E).count then free (.err .invalidInnerIndex)
    else fs.proveFieldC E v i p
  -- /repo/ssz-rs-derive/src/lib.rs:647-690
  | .union vs, v, i, p =>
    if i ≥ (vs.impls E).count then free (.err .invalidInnerIndex)
    else vs.proveVariantC E v p

/-- The match on the index in `prove_element` of a struct: /repo/ssz-rs-derive/src/lib.rs:599-620 -/
def Fields.proveFieldC (E : Env) : (fs : Fields) → fs.Val → Nat → Prover → Counted Prover
  | .nil, _, _, _ => free .panic
  | .cons _ t _, v, 0, p =>
    computeProofC E (t.impl E) (t.chunksC E) (fun x i p => t.proveElementC E x i p) v.1 p
  | .cons _ _ rest, v, i + 1, p => rest.proveFieldC E v.2 i p

/-- The match on the active variant in `prove_element` of an enum:
/repo/ssz-rs-derive/src/lib.rs:647-690 -/
def Variants.proveVariantC (E : Env) : (vs : Variants) → vs.Val → Prover → Counted Prover
  | .nil, v, _ => v.elim
  | .unit _, .inl _, p => zeroProofC E p
  | .unit rest, .inr v, p => rest.proveVariantC E v p
  | .data t _, .inl v, p =>
    computeProofC E (t.impl E) (t.chunksC E) (fun x i p => t.proveElementC E x i p) v p
  | .data _ rest, .inr v, p => rest.proveVariantC E v p

end

/-- `Prover::compute_proof` of a value of any type. -/
def Ty.computeProofC (E : Env) (t : Ty) (v : t.Val) (prover : Prover) : Counted Prover :=
  Ssz.computeProofC E (t.impl E) (t.chunksC E) (t.proveElementC E) v prover

/-- `Prove::prove`: /repo/ssz-rs/src/merkleization/proofs.rs:162-167 -/
def Ty.proveC (E : Env) (t : Ty) (v : t.Val) (path : List PathElement) : Counted (Proof × Node) := do
  let index ← free (generalizedIndex (t.impl E) path)
  let prover ← t.computeProofC E v (Prover.ofIndex index)
  free (.ok (prover.proof, prover.witness))

end Ssz
