import Verif.Model.Types

/-!
# The prover as it is left behind

`Prover::compute_proof` takes `&mut self`, so what it has changed stays, also if it ends with an error.
The functions of /repo/ssz-rs/src/merkleization/proofs.rs:54-117 and the `prove_element` implementations
once more, now as functions from the prover to the prover left behind and a result.
`Proofs/ProverState.lean` shows that without the prover left behind by a failure they are those of
`Model/Proofs.lean`.
-/

namespace Ssz

/-- A computation with `&mut Prover`: the prover left behind and the result. -/
def ProverM (α : Type) : Type := Prover → Prover × Res MerkError α

namespace ProverM

variable {α β : Type}

/-- Sequencing with `?`. -/
def bind (x : ProverM α) (f : α → ProverM β) : ProverM β := fun p =>
  match x p with
  | (p', .ok a) => f a p'
  | (p', .err e) => (p', .err e)
  | (p', .panic) => (p', .panic)

instance : Monad ProverM where
  pure a := fun p => (p, .ok a)
  bind := bind

/-- A computation that does not touch the prover. -/
def run (r : Res MerkError α) : ProverM α := fun p => (p, r)

/-- `self.proof.index` -/
def ownIndex : ProverM Nat := fun p => (p, .ok p.proof.index)

/-- An assignment to fields of the prover. -/
def change (f : Prover → Prover) : ProverM Unit := fun p => (f p, .ok ())

/-- `self.proof.index = index`: /repo/ssz-rs/src/merkleization/proofs.rs:91, 93 -/
def setIndex (index : Nat) : ProverM Unit :=
  change fun p => { p with proof := { p.proof with index := index } }

/-- `set_leaf`: /repo/ssz-rs/src/merkleization/proofs.rs:54-56 -/
def setLeaf (leaf : Bytes) : ProverM Unit := do
  let node ← run (toNode leaf)
  change fun p => { p with proof := { p.proof with leaf := node } }

/-- `extend_branch`: /repo/ssz-rs/src/merkleization/proofs.rs:60-62 -/
def extendBranch (bytes : Bytes) : ProverM Unit := do
  let node ← run (toNode bytes)
  change fun p => { p with proof := { p.proof with branch := p.proof.branch ++ [node] } }

/-- `set_witness`: /repo/ssz-rs/src/merkleization/proofs.rs:64-66 -/
def setWitness (bytes : Bytes) : ProverM Unit := do
  let node ← run (toNode bytes)
  change fun p => { p with witness := node }

end ProverM

open ProverM

/-- The loop collecting siblings: /repo/ssz-rs/src/merkleization/proofs.rs:106-111. -/
def siblingsLoopS (E : Env) (tree : Tree) : Nat → Nat → ProverM Unit
  | 0, _ => pure ()
  | n + 1, target => do
    let sibling ← run (if target % 2 ≠ 0 then
        (do let t ← (E.sub target 1).lift
            Tree.get E tree t : Res MerkError Bytes)
      else
        (do let t ← (E.add target 1).lift
            Tree.get E tree t : Res MerkError Bytes))
    extendBranch sibling
    siblingsLoopS E tree n (target / 2)

/-- `Prover::compute_proof`: /repo/ssz-rs/src/merkleization/proofs.rs:69-117 -/
def computeProofS {α : Type} (E : Env) (T : SimpleSerialize α)
    (proveElementS : α → Nat → ProverM Unit) (data : α) : ProverM Unit := do
  let chunkCount ← run T.chunkCount.lift
  let leafCount0 ← run (E.nextPowerOfTwo chunkCount).lift
  let parentIndex ← ownIndex
  let decoration := T.decoration data
  let leafCount ← run (if decoration.isSome then (E.mul leafCount0 2).lift
    else (.ok leafCount0 : Res MerkError Nat))
  let (localDepth, localIndex, localGeneralizedIndex) ←
    run (computeLocalMerkleCoordinates E parentIndex leafCount)
  let isLeafLocal := !decide (localGeneralizedIndex < parentIndex)
  (if localGeneralizedIndex < parentIndex then do
      let parentDepth ← run (getDepth parentIndex)
      let childDepth ← run (E.sub parentDepth localDepth).lift
      let nodeCount ← run (E.pow2 childDepth).lift
      let r ← run (usizeRem parentIndex nodeCount)
      let childIndex ← run (E.add nodeCount r).lift
      setIndex childIndex
      proveElementS data localIndex
      setIndex parentIndex
    else pure () : ProverM Unit)
  let chunks ← run (T.chunks data)
  let tree0 ← run (computeMerkleTree E chunks leafCount)
  let tree ← run (match decoration with
    | some d => Tree.mixInDecoration E tree0 d
    | none => (.ok tree0 : Res MerkError Tree))
  (if isLeafLocal then do
      let l ← run (Tree.get E tree parentIndex)
      setLeaf l
    else pure () : ProverM Unit)
  siblingsLoopS E tree localDepth localGeneralizedIndex
  let root ← run (Tree.get E tree 1)
  setWitness root

/-- `Prove::prove_element`, default: /repo/ssz-rs/src/merkleization/proofs.rs:148-150 -/
def defaultProveElementS {α : Type} (_ : α) (_ : Nat) : ProverM Unit := run (.err .noInnerElement)

/-- The proof of a zero, for values without a payload: /repo/ssz-rs/src/union.rs:152-155 and
/repo/ssz-rs-derive/src/lib.rs:669-672. -/
def zeroProofS (E : Env) : ProverM Unit :=
  computeProofS E (SimpleSerialize.uint .usize) defaultProveElementS (0 : BitVec 64)

/-- `prove_element` for arrays (array.rs:133-140), vectors (vector.rs:277-284) and lists
(list.rs:286-293). -/
def collectionProveElementS {α : Type} (compute : α → ProverM Unit) (n : Nat) (elements : List α)
    (i : Nat) : ProverM Unit :=
  if i ≥ n then run (.err .invalidInnerIndex)
  else do
    let child ← run (index elements i)
    compute child

mutual

/-- `Prove::prove_element` -/
def Ty.proveElementS (E : Env) : (t : Ty) → t.Val → Nat → ProverM Unit
  | .uint _, v, i => defaultProveElementS v i
  | .u256, v, i => defaultProveElementS v i
  | .bool, v, i => defaultProveElementS v i
  | .node, v, i => defaultProveElementS v i
  | .array t n, v, i =>
    collectionProveElementS (computeProofS E (t.impl E) (fun x i => t.proveElementS E x i)) n v.1 i
  | .vector t n, v, i =>
    collectionProveElementS (computeProofS E (t.impl E) (fun x i => t.proveElementS E x i)) n v i
  | .list t n, v, i =>
    collectionProveElementS (computeProofS E (t.impl E) (fun x i => t.proveElementS E x i)) n v i
  | .bitvector _, v, i => defaultProveElementS v i
  | .bitlist _, v, i => defaultProveElementS v i
  -- /repo/ssz-rs/src/union.rs:146-158
  | .option t, v, i =>
    if i ≥ 2 then run (.err .invalidInnerIndex)
    else match (v : Option t.Val) with
      | some x => computeProofS E (t.impl E) (fun x i => t.proveElementS E x i) x
      | none => zeroProofS E
  -- /repo/ssz-rs-derive/src/lib.rs:625-641
  | .newtype t, v, i => t.proveElementS E v i
  -- /repo/ssz-rs-derive/src/lib.rs:599-620
  | .container fs, v, i =>
    if i ≥ (fs.impls E).count then run (.err .invalidInnerIndex)
    else fs.proveFieldS E v i
  -- /repo/ssz-rs-derive/src/lib.rs:647-690
  | .union vs, v, i =>
    if i ≥ (vs.impls E).count then run (.err .invalidInnerIndex)
    else vs.proveVariantS E v

/-- The match on the index in `prove_element` of a struct: /repo/ssz-rs-derive/src/lib.rs:599-620 -/
def Fields.proveFieldS (E : Env) : (fs : Fields) → fs.Val → Nat → ProverM Unit
  | .nil, _, _ => run .panic
  | .cons _ t _, v, 0 => computeProofS E (t.impl E) (fun x i => t.proveElementS E x i) v.1
  | .cons _ _ rest, v, i + 1 => rest.proveFieldS E v.2 i

/-- The match on the active variant in `prove_element` of an enum:
/repo/ssz-rs-derive/src/lib.rs:647-690 -/
def Variants.proveVariantS (E : Env) : (vs : Variants) → vs.Val → ProverM Unit
  | .nil, v => Empty.elim v
  | .unit _, .inl _ => zeroProofS E
  | .unit rest, .inr v => rest.proveVariantS E v
  | .data t _, .inl v => computeProofS E (t.impl E) (fun x i => t.proveElementS E x i) v
  | .data _ rest, .inr v => rest.proveVariantS E v

end

/-- `Prover::compute_proof` of a value of any type. -/
def Ty.computeProofS (E : Env) (t : Ty) (v : t.Val) : ProverM Unit :=
  Ssz.computeProofS E (t.impl E) (t.proveElementS E) v

end Ssz
