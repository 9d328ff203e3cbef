import Verif.Model.Merkleize

/-!
# Generalized indices, Merkle proofs and their verification

/repo/ssz-rs/src/merkleization/generalized_index.rs and
/repo/ssz-rs/src/merkleization/proofs.rs
-/

namespace Ssz

/-- `log_2`: /repo/ssz-rs/src/merkleization/generalized_index.rs:70-72 -/
def log2 (x : Nat) : Option Nat := if x = 0 then none else some (Nat.log2 x)

/-- `get_depth`: /repo/ssz-rs/src/merkleization/proofs.rs:16-18 -/
def getDepth (i : Nat) : Res MerkError Nat :=
  match log2 i with
  | some d => .ok d
  | none => .err .invalidGeneralizedIndex

/-- `x % y` on `usize`: panics for `y = 0`. -/
def usizeRem {ε : Type} (x y : Nat) : Res ε Nat := if y = 0 then .panic else .ok (x % y)

/-- `x / y` on `usize`: panics for `y = 0`. -/
def usizeDiv {ε : Type} (x y : Nat) : Res ε Nat := if y = 0 then .panic else .ok (x / y)

/-- `get_index`: /repo/ssz-rs/src/merkleization/proofs.rs:20-22 -/
def getIndex (E : Env) (i depth : Nat) : Res MerkError Nat := do
  let p ← (E.pow2 depth).lift
  usizeRem i p

/-- `get_subtree_index`: /repo/ssz-rs/src/merkleization/proofs.rs:25-28 -/
def getSubtreeIndex (E : Env) (i : Nat) : Res MerkError Nat := do
  let depth ← getDepth i
  getIndex E i depth

/-- The loop `while i > node_count { i /= 2 }`:
/repo/ssz-rs/src/merkleization/proofs.rs:38-40. -/
def shrinkIndex (nodeCount i : Nat) : Nat :=
  if _h : i > nodeCount then shrinkIndex nodeCount (i / 2) else i
termination_by i
decreasing_by omega

/-- `compute_local_merkle_coordinates`: /repo/ssz-rs/src/merkleization/proofs.rs:33-43 -/
def computeLocalMerkleCoordinates (E : Env) (i leafCount : Nat) :
    Res MerkError (Nat × Nat × Nat) := do
  let twice ← (E.mul 2 leafCount).lift
  let nodeCount ← (E.sub twice 1).lift
  let i' := shrinkIndex nodeCount i
  let depth ← getDepth i'
  let index ← getIndex E i' depth
  .ok (depth, index, i')

/-- The loop collecting siblings in `Prover::compute_proof`:
/repo/ssz-rs/src/merkleization/proofs.rs:106-111. -/
def siblingsLoop (E : Env) (tree : Tree) : Nat → Nat → List Node → Res MerkError (List Node)
  | 0, _, branch => .ok branch
  | n + 1, target, branch => do
    let sibling ←
      if target % 2 ≠ 0 then
        (do let t ← (E.sub target 1).lift
            Tree.get E tree t : Res MerkError Bytes)
      else
        (do let t ← (E.add target 1).lift
            Tree.get E tree t : Res MerkError Bytes)
    let node ← toNode sibling
    siblingsLoop E tree n (target / 2) (branch ++ [node])

/-- `Prover::compute_proof`: /repo/ssz-rs/src/merkleization/proofs.rs:69-117 (with `set_leaf`,
`extend_branch`, `set_witness`, 54-66). On an error the Rust prover is left half-updated; here only
the error is returned, as `prove` drops the prover in that case. `Model/ProverState.lean` has what is
left behind. -/
def computeProof {α : Type} (E : Env) (T : SimpleSerialize α) (data : α) (prover : Prover) :
    Res MerkError Prover := do
  let chunkCount ← T.chunkCount.lift
  let leafCount0 ← (E.nextPowerOfTwo chunkCount).lift
  let parentIndex := prover.proof.index
  let decoration := T.decoration data
  let leafCount ← if decoration.isSome then (E.mul leafCount0 2).lift
    else (.ok leafCount0 : Res MerkError Nat)
  let (localDepth, localIndex, localGeneralizedIndex) ←
    computeLocalMerkleCoordinates E parentIndex leafCount
  let isLeafLocal := !decide (localGeneralizedIndex < parentIndex)
  let prover1 ←
    if localGeneralizedIndex < parentIndex then
      (do
        let parentDepth ← getDepth parentIndex
        let childDepth ← (E.sub parentDepth localDepth).lift
        let nodeCount ← (E.pow2 childDepth).lift
        let r ← usizeRem parentIndex nodeCount
        let childIndex ← (E.add nodeCount r).lift
        let p ← T.proveElement data localIndex
          { prover with proof := { prover.proof with index := childIndex } }
        .ok { p with proof := { p.proof with index := parentIndex } } : Res MerkError Prover)
    else .ok prover
  let chunks ← T.chunks data
  let tree0 ← computeMerkleTree E chunks leafCount
  let tree ←
    match decoration with
    | some d => Tree.mixInDecoration E tree0 d
    | none => (.ok tree0 : Res MerkError Tree)
  let leaf ←
    if isLeafLocal then
      (do let l ← Tree.get E tree parentIndex
          toNode l : Res MerkError Node)
    else .ok prover1.proof.leaf
  let branch ← siblingsLoop E tree localDepth localGeneralizedIndex prover1.proof.branch
  let rootBytes ← Tree.get E tree 1
  let root ← toNode rootBytes
  .ok { proof := { leaf := leaf, branch := branch, index := prover1.proof.index }
        witness := root }

/-- `GeneralizedIndexable::generalized_index`:
/repo/ssz-rs/src/merkleization/generalized_index.rs:62-65 -/
def generalizedIndex {α : Type} (T : SimpleSerialize α) (path : List PathElement) :
    Res MerkError Nat :=
  T.computeGeneralizedIndex 1 path

/-- `Prover::from(index)`: /repo/ssz-rs/src/merkleization/proofs.rs:126-134 -/
def Prover.ofIndex (index : Nat) : Prover :=
  { proof := { leaf := zeroNode, branch := [], index := index }, witness := zeroNode }

/-- `Prove::prove`: /repo/ssz-rs/src/merkleization/proofs.rs:162-167 -/
def prove {α : Type} (E : Env) (T : SimpleSerialize α) (data : α) (path : List PathElement) :
    Res MerkError (Proof × Node) := do
  let index ← generalizedIndex T path
  let prover ← computeProof E T data (Prover.ofIndex index)
  .ok (prover.proof, prover.witness)

/-- The loop of `is_valid_merkle_branch`: /repo/ssz-rs/src/merkleization/proofs.rs:216-225. -/
def branchLoop (E : Env) (index : Nat) : Nat → List Node → Node → Res MerkError Node
  | _, [], derived => .ok derived
  | i, node :: rest, derived => do
    let p ← (E.pow2 i).lift
    let q ← usizeDiv index p
    let derived' :=
      if q % 2 ≠ 0 then E.sha256 (node.1 ++ derived.1) else E.sha256 (derived.1 ++ node.1)
    branchLoop E index (i + 1) rest derived'

/-- `is_valid_merkle_branch`: /repo/ssz-rs/src/merkleization/proofs.rs:202-232. The cast
`i as u32` of the position is the identity: a branch never has `2^32` nodes in memory. -/
def isValidMerkleBranch (E : Env) (leaf : Node) (branch : List Node) (depth index : Nat)
    (root : Node) : Res MerkError Unit :=
  if branch.length ≠ depth then .err .invalidProof
  else do
    let derived ← branchLoop E index 0 branch leaf
    if derived = root then .ok () else .err .invalidProof

/-- `is_valid_merkle_branch_for_generalized_index`:
/repo/ssz-rs/src/merkleization/proofs.rs:190-199 -/
def isValidMerkleBranchForGeneralizedIndex (E : Env) (leaf : Node) (branch : List Node)
    (generalizedIndex : Nat) (root : Node) : Res MerkError Unit := do
  let depth ← getDepth generalizedIndex
  let index ← getSubtreeIndex E generalizedIndex
  isValidMerkleBranch E leaf branch depth index root

/-- `Proof::verify`: /repo/ssz-rs/src/merkleization/proofs.rs:183-185 -/
def Proof.verify (E : Env) (p : Proof) (root : Node) : Res MerkError Unit :=
  isValidMerkleBranchForGeneralizedIndex E p.leaf p.branch p.index root

end Ssz
