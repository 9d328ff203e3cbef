import Verif.Model.Cost
import Verif.Model.Multiproofs

/-!
# What verification of proofs costs

The functions of /repo/ssz-rs/src/merkleization/proofs.rs:183-232 and
/repo/ssz-rs/src/merkleization/multiproofs.rs once more, with the counters of `Verif.Model.Cost`:
calls of the hash function and loop iterations. An element put into a hash set or a hash map, or taken
from one, counts as an iteration; the comparisons of the two calls of `sort_by` are not counted.
-/

namespace Ssz

namespace Counted

/-- `n` iterations. -/
def steps (n : Nat) : Counted Unit := (⟨0, n⟩, .ok ())

end Counted

open Counted

/-- The loop of `is_valid_merkle_branch`: /repo/ssz-rs/src/merkleization/proofs.rs:216-225 -/
def branchLoopC (E : Env) (index : Nat) : Nat → List Node → Node → Counted Node
  | _, [], derived => free (.ok derived)
  | i, node :: rest, derived => do
    step
    let p ← free (E.pow2 i).lift
    let q ← free (usizeDiv index p)
    let derived' ← hash (.ok
      (if q % 2 ≠ 0 then E.sha256 (node.1 ++ derived.1) else E.sha256 (derived.1 ++ node.1)))
    branchLoopC E index (i + 1) rest derived'

/-- `is_valid_merkle_branch`: /repo/ssz-rs/src/merkleization/proofs.rs:202-232 -/
def isValidMerkleBranchC (E : Env) (leaf : Node) (branch : List Node) (depth index : Nat)
    (root : Node) : Counted Unit :=
  if branch.length ≠ depth then free (.err .invalidProof)
  else do
    let derived ← branchLoopC E index 0 branch leaf
    if derived = root then free (.ok ()) else free (.err .invalidProof)

/-- `is_valid_merkle_branch_for_generalized_index`:
/repo/ssz-rs/src/merkleization/proofs.rs:190-199 -/
def isValidMerkleBranchForGeneralizedIndexC (E : Env) (leaf : Node) (branch : List Node)
    (generalizedIndex : Nat) (root : Node) : Counted Unit := do
  let depth ← free (getDepth generalizedIndex)
  let index ← free (getSubtreeIndex E generalizedIndex)
  isValidMerkleBranchC E leaf branch depth index root

/-- `Proof::verify`: /repo/ssz-rs/src/merkleization/proofs.rs:183-185 -/
def Proof.verifyC (E : Env) (p : Proof) (root : Node) : Counted Unit :=
  isValidMerkleBranchForGeneralizedIndexC E p.leaf p.branch p.index root

/-- The loop of `get_branch_indices`: /repo/ssz-rs/src/merkleization/multiproofs.rs:14-17 -/
def branchIndicesLoopC (focus : Nat) (result : List Nat) : Counted (List Nat) :=
  if _h : focus > 1 then do
    step
    branchIndicesLoopC (sibling (parent focus)) (result ++ [sibling (parent focus)])
  else free (.ok result)
termination_by focus
decreasing_by exact sibling_parent_lt _h

/-- `get_branch_indices`: /repo/ssz-rs/src/merkleization/multiproofs.rs:11-20 -/
def getBranchIndicesC (treeIndex : Nat) : Counted (List Nat) := do
  let result ← branchIndicesLoopC (sibling treeIndex) [sibling treeIndex]
  free (.ok result.dropLast)

/-- The loop of `get_path_indices`: /repo/ssz-rs/src/merkleization/multiproofs.rs:25-28 -/
def pathIndicesLoopC (focus : Nat) (result : List Nat) : Counted (List Nat) :=
  if _h : focus > 1 then do
    step
    pathIndicesLoopC (parent focus) (result ++ [parent focus])
  else free (.ok result)
termination_by focus
decreasing_by simp only [parent]; omega

/-- `get_path_indices`: /repo/ssz-rs/src/merkleization/multiproofs.rs:22-31 -/
def getPathIndicesC (treeIndex : Nat) : Counted (List Nat) := do
  let result ← pathIndicesLoopC treeIndex [treeIndex]
  free (.ok result.dropLast)

/-- The loop of `get_helper_indices`: /repo/ssz-rs/src/merkleization/multiproofs.rs:37-40 -/
def helperLoopC : List Nat → Counted (List Nat × List Nat)
  | [] => free (.ok ([], []))
  | index :: rest => do
    step
    let branch ← getBranchIndicesC index
    steps branch.length
    let path ← getPathIndicesC index
    steps path.length
    let tail ← helperLoopC rest
    free (.ok (branch ++ tail.1, path ++ tail.2))

/-- `get_helper_indices`: /repo/ssz-rs/src/merkleization/multiproofs.rs:33-46 -/
def getHelperIndicesC (indices : List Nat) : Counted (List Nat) := do
  let all ← helperLoopC indices
  let allHelperIndices := all.1.dedup
  steps allHelperIndices.length
  free (.ok (sortDesc (allHelperIndices.filter fun i => !all.2.contains i)))

/-- The loop of `calculate_merkle_root`: /repo/ssz-rs/src/merkleization/multiproofs.rs:60-69 -/
def merkleRootLoopC (E : Env) (index : Nat) : Nat → List Node → Node → Counted Node
  | _, [], result => free (.ok result)
  | i, next :: rest, result => do
    step
    let bit ← free (getBit E index i).lift
    let result' ← hash (.ok
      (if bit then E.sha256 (next.1 ++ result.1) else E.sha256 (result.1 ++ next.1)))
    merkleRootLoopC E index (i + 1) rest result'

/-- `calculate_merkle_root`: /repo/ssz-rs/src/merkleization/multiproofs.rs:48-71 -/
def calculateMerkleRootC (E : Env) (leaf : Node) (proof : List Node) (index : Nat) :
    Counted Node := do
  let pathLength ← free (getPathLength index)
  if pathLength ≠ proof.length then free (.err .invalidProof)
  else merkleRootLoopC E index 0 proof leaf

/-- `verify_merkle_proof`: /repo/ssz-rs/src/merkleization/multiproofs.rs:73-84 -/
def verifyMerkleProofC (E : Env) (leaf : Node) (proof : List Node) (index : Nat) (root : Node) :
    Counted Unit := do
  let r ← calculateMerkleRootC E leaf proof index
  if r = root then free (.ok ()) else free (.err .invalidProof)

/-- The loop `while pos < keys.len()`: /repo/ssz-rs/src/merkleization/multiproofs.rs:112-132 -/
def multiproofLoopC (E : Env) (keys : List Nat) (objects : Objects) : Counted Objects :=
  match keys with
  | [] => free (.ok objects)
  | key :: keys => do
    step
    if _h : (objects.contains key && objects.contains (sibling key)
        && !objects.contains (parent key)) = true then
      let rightIndex := key ||| 1
      let leftIndex := sibling rightIndex
      match objects.get leftIndex, objects.get rightIndex with
      | some left, some right => do
        let node ← hash (.ok (E.sha256 (left.1 ++ right.1)))
        multiproofLoopC E (keys ++ [parent key]) (objects.insert (parent key) node)
      | _, _ => free .panic
    else multiproofLoopC E keys objects
termination_by (keys.map (· + 1)).sum
decreasing_by
  · have h0 : key ≠ 0 := by
      rintro rfl
      simp [parent] at _h
      simp [_h] at _h
    simp only [List.map_append, List.map_cons, List.map_nil, List.sum_append, List.sum_cons,
      List.sum_nil, parent]
    omega
  · simp only [List.map_cons, List.sum_cons]; omega

/-- `calculate_multi_merkle_root`: /repo/ssz-rs/src/merkleization/multiproofs.rs:86-136 -/
def calculateMultiMerkleRootC (E : Env) (leaves proof : List Node) (indices : List Nat) :
    Counted Node :=
  if leaves.length ≠ indices.length then free (.err .invalidProof)
  else do
    let helperIndices ← getHelperIndicesC indices
    if proof.length ≠ helperIndices.length then free (.err .invalidProof)
    else do
      steps indices.length
      let objects0 := Objects.insertAll [] (indices.zip leaves)
      steps helperIndices.length
      let objects1 := Objects.insertAll objects0 (helperIndices.zip proof)
      let keys := sortDesc objects1.keys
      steps keys.length
      let objects ← multiproofLoopC E keys objects1
      match objects.get 1 with
      | some root => free (.ok root)
      | none => free .panic

/-- `verify_merkle_multiproof`: /repo/ssz-rs/src/merkleization/multiproofs.rs:138-149 -/
def verifyMerkleMultiproofC (E : Env) (leaves proof : List Node) (indices : List Nat)
    (root : Node) : Counted Unit := do
  let r ← calculateMultiMerkleRootC E leaves proof indices
  if r = root then free (.ok ()) else free (.err .invalidProof)

end Ssz
