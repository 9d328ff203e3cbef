import Verif.Model.Proofs
import Mathlib.Data.List.Sort
import Mathlib.Data.List.Dedup

/-!
# Multiproofs

/repo/ssz-rs/src/merkleization/multiproofs.rs and the index helpers at the end of
/repo/ssz-rs/src/merkleization/generalized_index.rs. A `HashSet` is a list of which only membership
matters; a `HashMap` is an association list with distinct keys.
-/

namespace Ssz

/-- `get_path_length`: /repo/ssz-rs/src/merkleization/generalized_index.rs:92-95 -/
def getPathLength (i : Nat) : Res MerkError Nat := getDepth i

/-- `get_bit`: /repo/ssz-rs/src/merkleization/generalized_index.rs:97-99. `1 << position` panics
with overflow checks from position 64 on; without them the shift amount is taken modulo 64. -/
def getBit (E : Env) (i position : Nat) : Calc Bool :=
  if position < 64 then .ok (decide (i &&& (1 <<< position) > 0))
  else if E.debug then .panic else .ok (decide (i &&& (1 <<< (position % 64)) > 0))

/-- `sibling`: /repo/ssz-rs/src/merkleization/generalized_index.rs:101-103 -/
def sibling (i : Nat) : Nat := i ^^^ 1

/-- `parent`: /repo/ssz-rs/src/merkleization/generalized_index.rs:105-107 -/
def parent (i : Nat) : Nat := i / 2

theorem sibling_eq (i : Nat) : sibling i = if i % 2 = 0 then i + 1 else i - 1 := by
  have h1 : (i ^^^ 1) / 2 = i / 2 := by rw [Nat.xor_div_two]; simp
  have h2 : (i ^^^ 1) % 2 = 1 ↔ ¬ (i % 2 = 1 ↔ 1 % 2 = 1) := Nat.xor_mod_two_eq_one
  simp only [sibling]
  split <;> omega

theorem sibling_parent_lt {i : Nat} (h : i > 1) : sibling (parent i) < i := by
  rw [sibling_eq, parent]
  split <;> omega

/-- The loop `while focus > 1 { focus = sibling(parent(focus)); result.push(focus) }`:
/repo/ssz-rs/src/merkleization/multiproofs.rs:14-17. -/
def branchIndicesLoop (focus : Nat) (result : List Nat) : List Nat :=
  if _h : focus > 1 then
    branchIndicesLoop (sibling (parent focus)) (result ++ [sibling (parent focus)])
  else result
termination_by focus
decreasing_by exact sibling_parent_lt _h

/-- `get_branch_indices`: /repo/ssz-rs/src/merkleization/multiproofs.rs:11-20. `truncate` drops the
last entry. -/
def getBranchIndices (treeIndex : Nat) : List Nat :=
  (branchIndicesLoop (sibling treeIndex) [sibling treeIndex]).dropLast

/-- The loop `while focus > 1 { focus = parent(focus); result.push(focus) }`:
/repo/ssz-rs/src/merkleization/multiproofs.rs:25-28. -/
def pathIndicesLoop (focus : Nat) (result : List Nat) : List Nat :=
  if _h : focus > 1 then pathIndicesLoop (parent focus) (result ++ [parent focus]) else result
termination_by focus
decreasing_by simp only [parent]; omega

/-- `get_path_indices`: /repo/ssz-rs/src/merkleization/multiproofs.rs:22-31 -/
def getPathIndices (treeIndex : Nat) : List Nat :=
  (pathIndicesLoop treeIndex [treeIndex]).dropLast

/-- `sort_by(|a, b| b.cmp(a))`: descending order. -/
def sortDesc (l : List Nat) : List Nat := l.mergeSort (fun a b => decide (b ≤ a))

/-- `get_helper_indices`: /repo/ssz-rs/src/merkleization/multiproofs.rs:33-46. Set difference, then
a descending sort of the distinct members. -/
def getHelperIndices (indices : List Nat) : List Nat :=
  let allHelperIndices := (indices.flatMap getBranchIndices).dedup
  let allPathIndices := indices.flatMap getPathIndices
  sortDesc (allHelperIndices.filter fun i => !allPathIndices.contains i)

/-- The loop of `calculate_merkle_root`: /repo/ssz-rs/src/merkleization/multiproofs.rs:60-69 -/
def merkleRootLoop (E : Env) (index : Nat) : Nat → List Node → Node → Res MerkError Node
  | _, [], result => .ok result
  | i, next :: rest, result => do
    let bit ← (getBit E index i).lift
    let result' :=
      if bit then E.sha256 (next.1 ++ result.1) else E.sha256 (result.1 ++ next.1)
    merkleRootLoop E index (i + 1) rest result'

/-- `calculate_merkle_root`: /repo/ssz-rs/src/merkleization/multiproofs.rs:48-71 -/
def calculateMerkleRoot (E : Env) (leaf : Node) (proof : List Node) (index : Nat) :
    Res MerkError Node := do
  let pathLength ← getPathLength index
  if pathLength ≠ proof.length then .err .invalidProof
  else merkleRootLoop E index 0 proof leaf

/-- `verify_merkle_proof`: /repo/ssz-rs/src/merkleization/multiproofs.rs:73-84 -/
def verifyMerkleProof (E : Env) (leaf : Node) (proof : List Node) (index : Nat) (root : Node) :
    Res MerkError Unit := do
  let r ← calculateMerkleRoot E leaf proof index
  if r = root then .ok () else .err .invalidProof

/-- `HashMap<GeneralizedIndex, Node>` -/
abbrev Objects := List (Nat × Node)

/-- `objects.insert(k, v)` -/
def Objects.insert (m : Objects) (k : Nat) (v : Node) : Objects :=
  (k, v) :: m.filter fun p => p.1 ≠ k

/-- `objects.get(&k)` -/
def Objects.get (m : Objects) (k : Nat) : Option Node := List.lookup k m

/-- `objects.contains_key(&k)` -/
def Objects.contains (m : Objects) (k : Nat) : Bool := (m.get k).isSome

/-- `objects.keys()` -/
def Objects.keys (m : Objects) : List Nat := m.map (·.1)

/-- `for (index, node) in indices.zip(nodes) { objects.insert(index, node) }`:
/repo/ssz-rs/src/merkleization/multiproofs.rs:100-105 -/
def Objects.insertAll (m : Objects) (kvs : List (Nat × Node)) : Objects :=
  kvs.foldl (fun m kv => m.insert kv.1 kv.2) m

/-- The loop `while pos < keys.len()`: /repo/ssz-rs/src/merkleization/multiproofs.rs:112-132. The
list is the part of `keys` from `pos` on; a computed parent is pushed at its end. -/
def multiproofLoop (E : Env) (keys : List Nat) (objects : Objects) : Res MerkError Objects :=
  match keys with
  | [] => .ok objects
  | key :: keys =>
    if _h : (objects.contains key && objects.contains (sibling key)
        && !objects.contains (parent key)) = true then
      let rightIndex := key ||| 1
      let leftIndex := sibling rightIndex
      match objects.get leftIndex, objects.get rightIndex with
      | some left, some right =>
        let node := E.sha256 (left.1 ++ right.1)
        multiproofLoop E (keys ++ [parent key]) (objects.insert (parent key) node)
      | _, _ => .panic
    else multiproofLoop E keys objects
termination_by (keys.map (· + 1)).sum
decreasing_by
  · have h0 : key ≠ 0 := by
      rintro rfl
      simp [parent] at _h
      simp [_h] at _h
    simp only [List.map_append, List.map_cons, List.map_nil, List.sum_append, List.sum_cons,
      List.sum_nil, parent]
    omega
  · simp only [List.map_cons, List.sum_cons]; omega

/-- `calculate_multi_merkle_root`: /repo/ssz-rs/src/merkleization/multiproofs.rs:86-136 -/
def calculateMultiMerkleRoot (E : Env) (leaves proof : List Node) (indices : List Nat) :
    Res MerkError Node :=
  if leaves.length ≠ indices.length then .err .invalidProof
  else
    let helperIndices := getHelperIndices indices
    if proof.length ≠ helperIndices.length then .err .invalidProof
    else do
      let objects0 := Objects.insertAll [] (indices.zip leaves)
      let objects1 := Objects.insertAll objects0 (helperIndices.zip proof)
      let keys := sortDesc objects1.keys
      let objects ← multiproofLoop E keys objects1
      match objects.get 1 with
      | some root => .ok root
      | none => .panic

/-- `verify_merkle_multiproof`: /repo/ssz-rs/src/merkleization/multiproofs.rs:138-149 -/
def verifyMerkleMultiproof (E : Env) (leaves proof : List Node) (indices : List Nat)
    (root : Node) : Res MerkError Unit := do
  let r ← calculateMultiMerkleRoot E leaves proof indices
  if r = root then .ok () else .err .invalidProof

end Ssz
