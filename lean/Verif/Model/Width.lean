import Verif.Model.Multiproofs
import Verif.Model.Types

/-!
# Targets with a smaller `usize`

Generalized indices and the verification of proofs once more, for a `usize` of any number of bits; the
rest of the model has 64. The crate supports `no_std` and has no condition on the width, so it can be
built where `usize` has 32 bits. The functions are those of the same name (without `W`) with the
arithmetic of the target. `Proofs/Width.lean` shows that with 64 bits they are the same. The verifier of
multiproofs computes only `i ^ 1`, `i | 1` and `i / 2` with indices and so is the same for all widths
(`Model/Multiproofs.lean`).
-/

namespace Ssz

/-- The number of bits of `usize`, and whether there are overflow checks. -/
structure Target where
  bits : Nat
  debug : Bool

namespace Target

/-- `a + b` on `usize` -/
def add (W : Target) (a b : Nat) : Calc Nat :=
  if a + b < 2 ^ W.bits then .ok (a + b)
  else if W.debug then .panic else .ok ((a + b) % 2 ^ W.bits)

/-- `a * b` on `usize` -/
def mul (W : Target) (a b : Nat) : Calc Nat :=
  if a * b < 2 ^ W.bits then .ok (a * b)
  else if W.debug then .panic else .ok ((a * b) % 2 ^ W.bits)

/-- `2usize.pow(k)` -/
def pow2 (W : Target) (k : Nat) : Calc Nat :=
  if k < W.bits then .ok (2 ^ k)
  else if W.debug then .panic else .ok 0

/-- `usize::next_power_of_two` -/
def nextPowerOfTwo (W : Target) (x : Nat) : Calc Nat :=
  let r := if x ≤ 1 then 1 else 2 ^ (Nat.log2 (x - 1) + 1)
  if r < 2 ^ W.bits then .ok r
  else if W.debug then .panic else .ok 0

end Target

/-- `item_length`: /repo/ssz-rs/src/uint.rs:70-72, 151-153 and boolean.rs:60-62; the default 32
otherwise (generalized_index.rs:38-40). A `usize` has `usize::BITS / 8` bytes. -/
def Ty.itemLengthW (W : Target) : Ty → Nat
  | .uint .usize => bitsToBytes W.bits
  | .uint u => bitsToBytes u.bits
  | .bool => 1
  | _ => 32

/-- `(N * T::item_length() + 31) / 32`: array.rs:93-95, vector.rs:242-244, list.rs:242-244 -/
def itemChunkCountW (W : Target) (itemLength n : Nat) : Calc Nat := do
  let a ← W.mul n itemLength
  let b ← W.add a 31
  .ok (b / 32)

/-- The index of an element of an array (array.rs:97-117) or a vector (vector.rs:246-266), and then
`next` for the rest of the path. -/
def vectorIndexW (W : Target) (itemLength n : Nat) (next : Nat → List PathElement → Res MerkError Nat)
    (parent : Nat) (path : List PathElement) : Res MerkError Nat :=
  match path with
  | [] => .ok parent
  | .index i :: rest =>
    if i ≥ n then .err (.invalidPathElement (.index i))
    else do
      let a ← (W.mul i itemLength).lift
      let chunkPosition := a / 32
      let count ← (itemChunkCountW W itemLength n).lift
      let p ← (W.nextPowerOfTwo count).lift
      let b ← (W.mul parent p).lift
      let child ← (W.add b chunkPosition).lift
      next child rest
  | elem :: _ => .err (.invalidPathElement elem)

mutual

/-- `compute_generalized_index` -/
def Ty.indexW (W : Target) : (t : Ty) → Nat → List PathElement → Res MerkError Nat
  | .uint _, parent, path => defaultComputeGeneralizedIndex parent path
  | .u256, parent, path => defaultComputeGeneralizedIndex parent path
  | .bool, parent, path => defaultComputeGeneralizedIndex parent path
  | .node, parent, path => defaultComputeGeneralizedIndex parent path
  | .array t n, parent, path =>
    vectorIndexW W (t.itemLengthW W) n (fun p q => t.indexW W p q) parent path
  | .vector t n, parent, path =>
    vectorIndexW W (t.itemLengthW W) n (fun p q => t.indexW W p q) parent path
  -- /repo/ssz-rs/src/list.rs:246-275
  | .list t n, parent, path =>
    match path with
    | [] => .ok parent
    | .index i :: rest =>
      if i ≥ n then .err (.invalidPathElement (.index i))
      else do
        let a ← (W.mul i (t.itemLengthW W)).lift
        let chunkPosition := a / 32
        let twice ← (W.mul parent 2).lift
        let count ← (itemChunkCountW W (t.itemLengthW W) n).lift
        let p ← (W.nextPowerOfTwo count).lift
        let b ← (W.mul twice p).lift
        let child ← (W.add b chunkPosition).lift
        t.indexW W child rest
    | .length :: rest =>
      if rest.isEmpty then do
        let twice ← (W.mul parent 2).lift
        (W.add twice 1).lift
      else .err (.invalidPath rest)
    | elem :: _ => .err (.invalidPathElement elem)
  -- /repo/ssz-rs/src/bitvector.rs:182-204
  | .bitvector n, parent, path =>
    match path with
    | [] => .ok parent
    | .index i :: rest =>
      if i ≥ n then .err (.invalidPathElement (.index i))
      else do
        let p ← (W.nextPowerOfTwo (bitsChunkCount n)).lift
        let b ← (W.mul parent p).lift
        let child ← (W.add b (i / 256)).lift
        defaultComputeGeneralizedIndex child rest
    | elem :: _ => .err (.invalidPathElement elem)
  -- /repo/ssz-rs/src/bitlist.rs:194-217
  | .bitlist n, parent, path =>
    match path with
    | [] => .ok parent
    | .index i :: rest =>
      if i ≥ n then .err (.invalidPathElement (.index i))
      else do
        let twice ← (W.mul parent 2).lift
        let p ← (W.nextPowerOfTwo (bitsChunkCount n)).lift
        let b ← (W.mul twice p).lift
        let child ← (W.add b (i / 256)).lift
        defaultComputeGeneralizedIndex child rest
    | elem :: _ => .err (.invalidPathElement elem)
  -- /repo/ssz-rs/src/union.rs:108-137
  | .option t, parent, path =>
    match path with
    | [] => .ok parent
    | .index i :: rest =>
      if i ≥ 2 then .err (.invalidPathElement (.index i))
      else do
        let child ← (W.mul parent 2).lift
        if i = 0 then
          if rest.isEmpty then .ok child else .err (.invalidPath rest)
        else t.indexW W child rest
    | .selector :: rest =>
      if rest.isEmpty then do
        let twice ← (W.mul parent 2).lift
        (W.add twice 1).lift
      else .err (.invalidPath rest)
    | elem :: _ => .err (.invalidPathElement elem)
  -- /repo/ssz-rs-derive/src/lib.rs:471-478
  | .newtype t, parent, path => t.indexW W parent path
  -- /repo/ssz-rs-derive/src/lib.rs:429-469
  | .container fs, parent, path =>
    match path with
    | [] => .ok parent
    | .field name :: rest => fs.indexW W fs.countW parent rest name 0
    | elem :: _ => .err (.invalidPathElement elem)
  -- /repo/ssz-rs-derive/src/lib.rs:481-544
  | .union vs, parent, path =>
    match path with
    | [] => .ok parent
    | .index i :: rest =>
      if i ≥ vs.countW then .err (.invalidPathElement (.index i))
      else do
        let child ← (W.mul parent 2).lift
        vs.indexW W child rest i
    | .selector :: rest =>
      if rest.isEmpty then do
        let twice ← (W.mul parent 2).lift
        (W.add twice 1).lift
      else .err (.invalidPath rest)
    | elem :: _ => .err (.invalidPathElement elem)

/-- `__ssz_rs_generalized_index_by_field`: /repo/ssz-rs-derive/src/lib.rs:443-466 -/
def Fields.indexW (W : Target) : (fs : Fields) → Nat → Nat → List PathElement → String → Nat →
    Res MerkError Nat
  | .nil, _, _, _, field, _ => .err (.invalidPathElement (.field field))
  | .cons name t rest, total, parent, path, field, i =>
    if field = name then do
      let p ← (W.nextPowerOfTwo total).lift
      let b ← (W.mul parent p).lift
      let child ← (W.add b i).lift
      t.indexW W child path
    else rest.indexW W total parent path field (i + 1)

/-- The arms of `match *i`: /repo/ssz-rs-derive/src/lib.rs:484-515, 525-528 -/
def Variants.indexW (W : Target) : (vs : Variants) → Nat → List PathElement → Nat → Res MerkError Nat
  | .nil, _, _, _ => .panic
  | .unit _, child, rest, 0 => if rest.isEmpty then .ok child else .err (.invalidPath rest)
  | .unit vs, child, rest, i + 1 => vs.indexW W child rest i
  | .data t _, child, rest, 0 => t.indexW W child rest
  | .data _ vs, child, rest, i + 1 => vs.indexW W child rest i

/-- The number of fields, `Self::chunk_count()`: /repo/ssz-rs-derive/src/lib.rs:554-556 -/
def Fields.countW : Fields → Nat
  | .nil => 0
  | .cons _ _ rest => rest.countW + 1

/-- The number of variants: /repo/ssz-rs-derive/src/lib.rs:482, 520 -/
def Variants.countW : Variants → Nat
  | .nil => 0
  | .unit rest => rest.countW + 1
  | .data _ rest => rest.countW + 1

end

/-- `get_index`: /repo/ssz-rs/src/merkleization/proofs.rs:20-22 -/
def getIndexW (W : Target) (i depth : Nat) : Res MerkError Nat := do
  let p ← (W.pow2 depth).lift
  usizeRem i p

/-- `get_subtree_index`: /repo/ssz-rs/src/merkleization/proofs.rs:25-28 -/
def getSubtreeIndexW (W : Target) (i : Nat) : Res MerkError Nat := do
  let depth ← getDepth i
  getIndexW W i depth

/-- The loop of `is_valid_merkle_branch`: /repo/ssz-rs/src/merkleization/proofs.rs:216-225 -/
def branchLoopW (W : Target) (H : Bytes → Node) (index : Nat) :
    Nat → List Node → Node → Res MerkError Node
  | _, [], derived => .ok derived
  | i, node :: rest, derived => do
    let p ← (W.pow2 i).lift
    let q ← usizeDiv index p
    let derived' := if q % 2 ≠ 0 then H (node.1 ++ derived.1) else H (derived.1 ++ node.1)
    branchLoopW W H index (i + 1) rest derived'

/-- `is_valid_merkle_branch`: /repo/ssz-rs/src/merkleization/proofs.rs:202-232 -/
def isValidMerkleBranchW (W : Target) (H : Bytes → Node) (leaf : Node) (branch : List Node)
    (depth index : Nat) (root : Node) : Res MerkError Unit :=
  if branch.length ≠ depth then .err .invalidProof
  else do
    let derived ← branchLoopW W H index 0 branch leaf
    if derived = root then .ok () else .err .invalidProof

/-- `Proof::verify`: /repo/ssz-rs/src/merkleization/proofs.rs:183-199 -/
def Proof.verifyW (W : Target) (H : Bytes → Node) (p : Proof) (root : Node) : Res MerkError Unit := do
  let depth ← getDepth p.index
  let index ← getSubtreeIndexW W p.index
  isValidMerkleBranchW W H p.leaf p.branch depth index root

/-- `get_bit`: /repo/ssz-rs/src/merkleization/generalized_index.rs:97-99 -/
def getBitW (W : Target) (i position : Nat) : Calc Bool :=
  if position < W.bits then .ok (decide (i &&& (1 <<< position) > 0))
  else if W.debug then .panic else .ok (decide (i &&& (1 <<< (position % W.bits)) > 0))

/-- The loop of `calculate_merkle_root`: /repo/ssz-rs/src/merkleization/multiproofs.rs:60-69 -/
def merkleRootLoopW (W : Target) (H : Bytes → Node) (index : Nat) :
    Nat → List Node → Node → Res MerkError Node
  | _, [], result => .ok result
  | i, next :: rest, result => do
    let bit ← (getBitW W index i).lift
    let result' := if bit then H (next.1 ++ result.1) else H (result.1 ++ next.1)
    merkleRootLoopW W H index (i + 1) rest result'

/-- `calculate_merkle_root`: /repo/ssz-rs/src/merkleization/multiproofs.rs:48-71 -/
def calculateMerkleRootW (W : Target) (H : Bytes → Node) (leaf : Node) (proof : List Node)
    (index : Nat) : Res MerkError Node := do
  let pathLength ← getPathLength index
  if pathLength ≠ proof.length then .err .invalidProof
  else merkleRootLoopW W H index 0 proof leaf

/-- `verify_merkle_proof`: /repo/ssz-rs/src/merkleization/multiproofs.rs:73-84 -/
def verifyMerkleProofW (W : Target) (H : Bytes → Node) (leaf : Node) (proof : List Node) (index : Nat)
    (root : Node) : Res MerkError Unit := do
  let r ← calculateMerkleRootW W H leaf proof index
  if r = root then .ok () else .err .invalidProof

end Ssz
