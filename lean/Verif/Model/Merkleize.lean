import Verif.Model.SerDe

/-!
# Merkleization

/repo/ssz-rs/src/merkleization/merkleize.rs and /repo/ssz-rs/build.rs. Layers and trees are flat
byte buffers addressed in 32-byte steps, as in the source.
-/

namespace Ssz

/-- `pack`: /repo/ssz-rs/src/merkleization/merkleize.rs:43-53. The loop threads one buffer. -/
def packLoop {α : Type} (T : Serializable α) : List α → Bytes → Res MerkError Bytes
  | [], buffer => .ok buffer
  | v :: vs, buffer =>
    match T.serialize v buffer with
    | (buffer', .ok _) => packLoop T vs buffer'
    | (_, .err e) => .err (.serializationError e)
    | (_, .panic) => .panic

/-- `pack`: /repo/ssz-rs/src/merkleization/merkleize.rs:43-53 -/
def pack {α : Type} (T : Serializable α) (values : List α) : Res MerkError Bytes :=
  (packLoop T values []).map packBytes

/-- `hash_nodes`: /repo/ssz-rs/src/merkleization/merkleize.rs:55-59 (and build.rs:8-12). The hasher
is fed `a` then `b` and reset. -/
def hashNodes (E : Env) (a b : Bytes) : Bytes := (E.sha256 (a ++ b)).1

/-- The loop of `compute_zero_hashes`: /repo/ssz-rs/build.rs:17-22. `steps` counts the remaining
iterations, `i` is the loop variable. -/
def zeroHashesLoop (E : Env) : Nat → Nat → Bytes → Res MerkError Bytes
  | 0, _, buffer => .ok buffer
  | steps + 1, i, buffer => do
    let source ← slice buffer (i * 32) ((i + 1) * 32)
    let buffer' ← copyInto buffer ((i + 1) * 32) ((i + 2) * 32) (hashNodes E source source)
    zeroHashesLoop E steps (i + 1) buffer'

/-- `compute_zero_hashes`, the contents of `CONTEXT.zero_hashes`: /repo/ssz-rs/build.rs:14-24 with
`MAX_MERKLE_TREE_DEPTH = 64`. -/
def computeZeroHashes (E : Env) : Res MerkError Bytes :=
  zeroHashesLoop E 63 0 (List.replicate (64 * 32) 0)

/-- `CONTEXT[index]`: /repo/ssz-rs/src/merkleization/merkleize.rs:68-74 -/
def contextIndex (E : Env) (i : Nat) : Res MerkError Bytes := do
  let zeroHashes ← computeZeroHashes E
  slice zeroHashes (i * 32) ((i + 1) * 32)

/-- The inner loop of `merkleize_chunks_with_virtual_padding`, over the pairs of one layer:
/repo/ssz-rs/src/merkleization/merkleize.rs:121-182. `bound` is `2usize.pow(k)`, `depth` is
`height - k - 1`. The `split_at_mut` borrows of `focus` are written as absolute ranges of `layer`;
the bounds check on `focus` is the one the source performs. -/
def layerLoop (E : Env) (bound lastIndex depth : Nat) (i : Nat) (layer : Bytes) :
    Res MerkError Bytes :=
  if h : i < bound then
    let parentIndex := i / 2
    if i < lastIndex then do
      let _ ← slice layer (parentIndex * 32) ((i + 2) * 32)
      let left ← slice layer (i * 32) ((i + 1) * 32)
      let right ← slice layer ((i + 1) * 32) ((i + 2) * 32)
      let layer' ← copyInto layer (parentIndex * 32) (parentIndex * 32 + 32) (hashNodes E left right)
      layerLoop E bound lastIndex depth (i + 2) layer'
    else if i = lastIndex then do
      let _ ← slice layer (parentIndex * 32) ((i + 1) * 32)
      let left ← slice layer (i * 32) ((i + 1) * 32)
      let right ← contextIndex E depth
      let layer' ← copyInto layer (parentIndex * 32) (parentIndex * 32 + 32) (hashNodes E left right)
      layerLoop E bound lastIndex depth (i + 2) layer'
    else .ok layer
  else .ok layer
termination_by bound - i

/-- The outer loop, `for k in (1..height).rev()`:
/repo/ssz-rs/src/merkleization/merkleize.rs:119-184. -/
def layersLoop (E : Env) (height : Nat) : Nat → Nat → Bytes → Res MerkError Bytes
  | 0, _, layer => .ok layer
  | k + 1, lastIndex, layer => do
    let bound ← (E.pow2 (k + 1)).lift
    let layer' ← layerLoop E bound lastIndex (height - (k + 1) - 1) 0 layer
    layersLoop E height k (lastIndex / 2) layer'

/-- `merkleize_chunks_with_virtual_padding`:
/repo/ssz-rs/src/merkleization/merkleize.rs:96-191 -/
def merkleizeChunksWithVirtualPadding (E : Env) (chunks : Bytes) (leafCount : Nat) :
    Res MerkError Node := do
  let _ ← (E.debugAssert (chunks.length % 32 == 0)).lift
  let _ ← if E.debug then
      (do let p ← (E.nextPowerOfTwo leafCount).lift
          (E.debugAssert (p == leafCount)).lift : Res MerkError Unit)
    else .ok ()
  let _ ← (E.debugAssert (trailingZeros leafCount < 64)).lift
  let chunkCount := chunks.length / 32
  let height := trailingZeros leafCount + 1
  if chunkCount = 0 then
    let depth := height - 1
    let root ← contextIndex E depth
    toNode root
  else
    let layer ← layersLoop E height (height - 1) (chunkCount - 1) chunks
    let root ← slice layer 0 32
    toNode root

/-- `merkleize`: /repo/ssz-rs/src/merkleization/merkleize.rs:195-206 -/
def merkleize (E : Env) (chunks : Bytes) (limit : Option Nat) : Res MerkError Node := do
  let _ ← (E.debugAssert (chunks.length % 32 == 0)).lift
  let chunkCount := chunks.length / 32
  let leafCount ← (E.nextPowerOfTwo chunkCount).lift
  match limit with
  | none => merkleizeChunksWithVirtualPadding E chunks leafCount
  | some limit =>
    if limit < chunkCount then .err (.inputExceedsLimit limit)
    else
      let leafCount' ← (E.nextPowerOfTwo limit).lift
      merkleizeChunksWithVirtualPadding E chunks leafCount'

/-- `usize::hash_tree_root`, used on lengths and selectors (always less than `2^64`). -/
def usizeHashTreeRoot (n : Nat) : Res MerkError Node :=
  (SimpleSerialize.uint .usize).hashTreeRoot (BitVec.ofNat 64 n)

/-- `mix_in_decoration`, `mix_in_length`, `mix_in_selector`:
/repo/ssz-rs/src/merkleization/merkleize.rs:208-223. `expect` turns an error into a panic. -/
def mixInDecoration (E : Env) (root : Node) (decoration : Nat) : Res MerkError Node :=
  match usizeHashTreeRoot decoration with
  | .ok data => toNode (hashNodes E root.1 data.1)
  | .err _ => .panic
  | .panic => .panic

/-- The loop of `elements_to_chunks`: /repo/ssz-rs/src/merkleization/merkleize.rs:230-234 -/
def elementsToChunksLoop {α : Type} (hashTreeRoot : α → Res MerkError Node) :
    Nat → List α → Bytes → Res MerkError Bytes
  | _, [], chunks => .ok chunks
  | i, x :: xs, chunks => do
    let chunk ← hashTreeRoot x
    let chunks' ← copyInto chunks (i * 32) ((i + 1) * 32) chunk.1
    elementsToChunksLoop hashTreeRoot (i + 1) xs chunks'

/-- `elements_to_chunks`: /repo/ssz-rs/src/merkleization/merkleize.rs:225-236 -/
def elementsToChunks {α : Type} (E : Env) (hashTreeRoot : α → Res MerkError Node)
    (elements : List α) (count : Nat) : Res MerkError Bytes := do
  let size ← (E.mul count 32).lift
  let chunks ← zeros size
  elementsToChunksLoop hashTreeRoot 0 elements chunks

/-- `Tree`: /repo/ssz-rs/src/merkleization/merkleize.rs:238. A flat buffer of nodes in
breadth-first order; node `g` (a generalized index) occupies bytes `(g-1)*32 .. g*32`. -/
abbrev Tree := Bytes

/-- `tree[g]`: /repo/ssz-rs/src/merkleization/merkleize.rs:261-269 -/
def Tree.get (E : Env) (tree : Tree) (g : Nat) : Res MerkError Bytes := do
  let g1 ← (E.sub g 1).lift
  let start ← (E.mul g1 32).lift
  let stop ← (E.mul g 32).lift
  slice tree start stop

/-- `tree[g].copy_from_slice(src)`: /repo/ssz-rs/src/merkleization/merkleize.rs:271-277 -/
def Tree.set (E : Env) (tree : Tree) (g : Nat) (src : Bytes) : Res MerkError Tree := do
  let g1 ← (E.sub g 1).lift
  let start ← (E.mul g1 32).lift
  let stop ← (E.mul g 32).lift
  copyInto tree start stop src

/-- `Tree::mix_in_decoration`: /repo/ssz-rs/src/merkleization/merkleize.rs:241-253 -/
def Tree.mixInDecoration (E : Env) (tree : Tree) (decoration : Nat) : Res MerkError Tree := do
  let _ ← Tree.get E tree 3
  let node ← usizeHashTreeRoot decoration
  let tree1 ← Tree.set E tree 3 node.1
  let inner ← Tree.get E tree1 2
  let deco ← Tree.get E tree1 3
  Tree.set E tree1 1 (hashNodes E inner deco)

/-- The loop `for i in (1..node_count).rev().step_by(2)` of `compute_merkle_tree`:
/repo/ssz-rs/src/merkleization/merkleize.rs:308-324. The index runs over `node_count - 1`,
`node_count - 3`, ... while it is at least 1. -/
def treeLoop (E : Env) : Nat → Bytes → Res MerkError Bytes
  | 0, buffer => .ok buffer
  | i + 1, buffer => do
    let parentIndex := i / 2
    let _ ← slice buffer (parentIndex * 32) ((i + 2) * 32)
    let left ← slice buffer (i * 32) ((i + 1) * 32)
    let right ← slice buffer ((i + 1) * 32) ((i + 2) * 32)
    let buffer' ← copyInto buffer (parentIndex * 32) (parentIndex * 32 + 32) (hashNodes E left right)
    treeLoop E (i - 1) buffer'

/-- `compute_merkle_tree`: /repo/ssz-rs/src/merkleization/merkleize.rs:290-326 -/
def computeMerkleTree (E : Env) (chunks : Bytes) (leafCount : Nat) : Res MerkError Tree := do
  let _ ← (E.debugAssert (chunks.length % 32 == 0)).lift
  let _ ← if E.debug then
      (do let p ← (E.nextPowerOfTwo leafCount).lift
          (E.debugAssert (p == leafCount)).lift : Res MerkError Unit)
    else .ok ()
  let twice ← (E.mul 2 leafCount).lift
  let nodeCount ← (E.sub twice 1).lift
  let interiorCount ← (E.sub nodeCount leafCount).lift
  let leafStart ← (E.mul interiorCount 32).lift
  let size ← (E.mul nodeCount 32).lift
  let buffer ← zeros size
  let stop ← (E.add leafStart chunks.length).lift
  let buffer' ← copyInto buffer leafStart stop chunks
  treeLoop E (nodeCount - 1) buffer'

end Ssz
