import Verif.Spec.Encoding
import Mathlib.Data.Nat.Log

/-!
# Specification of Merkle trees, hash tree roots and generalized indices

Written from the SSZ specification (consensus-specs, `ssz/simple-serialize.md` and
`ssz/merkle-proofs.md`). `H` is the hash function.
-/

namespace Ssz.Spec

/-- A binary Merkle tree with 32-byte leaves. -/
inductive MTree where
  | leaf (n : Node)
  | node (l r : MTree)

/-- The root of a tree. -/
def MTree.root (H : Bytes → Node) : MTree → Node
  | .leaf n => n
  | .node l r => H ((l.root H).1 ++ (r.root H).1)

/-- The leaves of a tree, from left to right. -/
def MTree.leafNodes : MTree → List Node
  | .leaf n => [n]
  | .node l r => l.leafNodes ++ r.leafNodes

/-- All leaves of the tree have depth `d`. -/
def MTree.Perfect : Nat → MTree → Prop
  | 0, t => ∃ n, t = .leaf n
  | d + 1, t => ∃ l r, t = .node l r ∧ l.Perfect d ∧ r.Perfect d

/-- The strings hashed in computing the root. -/
def MTree.inputs (H : Bytes → Node) : MTree → List Bytes
  | .leaf _ => []
  | .node l r => ((l.root H).1 ++ (r.root H).1) :: (l.inputs H ++ r.inputs H)

/-- Two different strings with the same hash, one hashed in computing the root of `s`, the other in
computing the root of `t`. -/
def Collide (H : Bytes → Node) (s t : MTree) : Prop :=
  ∃ x ∈ s.inputs H, ∃ y ∈ t.inputs H, x ≠ y ∧ H x = H y

/-- The subtree at a generalized index: the root has index 1, the children of `g` have indices
`2 * g` and `2 * g + 1`. -/
def MTree.sub (t : MTree) (g : Nat) : Option MTree :=
  if g ≤ 1 then (if g = 1 then some t else none)
  else
    match t.sub (g / 2) with
    | some (.node l r) => some (if g % 2 = 0 then l else r)
    | _ => none
termination_by g

/-- The full tree of depth `d` over the given subtrees, completed by zero leaves. -/
def full : Nat → List MTree → MTree
  | 0, ts => ts.headD (.leaf zeroNode)
  | d + 1, ts => .node (full d (ts.take (2 ^ d))) (full d (ts.drop (2 ^ d)))

/-- The least depth at which a full tree has at least `n` leaves. -/
def depthFor (n : Nat) : Nat := Nat.clog 2 n

/-- The first 32 bytes, completed by zeros. -/
def pad32 (b : Bytes) : Node := ⟨(b ++ List.replicate 32 0).take 32, by simp⟩

/-- Bytes cut into 32-byte chunks, the last one completed by zeros. -/
def chunkify (b : Bytes) : List Node :=
  (List.range ((b.length + 31) / 32)).map fun i => pad32 (b.drop (32 * i))

/-- Chunks as leaves. -/
def leaves (b : Bytes) : List MTree := (chunkify b).map .leaf

/-- A number as a 32-byte leaf. -/
def numLeaf (n : Nat) : MTree := .leaf (pad32 (leBytes 32 n))

/-- Basic types: integers and booleans. -/
def isBasic : Ty → Bool
  | .uint _ => true
  | .u256 => true
  | .bool => true
  | .newtype t => isBasic t
  | _ => false

/-- Number of fields. -/
def countF : Fields → Nat
  | .nil => 0
  | .cons _ _ rest => countF rest + 1

section

/-! The Merkle tree of a value, for a given set of element types that are packed into chunks when
they occur as elements of an array, vector or list. SSZ packs the basic types. -/

variable (pk : Ty → Bool)

/-- Number of chunks of an array, vector or list with `n` elements. -/
def chunkCountBy (t : Ty) (n : Nat) : Nat :=
  if pk t then (n * fixedLen t + 31) / 32 else n

mutual

/-- The Merkle tree of a value. -/
def treeBy : (t : Ty) → t.Val → MTree
  | .uint u, v => .leaf (pad32 (enc (.uint u) v))
  | .u256, v => .leaf (pad32 (enc .u256 v))
  | .bool, v => .leaf (pad32 (enc .bool v))
  | .node, v => .leaf v
  | .array t n, v => full (depthFor (chunkCountBy pk t n))
      (if pk t then leaves (v.1.flatMap (enc t)) else v.1.map (treeBy t))
  | .vector t n, v => full (depthFor (chunkCountBy pk t n))
      (if pk t then leaves (List.flatMap (enc t) v) else List.map (treeBy t) v)
  | .list t n, v => .node
      (full (depthFor (chunkCountBy pk t n))
        (if pk t then leaves (List.flatMap (enc t) v) else List.map (treeBy t) v))
      (numLeaf (List.length v))
  | .bitvector n, v => full (depthFor ((n + 255) / 256)) (leaves (packBits v.live))
  | .bitlist n, v => .node (full (depthFor ((n + 255) / 256)) (leaves (packBits v.live)))
      (numLeaf v.live.length)
  | .option t, v => match (v : Option t.Val) with
    | none => .node (.leaf zeroNode) (numLeaf 0)
    | some x => .node (treeBy t x) (numLeaf 1)
  | .newtype t, v => treeBy t v
  | .container fs, v => full (depthFor (countF fs)) (treesByF fs v)
  | .union vs, v => treeByV vs 0 v

/-- The trees of the fields of a struct. -/
def treesByF : (fs : Fields) → fs.Val → List MTree
  | .nil, _ => []
  | .cons _ t rest, v => treeBy t v.1 :: treesByF rest v.2

/-- The tree of an enum value: the tree of the payload next to the position of the variant. -/
def treeByV : (vs : Variants) → Nat → vs.Val → MTree
  | .nil, _, v => Empty.elim v
  | .unit _, i, .inl _ => .node (.leaf zeroNode) (numLeaf i)
  | .unit rest, i, .inr v => treeByV rest (i + 1) v
  | .data t _, i, .inl v => .node (treeBy t v) (numLeaf i)
  | .data _ rest, i, .inr v => treeByV rest (i + 1) v

end

end

/-- The Merkle tree of a value in the SSZ specification. -/
def tree (t : Ty) (v : t.Val) : MTree := treeBy isBasic t v

/-- `hash_tree_root` of the SSZ specification. -/
def htr (H : Bytes → Node) (t : Ty) (v : t.Val) : Node := (tree t v).root H

/-! ## Side conditions -/

/-- Types whose values the implementation packs when they are elements of a collection: basic types
(but not newtypes of them), `Node`, and arrays of such. -/
def packs : Ty → Bool
  | .uint _ => true
  | .u256 => true
  | .bool => true
  | .node => true
  | .array t _ => packs t
  | _ => false

/-- Types whose values are one chunk, so that it makes no difference whether they are packed: `Node`,
arrays of basic types with 32 bytes in all, and arrays of one such element. -/
def oneChunk : Ty → Bool
  | .node => true
  | .array t n => (packs t && isBasic t && fixedLen t * n == 32) || (oneChunk t && n == 1)
  | _ => false

/-- Element types on which the implementation agrees with the specification about packing: all but
newtypes of basic types, and arrays of packed types that are not one chunk. -/
def elemStd (t : Ty) : Bool := oneChunk t || packs t == isBasic t

mutual

/-- Every element type inside the type is standard. -/
def Std : Ty → Prop
  | .uint _ => True
  | .u256 => True
  | .bool => True
  | .node => True
  | .array t _ => elemStd t = true ∧ Std t
  | .vector t _ => elemStd t = true ∧ Std t
  | .list t _ => elemStd t = true ∧ Std t
  | .bitvector _ => True
  | .bitlist _ => True
  | .option t => Std t
  | .newtype t => Std t
  | .container fs => StdF fs
  | .union vs => StdV vs

/-- `Std` for the fields of a struct. -/
def StdF : Fields → Prop
  | .nil => True
  | .cons _ t rest => Std t ∧ StdF rest

/-- `Std` for the variants of an enum. -/
def StdV : Variants → Prop
  | .nil => True
  | .unit rest => StdV rest
  | .data t rest => Std t ∧ StdV rest

end

mutual

/-- The bounds of all parts of the type are such that the trees have depth at most 63, the byte
sizes computed for them fit in 64 bits, and no packed element (an array) has `2^32` or more bytes. -/
def Bounded : Ty → Prop
  | .uint _ => True
  | .u256 => True
  | .bool => True
  | .node => True
  | .array t _ => Bounded t ∧ (packs t = true → fixedLen t < 2 ^ 32)
  | .vector t _ => Bounded t ∧ (packs t = true → fixedLen t < 2 ^ 32)
  | .list t n => Bounded t ∧ (packs t = true → fixedLen t < 2 ^ 32) ∧ if packs t then n * fixedLen t < 2 ^ 64 else n ≤ 2 ^ 63
  | .bitvector n => n < 2 ^ 64
  | .bitlist n => n < 2 ^ 64
  | .option t => Bounded t
  | .newtype t => Bounded t
  | .container fs => BoundedF fs ∧ countF fs ≤ 2 ^ 58
  | .union vs => BoundedV vs

/-- `Bounded` for the fields of a struct. -/
def BoundedF : Fields → Prop
  | .nil => True
  | .cons _ t rest => Bounded t ∧ BoundedF rest

/-- `Bounded` for the variants of an enum. -/
def BoundedV : Variants → Prop
  | .nil => True
  | .unit rest => BoundedV rest
  | .data t rest => Bounded t ∧ BoundedV rest

end

/-- A collection of `n` elements that fits in memory. -/
def held (t : Ty) (n : Nat) : Prop := n < 2 ^ 58 ∧ (packs t = true → n * fixedLen t < 2 ^ 63)

mutual

/-- Every collection in the value has fewer than `2^58` elements, those of packed elements fewer
than `2^63` bytes, and bit sequences fewer than `2^64` bits: no 64-bit machine has the memory for
more. -/
def InMemory : (t : Ty) → t.Val → Prop
  | .uint _, _ => True
  | .u256, _ => True
  | .bool, _ => True
  | .node, _ => True
  | .array t _, v => held t v.1.length ∧ Each (InMemory t) v.1
  | .vector t _, v => held t (List.length v) ∧ Each (InMemory t) v
  | .list t _, v => held t (List.length v) ∧ Each (InMemory t) v
  | .bitvector _, v => v.live.length < 2 ^ 64
  | .bitlist _, v => v.live.length < 2 ^ 64
  | .option t, v => ∀ x : t.Val, v = some x → InMemory t x
  | .newtype t, v => InMemory t v
  | .container fs, v => InMemoryF fs v
  | .union vs, v => InMemoryV vs v

/-- `InMemory` for the fields of a struct. -/
def InMemoryF : (fs : Fields) → fs.Val → Prop
  | .nil, _ => True
  | .cons _ t rest, v => InMemory t v.1 ∧ InMemoryF rest v.2

/-- `InMemory` for the payload of an enum value. -/
def InMemoryV : (vs : Variants) → vs.Val → Prop
  | .nil, _ => True
  | .unit _, .inl _ => True
  | .unit rest, .inr v => InMemoryV rest v
  | .data t _, .inl v => InMemory t v
  | .data _ rest, .inr v => InMemoryV rest v

end

end Ssz.Spec
