import Verif.Spec.Index
import Verif.Spec.Branch

/-!
# Specification of what the prover answers at any generalized index

A value is proved one layer at a time. A layer is the tree over the direct parts of a value: the
elements of a collection or its chunks, the fields of a struct, the payload of an enum. An index that
ends in the layer is answered from the layer; an index that goes below a leaf of the layer is answered
by the part there, and the branch is continued in the layer.

The layer of a collection has as many leaves as `chunk_count` says. This is the Merkle tree of the
value for the types in `Flat`; for collections of arrays of packed elements it may be too large or too
small. Next to a length or selector the layer has a second half, which no path leads to.
-/

namespace Ssz.Spec

/-- The tree over the direct parts of a value. -/
structure Layer where
  /-- the depth of the tree over the parts -/
  depth : Nat
  /-- the parts -/
  parts : List MTree
  /-- the length or selector that is mixed in -/
  mixed : Option Nat

namespace Layer

/-- The depth of the leaves, counted from the root of the layer. -/
def height (l : Layer) : Nat := l.depth + if l.mixed.isSome then 1 else 0

/-- The tree of the layer. -/
def tree (l : Layer) : MTree :=
  match l.mixed with
  | none => full l.depth l.parts
  | some m => .node (full l.depth l.parts) (numLeaf m)

/-- There is room for all parts. -/
def Fits (l : Layer) : Prop := l.parts.length ≤ 2 ^ l.height

instance (l : Layer) : Decidable l.Fits := inferInstanceAs (Decidable (_ ≤ _))

/-- The node of the layer at an index. Below a length or selector are the nodes of the second half of
the tree over the parts. -/
def node (H : Bytes → Node) (l : Layer) (g : Nat) : Node :=
  match l.mixed with
  | none => ((full l.depth l.parts).nodeAt H g).getD zeroNode
  | some m =>
    if g = 1 then l.tree.root H
    else if g = 3 then (numLeaf m).root H
    else ((full (l.depth + 1) l.parts).nodeAt H g).getD zeroNode

/-- The siblings on the way from an index to the root of the layer. -/
def branch (H : Bytes → Node) (l : Layer) (g : Nat) : List Node :=
  if g ≤ 1 then [] else l.node H (other g) :: l.branch H (g / 2)
termination_by g

/-- The answer at an index: a leaf and a branch, an error, or a panic. `inner q b` is the answer of
the part at leaf `q` at index `b`. -/
def answer (H : Bytes → Node) (l : Layer) (inner : Nat → Nat → Res MerkError (Node × List Node))
    (g : Nat) : Res MerkError (Node × List Node) :=
  if g = 0 then .err .invalidGeneralizedIndex
  else if Nat.log2 g ≤ l.height then
    if l.Fits then .ok (l.node H g, l.branch H g) else .panic
  else
    match inner (g / 2 ^ (Nat.log2 g - l.height) - 2 ^ l.height)
        (2 ^ (Nat.log2 g - l.height) + g % 2 ^ (Nat.log2 g - l.height)) with
    | .ok (leaf, below) =>
      if l.Fits then .ok (leaf, below ++ l.branch H (g / 2 ^ (Nat.log2 g - l.height))) else .panic
    | .err e => .err e
    | .panic => .panic

end Layer

/-- The layer of a value without parts. -/
def leafLayer (n : Node) : Layer := ⟨0, [.leaf n], none⟩

/-- The layer of an enum value: the payload, next to the position of the variant. -/
def layerV : (vs : Variants) → Nat → vs.Val → Layer
  | .nil, _, v => Empty.elim v
  | .unit _, i, .inl _ => ⟨0, [.leaf zeroNode], some i⟩
  | .unit rest, i, .inr v => layerV rest (i + 1) v
  | .data t _, i, .inl v => ⟨0, [treeBy packs t v], some i⟩
  | .data _ rest, i, .inr v => layerV rest (i + 1) v

/-- The trees over which the tree of a collection is built: chunks or elements. -/
def collParts (t : Ty) (vs : List t.Val) : List MTree :=
  if packs t then leaves (vs.flatMap (enc t)) else vs.map (treeBy packs t)

/-- The layer of a value. -/
def layer : (t : Ty) → t.Val → Layer
  | .uint u, v => leafLayer (pad32 (enc (.uint u) v))
  | .u256, v => leafLayer (pad32 (enc .u256 v))
  | .bool, v => leafLayer (pad32 (enc .bool v))
  | .node, v => leafLayer v
  | .array t n, v => ⟨depthFor (itemCount prims t n), collParts t v.1, none⟩
  | .vector t n, v => ⟨depthFor (itemCount prims t n), collParts t v, none⟩
  | .list t n, v => ⟨depthFor (itemCount prims t n), collParts t v, some (List.length v)⟩
  | .bitvector n, v => ⟨depthFor ((n + 255) / 256), leaves (packBits v.live), none⟩
  | .bitlist n, v => ⟨depthFor ((n + 255) / 256), leaves (packBits v.live), some v.live.length⟩
  | .option t, v => match (v : Option t.Val) with
    | none => ⟨0, [.leaf zeroNode], some 0⟩
    | some x => ⟨0, [treeBy packs t x], some 1⟩
  | .newtype t, v => layer t v
  | .container fs, v => ⟨depthFor (countF fs), treesByF packs fs v, none⟩
  | .union vs, v => layerV vs 0 v

/-- The answer of a value without parts. -/
def leafAnswer (H : Bytes → Node) (n : Node) (g : Nat) : Res MerkError (Node × List Node) :=
  (leafLayer n).answer H (fun _ _ => .err .noInnerElement) g

/-- The answer of the element of a collection of at most `n` elements. -/
def elemAnswer {α : Type} (n : Nat) (xs : List α) (f : α → Nat → Res MerkError (Node × List Node))
    (q b : Nat) : Res MerkError (Node × List Node) :=
  if n ≤ q then .err .invalidInnerIndex
  else
    match xs[q]? with
    | some x => f x b
    | none => .panic

mutual

/-- The answer of the direct part of a value at a leaf `q` of its layer, at an index `b` below the
leaf. -/
def inner (H : Bytes → Node) : (t : Ty) → t.Val → Nat → Nat → Res MerkError (Node × List Node)
  | .uint _, _, _, _ => .err .noInnerElement
  | .u256, _, _, _ => .err .noInnerElement
  | .bool, _, _, _ => .err .noInnerElement
  | .node, _, _, _ => .err .noInnerElement
  | .array t n, v, q, b =>
    elemAnswer n v.1 (fun x => (layer t x).answer H (inner H t x)) q b
  | .vector t n, v, q, b =>
    elemAnswer (α := t.Val) n v (fun x => (layer t x).answer H (inner H t x)) q b
  | .list t n, v, q, b =>
    elemAnswer (α := t.Val) n v (fun x => (layer t x).answer H (inner H t x)) q b
  | .bitvector _, _, _, _ => .err .noInnerElement
  | .bitlist _, _, _, _ => .err .noInnerElement
  | .option t, v, q, b =>
    if 2 ≤ q then .err .invalidInnerIndex
    else match (v : Option t.Val) with
      | none => leafAnswer H zeroNode b
      | some x => (layer t x).answer H (inner H t x) b
  | .newtype t, v, q, b => inner H t v q b
  | .container fs, v, q, b => innerF H fs v q b
  | .union vs, v, q, b => if countV vs ≤ q then .err .invalidInnerIndex else innerV H vs v b

/-- `inner` for the fields of a struct. -/
def innerF (H : Bytes → Node) : (fs : Fields) → fs.Val → Nat → Nat → Res MerkError (Node × List Node)
  | .nil, _, _, _ => .err .invalidInnerIndex
  | .cons _ t _, v, 0, b => (layer t v.1).answer H (inner H t v.1) b
  | .cons _ _ rest, v, q + 1, b => innerF H rest v.2 q b

/-- `inner` for the payload of an enum value. -/
def innerV (H : Bytes → Node) : (vs : Variants) → vs.Val → Nat → Res MerkError (Node × List Node)
  | .nil, v, _ => Empty.elim v
  | .unit _, .inl _, b => leafAnswer H zeroNode b
  | .unit rest, .inr v, b => innerV H rest v b
  | .data t _, .inl v, b => (layer t v).answer H (inner H t v) b
  | .data _ rest, .inr v, b => innerV H rest v b

end

/-- The answer of a value at an index: a leaf and a branch, an error, or a panic. -/
def answer (H : Bytes → Node) (t : Ty) (v : t.Val) (g : Nat) : Res MerkError (Node × List Node) :=
  (layer t v).answer H (inner H t v) g

/-- The index is below a length or selector of the tree, that is below a leaf with a number. -/
def BelowNumber (s : MTree) (g : Nat) : Prop :=
  ∃ a b m, 1 ≤ a ∧ 1 < b ∧ m < 2 ^ 64 ∧ s.sub a = some (numLeaf m) ∧ g = gcat a b

/-! ## Side conditions -/

/-- The depth of the layer is the depth of the tree of which `hash_tree_root` is the root. -/
def SameDepth : Ty → Prop
  | .array t n => depthFor (itemCount prims t n) = depthFor (chunkCountBy packs t n)
  | .vector t n => depthFor (itemCount prims t n) = depthFor (chunkCountBy packs t n)
  | .list t n => depthFor (itemCount prims t n) = depthFor (chunkCountBy packs t n)
  | .newtype t => SameDepth t
  | _ => True

mutual

/-- No part of the type is a collection whose elements are arrays of packed values with more than 32
bytes: `chunk_count` makes room for all chunks. -/
def Narrow : Ty → Prop
  | .uint _ => True
  | .u256 => True
  | .bool => True
  | .node => True
  | .array t _ => (packs t = true → fixedLen t ≤ itemLen prims t) ∧ Narrow t
  | .vector t _ => (packs t = true → fixedLen t ≤ itemLen prims t) ∧ Narrow t
  | .list t _ => (packs t = true → fixedLen t ≤ itemLen prims t) ∧ Narrow t
  | .bitvector _ => True
  | .bitlist _ => True
  | .option t => Narrow t
  | .newtype t => Narrow t
  | .container fs => NarrowF fs
  | .union vs => NarrowV vs

/-- `Narrow` for the fields of a struct. -/
def NarrowF : Fields → Prop
  | .nil => True
  | .cons _ t rest => Narrow t ∧ NarrowF rest

/-- `Narrow` for the variants of an enum. -/
def NarrowV : Variants → Prop
  | .nil => True
  | .unit rest => NarrowV rest
  | .data t rest => Narrow t ∧ NarrowV rest

end

end Ssz.Spec
