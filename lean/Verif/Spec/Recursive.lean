import Verif.Spec.PartTrees
import Verif.Model.Recursive

/-!
# What SSZ makes of trees

The encodings, generalized indices and Merkle trees of values of a struct that contains a list of values
of the same struct, by recursion over the value or the path.
-/

namespace Ssz.Spec.Tree

variable {α : Type}

/-- The value respects the bounds: that of the list everywhere, and `P` is what the fields `value`
respect. -/
inductive Bounds (P : α → Prop) (n : Nat) : Rose α → Prop where
  | node {a : α} {cs : List (Rose α)} : P a → cs.length ≤ n → (∀ x ∈ cs, Bounds P n x) →
      Bounds P n (.node a cs)

/-- The value respects the bounds and has no more than the given number of levels. -/
def Within (P : α → Prop) (n : Nat) : Nat → Rose α → Prop
  | 0, _ => False
  | k + 1, .node a cs => P a ∧ cs.length ≤ n ∧ Each (Within P n k) cs

mutual

/-- The encoding: that of a struct with the value and the list of the encoded children. -/
def enc (c : Codec α) : Rose α → Bytes
  | .node a cs => assemble [(c.var, c.enc a), (true, assemble (encs c cs))]

/-- The pieces of the list. -/
def encs (c : Codec α) : List (Rose α) → List Piece
  | [] => []
  | x :: xs => (true, enc c x) :: encs c xs

end

mutual

/-- The value decoded from the encoding. -/
def norm (c : Codec α) : Rose α → Rose α
  | .node a cs => .node (c.norm a) (norms c cs)

/-- The same for the list. -/
def norms (c : Codec α) : List (Rose α) → List (Rose α)
  | [] => []
  | x :: xs => norm c x :: norms c xs

end

/-- The codec for trees with no more than `k` levels. -/
def codec (c : Codec α) (n k : Nat) : Codec (Rose α) where
  var := true
  size := 0
  valid := Within c.valid n k
  enc := enc c
  norm := norm c

/-- The generalized index of a path; `w` are the paths in the field `value`. -/
def walk (w : Walk) (n : Nat) : Walk
  | [] => some 1
  | [.field f] =>
    if f = "value" then w.below 2 [] else if f = "children" then some 3 else none
  | .field f :: e :: rest =>
    if f = "value" then w.below 2 (e :: rest)
    else if f = "children" then
      match e with
      | .index i =>
        if i < n then (walk w n rest).map fun g => gcat 3 (gcat (2 * 2 ^ depthFor n + i) g) else none
      | .length => if rest = [] then some 7 else none
      | _ => none
    else none
  | _ :: _ => none

mutual

/-- The Merkle tree; `s` are those of the values. -/
def tree (s : α → MTree) (n : Nat) : Rose α → MTree
  | .node a cs => .node (s a) (.node (full (depthFor n) (trees s n cs)) (numLeaf cs.length))

/-- Those of the children. -/
def trees (s : α → MTree) (n : Nat) : List (Rose α) → List MTree
  | [] => []
  | x :: xs => tree s n x :: trees s n xs

end

/-- What the functions answer that do not descend. -/
structure Static (base : SimpleSerialize (Rose α)) : Prop where
  isVariableSize : base.isVariableSize = true
  sizeHint : base.sizeHint = .ok 0
  isCompositeType : base.isCompositeType = true
  itemLength : base.itemLength = .ok 32
  chunkCount : base.chunkCount = .ok 2
  decoration : base.decoration = fun _ => none

/-- The length of the fixed part of the struct and the offset of an only child. -/
def overhead (c : Codec α) : Nat := (if c.var then 4 else c.size) + 8

end Ssz.Spec.Tree
