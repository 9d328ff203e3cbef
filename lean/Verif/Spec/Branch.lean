import Verif.Spec.Merkle

/-!
# Specification of Merkle branches

Written from the SSZ specification (consensus-specs, `ssz/merkle-proofs.md`).
-/

namespace Ssz.Spec

/-- The root that a node at generalized index `g` and its branch, listed from the bottom up,
determine. -/
def climb (H : Bytes → Node) : Nat → Node → List Node → Node
  | _, n, [] => n
  | g, n, b :: bs => climb H (g / 2) (if g % 2 = 0 then H (n.1 ++ b.1) else H (b.1 ++ n.1)) bs

/-- The strings hashed in computing that root. -/
def climbInputs (H : Bytes → Node) : Nat → Node → List Node → List Bytes
  | _, _, [] => []
  | g, n, b :: bs =>
    let s := if g % 2 = 0 then n.1 ++ b.1 else b.1 ++ n.1
    s :: climbInputs H (g / 2) (H s) bs

/-- The node of a tree at a generalized index. -/
def MTree.nodeAt (H : Bytes → Node) (t : MTree) (g : Nat) : Option Node :=
  (t.sub g).map (·.root H)

/-- The other child of the parent. -/
def other (g : Nat) : Nat := if g % 2 = 0 then g + 1 else g - 1

/-- The branch of the node at generalized index `g`: the siblings of the nodes on its path to the
root, from the bottom up. -/
def MTree.branchAt (H : Bytes → Node) (t : MTree) (g : Nat) : List Node :=
  if g ≤ 1 then [] else (t.nodeAt H (other g)).toList ++ t.branchAt H (g / 2)
termination_by g

/-- Two different strings with the same hash, one hashed in computing the root of the tree, the
other in computing the root from the given node and branch. -/
def CollideBranch (H : Bytes → Node) (t : MTree) (g : Nat) (n : Node) (branch : List Node) : Prop :=
  ∃ x ∈ t.inputs H, ∃ y ∈ climbInputs H g n branch, x ≠ y ∧ H x = H y

/-! ## Multiproofs -/

/-- `a` is `b` or an ancestor of `b`. -/
def AncestorEq (a b : Nat) : Prop := ∃ k, b / 2 ^ k = a

/-- Distinct positions, none an ancestor of another. -/
def Antichain (is : List Nat) : Prop := is.Pairwise fun a b => ¬ AncestorEq a b ∧ ¬ AncestorEq b a

/-- The node claimed for an index. -/
def claimed (indices : List Nat) (nodes : List Node) (g : Nat) : Option Node :=
  (indices.zip nodes).lookup g

/-- The node claimed last for an index. -/
def lastClaimed (indices : List Nat) (nodes : List Node) (g : Nat) : Option Node :=
  (indices.zip nodes).reverse.lookup g

/-- The tree that an assignment of nodes to generalized indices determines below an index: an
assigned index is a leaf, any other has the trees of its children. -/
inductive Claims (f : Nat → Option Node) : Nat → MTree → Prop
  | leaf {g : Nat} {n : Node} (h : f g = some n) : Claims f g (.leaf n)
  | node {g : Nat} {l r : MTree} (h : f g = none) (hl : Claims f (2 * g) l)
      (hr : Claims f (2 * g + 1) r) : Claims f g (.node l r)

end Ssz.Spec
