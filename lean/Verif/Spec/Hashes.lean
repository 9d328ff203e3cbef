import Verif.Spec.Merkle
import Verif.Spec.Writes

/-!
# What the root of a value built from parts of any kind is

Anyone can implement `HashTreeRoot` for a type of their own, and such code may fail or crash. The root of a
value is given here by the outcomes of its parts.
-/

namespace Ssz.Spec

/-- The roots of the parts. The first part that fails decides. -/
def collected : List (Res MerkError Node) → Res MerkError (List Node)
  | [] => .ok []
  | .ok r :: rest =>
    match collected rest with
    | .ok rs => .ok (r :: rs)
    | .err e => .err e
    | .panic => .panic
  | .err e :: _ => .err e
  | .panic :: _ => .panic

/-- The bytes of parts that are packed. The first part that fails decides. -/
def packed : List Written → Res MerkError Bytes
  | [] => .ok []
  | .ok b _ :: rest =>
    match packed rest with
    | .ok bs => .ok (b ++ bs)
    | .err e => .err e
    | .panic => .panic
  | .err _ e :: _ => .err (.serializationError e)
  | .crash :: _ => .panic

/-- The root of the tree over these chunks. -/
def overChunks (H : Bytes → Node) : Res MerkError (List Node) → Res MerkError Node
  | .ok ns => .ok ((full (depthFor ns.length) (ns.map .leaf)).root H)
  | .err e => .err e
  | .panic => .panic

/-- The root of the tree over these chunks, with room for `limit` of them and a length mixed in. -/
def overLimited (H : Bytes → Node) (limit length : Nat) : Res MerkError (List Node) → Res MerkError Node
  | .ok ns =>
    if ns.length ≤ limit then
      .ok ((MTree.node (full (depthFor limit) (ns.map .leaf)) (numLeaf length)).root H)
    else .err (.inputExceedsLimit limit)
  | .err e => .err e
  | .panic => .panic

/-- The chunks of these bytes. -/
def inChunks : Res MerkError Bytes → Res MerkError (List Node)
  | .ok b => .ok (chunkify b)
  | .err e => .err e
  | .panic => .panic

/-- The root of a payload with a selector mixed in. -/
def underSelector (H : Bytes → Node) (i : Nat) : Res MerkError Node → Res MerkError Node
  | .ok r => .ok ((MTree.node (.leaf r) (numLeaf i)).root H)
  | .err e => .err e
  | .panic => .panic

/-- The outcomes of the fields of a struct. -/
def partRoots : {α : Type} → FieldImpls α → α → List (Res MerkError Node)
  | _, .nil, _ => []
  | _, .cons _ T rest, v => T.hashTreeRoot v.1 :: partRoots rest v.2

/-- The position of the variant of an enum, and the outcome of its payload. -/
def variantRoot : {α : Type} → PayloadImpls α → α → Nat × Res MerkError Node
  | _, .nil, v => v.elim
  | _, .cons T _, .inl x => (0, T.hashTreeRoot x)
  | _, .cons _ rest, .inr v => ((variantRoot rest v).1 + 1, (variantRoot rest v).2)

end Ssz.Spec
