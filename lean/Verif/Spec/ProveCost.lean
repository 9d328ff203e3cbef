import Verif.Spec.Cost
import Verif.Spec.Prover

/-!
# How much there is to hash for a root and for a proof
-/

namespace Ssz.Spec

mutual

/-- The number of pairs of nodes that have to be hashed for the root of a value: in each tree the inner
nodes with data below them, and one for each length or selector. -/
def rootCost : (t : Ty) → t.Val → Nat
  | .uint _, _ => 0
  | .u256, _ => 0
  | .bool, _ => 0
  | .node, _ => 0
  | .array t n, v => (if packs t then 0 else (v.1.map fun x => rootCost t x).sum) +
      above (depthFor (chunkCountBy packs t n)) (chunkCountBy packs t n)
  | .vector t n, v => (if packs t then 0 else (List.map (fun x => rootCost t x) v).sum) +
      above (depthFor (chunkCountBy packs t n)) (chunkCountBy packs t n)
  | .list t n, v => (if packs t then 0 else (List.map (fun x => rootCost t x) v).sum) +
      above (depthFor (chunkCountBy packs t n)) (chunkCountBy packs t (List.length v)) + 1
  | .bitvector n, _ => above (depthFor ((n + 255) / 256)) ((n + 255) / 256)
  | .bitlist n, v => above (depthFor ((n + 255) / 256)) ((v.live.length + 255) / 256) + 1
  | .option t, v => match (v : Option t.Val) with
    | none => 1
    | some x => rootCost t x + 1
  | .newtype t, v => rootCost t v
  | .container fs, v => rootCostF fs v + above (depthFor (countF fs)) (countF fs)
  | .union vs, v => rootCostV vs v + 1

/-- The same for the roots of the fields of a struct. -/
def rootCostF : (fs : Fields) → fs.Val → Nat
  | .nil, _ => 0
  | .cons _ t rest, v => rootCost t v.1 + rootCostF rest v.2

/-- The same for the root of the payload of an enum value. -/
def rootCostV : (vs : Variants) → vs.Val → Nat
  | .nil, _ => 0
  | .unit _, .inl _ => 0
  | .unit rest, .inr v => rootCostV rest v
  | .data t _, .inl v => rootCost t v
  | .data _ rest, .inr v => rootCostV rest v

end

/-- The number of pairs of nodes that have to be hashed for the roots of the direct parts of a value. -/
def partsCost : (t : Ty) → t.Val → Nat
  | .uint _, _ => 0
  | .u256, _ => 0
  | .bool, _ => 0
  | .node, _ => 0
  | .array t _, v => if packs t then 0 else (v.1.map fun x => rootCost t x).sum
  | .vector t _, v => if packs t then 0 else (List.map (fun x => rootCost t x) v).sum
  | .list t _, v => if packs t then 0 else (List.map (fun x => rootCost t x) v).sum
  | .bitvector _, _ => 0
  | .bitlist _, _ => 0
  | .option t, v => match (v : Option t.Val) with
    | none => 0
    | some x => rootCost t x
  | .newtype t, v => partsCost t v
  | .container fs, v => rootCostF fs v
  | .union vs, v => rootCostV vs v

/-- The cost of a proof in a layer at an index: the roots of the parts, all inner nodes of the layer
(also those without data below them), one for a length or selector, and the proof in the part if the
index goes below a leaf of the layer. `inner q b` is the cost of the proof in the part at leaf `q` at
index `b`. -/
def Layer.cost (l : Layer) (parts : Nat) (inner : Nat → Nat → Nat) (g : Nat) : Nat :=
  parts + (2 ^ l.height - 1) + (if l.mixed.isSome then 1 else 0) +
    if Nat.log2 g ≤ l.height then 0
    else inner (g / 2 ^ (Nat.log2 g - l.height) - 2 ^ l.height)
      (2 ^ (Nat.log2 g - l.height) + g % 2 ^ (Nat.log2 g - l.height))

mutual

/-- The cost of the proof in the direct part of a value at leaf `q`, at an index `b` below the leaf. -/
def innerCost : (t : Ty) → t.Val → Nat → Nat → Nat
  | .uint _, _, _, _ => 0
  | .u256, _, _, _ => 0
  | .bool, _, _, _ => 0
  | .node, _, _, _ => 0
  | .array t n, v, q, b => if n ≤ q then 0 else
      (v.1[q]?.map fun x => (layer t x).cost (partsCost t x) (innerCost t x) b).getD 0
  | .vector t n, v, q, b => if n ≤ q then 0 else
      ((show List t.Val from v)[q]?.map fun x =>
        (layer t x).cost (partsCost t x) (innerCost t x) b).getD 0
  | .list t n, v, q, b => if n ≤ q then 0 else
      ((show List t.Val from v)[q]?.map fun x =>
        (layer t x).cost (partsCost t x) (innerCost t x) b).getD 0
  | .bitvector _, _, _, _ => 0
  | .bitlist _, _, _, _ => 0
  | .option t, v, q, b => if 2 ≤ q then 0 else
      match (v : Option t.Val) with
      | none => 0
      | some x => (layer t x).cost (partsCost t x) (innerCost t x) b
  | .newtype t, v, q, b => innerCost t v q b
  | .container fs, v, q, b => innerCostF fs v q b
  | .union vs, v, q, b => if countV vs ≤ q then 0 else innerCostV vs v b

/-- The same for the fields of a struct. -/
def innerCostF : (fs : Fields) → fs.Val → Nat → Nat → Nat
  | .nil, _, _, _ => 0
  | .cons _ t _, v, 0, b => (layer t v.1).cost (partsCost t v.1) (innerCost t v.1) b
  | .cons _ _ rest, v, q + 1, b => innerCostF rest v.2 q b

/-- The same for the payload of an enum value. -/
def innerCostV : (vs : Variants) → vs.Val → Nat → Nat
  | .nil, _, _ => 0
  | .unit _, .inl _, _ => 0
  | .unit rest, .inr v, b => innerCostV rest v b
  | .data t _, .inl v, b => (layer t v).cost (partsCost t v) (innerCost t v) b
  | .data _ rest, .inr v, b => innerCostV rest v b

end

/-- The number of pairs of nodes that the prover hashes for a proof at an index. -/
def proofCost (t : Ty) (v : t.Val) (g : Nat) : Nat :=
  (layer t v).cost (partsCost t v) (innerCost t v) g

mutual

/-- The number of leaves of the layers of a type, summed over all types inside it. -/
def room : Ty → Nat
  | .uint _ => 1
  | .u256 => 1
  | .bool => 1
  | .node => 1
  | .array t n => 2 ^ depthFor (itemCount prims t n) + room t
  | .vector t n => 2 ^ depthFor (itemCount prims t n) + room t
  | .list t n => 2 ^ (depthFor (itemCount prims t n) + 1) + room t
  | .bitvector n => 2 ^ depthFor ((n + 255) / 256)
  | .bitlist n => 2 ^ (depthFor ((n + 255) / 256) + 1)
  | .option t => 2 + room t
  | .newtype t => room t
  | .container fs => 2 ^ depthFor (countF fs) + roomF fs
  | .union vs => 2 + roomV vs

/-- The same for the fields of a struct. -/
def roomF : Fields → Nat
  | .nil => 0
  | .cons _ t rest => room t + roomF rest

/-- The same for the variants of an enum. -/
def roomV : Variants → Nat
  | .nil => 0
  | .unit rest => roomV rest
  | .data t rest => room t + roomV rest

end

end Ssz.Spec
