import Verif.Spec.ProveCost

/-!
# How many bytes of chunks and nodes are alive at one time

For roots and for proofs: each collection or struct keeps the chunks of its parts while their roots are
computed, and one copy of them for its own root; a proof keeps the chunks of one layer and the tree over
all leaves that the layer has room for.
-/

namespace Ssz.Spec

/-- The largest number of a list, 0 if it is empty. -/
def maxOf (ns : List Nat) : Nat := ns.foldr max 0

mutual

/-- The bytes for the root of a value. -/
def rootMem : (t : Ty) → t.Val → Nat
  | .uint _, _ => 32
  | .u256, _ => 32
  | .bool, _ => 0
  | .node, _ => 32
  | .array t n, v => 32 * chunkCountBy packs t n +
      max (if packs t then 0 else maxOf (v.1.map fun x => rootMem t x)) (32 * chunkCountBy packs t n)
  | .vector t n, v => 32 * chunkCountBy packs t n +
      max (if packs t then 0 else maxOf (List.map (fun x => rootMem t x) v)) (32 * chunkCountBy packs t n)
  -- 32 for the length
  | .list t _, v => 32 * chunkCountBy packs t (List.length v) +
      max (if packs t then 0 else maxOf (List.map (fun x => rootMem t x) v))
        (max (32 * chunkCountBy packs t (List.length v)) 32)
  | .bitvector n, _ => 64 * ((n + 255) / 256)
  | .bitlist _, v => 32 * ((v.live.length + 255) / 256) + max (32 * ((v.live.length + 255) / 256)) 32
  | .option t, v => match (v : Option t.Val) with
    | none => 32
    | some x => max (rootMem t x) 32
  | .newtype t, v => 32 + max (rootMem t v) 32
  | .container fs, v => 32 * countF fs + max (rootMemF fs v) (32 * countF fs)
  | .union vs, v => rootMemV vs v

/-- The largest number of bytes for the root of a field of a struct. -/
def rootMemF : (fs : Fields) → fs.Val → Nat
  | .nil, _ => 0
  | .cons _ t rest, v => max (rootMem t v.1) (rootMemF rest v.2)

/-- The bytes for the root of the payload of an enum value, at least 32. -/
def rootMemV : (vs : Variants) → vs.Val → Nat
  | .nil, _ => 0
  | .unit _, .inl _ => 32
  | .unit rest, .inr v => rootMemV rest v
  | .data t _, .inl v => max (rootMem t v) 32
  | .data _ rest, .inr v => rootMemV rest v

end

/-- The bytes for the chunks of the layer of a value. -/
def partsMem : (t : Ty) → t.Val → Nat
  | .uint _, _ => 32
  | .u256, _ => 32
  | .bool, _ => 32
  | .node, _ => 32
  | .array t n, v => 32 * chunkCountBy packs t n +
      if packs t then 0 else maxOf (v.1.map fun x => rootMem t x)
  | .vector t n, v => 32 * chunkCountBy packs t n +
      if packs t then 0 else maxOf (List.map (fun x => rootMem t x) v)
  | .list t _, v => 32 * chunkCountBy packs t (List.length v) +
      if packs t then 0 else maxOf (List.map (fun x => rootMem t x) v)
  | .bitvector n, _ => 32 * ((n + 255) / 256)
  | .bitlist _, v => 32 * ((v.live.length + 255) / 256)
  | .option t, v => match (v : Option t.Val) with
    | none => 32
    | some x => max (rootMem t x) 32
  | .newtype t, v => partsMem t v
  | .container fs, v => 32 * countF fs + rootMemF fs v
  | .union vs, v => rootMemV vs v

/-- The bytes for a proof in a layer at an index: first for the proof in the part, if the index goes below
a leaf; then for the chunks; then the chunks and the tree with all the leaves that the layer has room for,
and 32 for a length or selector. -/
def Layer.mem (l : Layer) (parts : Nat) (inner : Nat → Nat → Nat) (g : Nat) : Nat :=
  max (if Nat.log2 g ≤ l.height then 0
    else inner (g / 2 ^ (Nat.log2 g - l.height) - 2 ^ l.height)
      (2 ^ (Nat.log2 g - l.height) + g % 2 ^ (Nat.log2 g - l.height)))
  (max parts (32 * l.parts.length + (32 * (2 ^ (l.height + 1) - 1) + if l.mixed.isSome then 32 else 0)))

mutual

/-- The bytes for the proof in the direct part of a value at leaf `q`, at an index `b` below the leaf. -/
def innerMem : (t : Ty) → t.Val → Nat → Nat → Nat
  | .uint _, _, _, _ => 0
  | .u256, _, _, _ => 0
  | .bool, _, _, _ => 0
  | .node, _, _, _ => 0
  | .array t n, v, q, b => if n ≤ q then 0 else
      (v.1[q]?.map fun x => (layer t x).mem (partsMem t x) (innerMem t x) b).getD 0
  | .vector t n, v, q, b => if n ≤ q then 0 else
      ((show List t.Val from v)[q]?.map fun x =>
        (layer t x).mem (partsMem t x) (innerMem t x) b).getD 0
  | .list t n, v, q, b => if n ≤ q then 0 else
      ((show List t.Val from v)[q]?.map fun x =>
        (layer t x).mem (partsMem t x) (innerMem t x) b).getD 0
  | .bitvector _, _, _, _ => 0
  | .bitlist _, _, _, _ => 0
  | .option t, v, q, b => if 2 ≤ q then 0 else
      match (v : Option t.Val) with
      -- a number, for which there is nothing below 1
      | none => (leafLayer zeroNode).mem 32 (fun _ _ => 0) b
      | some x => (layer t x).mem (partsMem t x) (innerMem t x) b
  | .newtype t, v, q, b => innerMem t v q b
  | .container fs, v, q, b => innerMemF fs v q b
  | .union vs, v, q, b => if countV vs ≤ q then 0 else innerMemV vs v b

/-- The same for the fields of a struct. -/
def innerMemF : (fs : Fields) → fs.Val → Nat → Nat → Nat
  | .nil, _, _, _ => 0
  | .cons _ t _, v, 0, b => (layer t v.1).mem (partsMem t v.1) (innerMem t v.1) b
  | .cons _ _ rest, v, q + 1, b => innerMemF rest v.2 q b

/-- The same for the payload of an enum value. -/
def innerMemV : (vs : Variants) → vs.Val → Nat → Nat
  | .nil, _, _ => 0
  | .unit _, .inl _, b => (leafLayer zeroNode).mem 32 (fun _ _ => 0) b
  | .unit rest, .inr v, b => innerMemV rest v b
  | .data t _, .inl v, b => (layer t v).mem (partsMem t v) (innerMem t v) b
  | .data _ rest, .inr v, b => innerMemV rest v b

end

/-- The bytes for a proof at an index. -/
def proofMem (t : Ty) (v : t.Val) (g : Nat) : Nat :=
  (layer t v).mem (partsMem t v) (innerMem t v) g

end Ssz.Spec
