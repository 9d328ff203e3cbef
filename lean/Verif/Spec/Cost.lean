import Verif.Spec.Encoding
import Verif.Spec.Merkle

/-!
# How much there is in a value
-/

namespace Ssz.Spec

/-- The number of inner nodes of a tree of depth `d` that have one of the first `n` leaves below
them. -/
def above : Nat → Nat → Nat
  | 0, _ => 0
  | d + 1, n => if n = 0 then 0 else 1 + above d (min n (2 ^ d)) + above d (n - 2 ^ d)

mutual

/-- The number of values inside a value, itself included: elements, fields, payloads, and each group of
256 bits. -/
def values : (t : Ty) → t.Val → Nat
  | .uint _, _ => 1
  | .u256, _ => 1
  | .bool, _ => 1
  | .node, _ => 1
  | .array t _, v => 1 + (v.1.map fun x => values t x).sum
  | .vector t _, v => 1 + (List.map (fun x => values t x) v).sum
  | .list t _, v => 1 + (List.map (fun x => values t x) v).sum
  | .bitvector _, v => 1 + (v.live.length + v.dead.length + 255) / 256
  | .bitlist _, v => 1 + (v.live.length + v.dead.length + 255) / 256
  | .option t, v => match (v : Option t.Val) with
    | none => 1
    | some x => 1 + values t x
  | .newtype t, v => 1 + values t v
  | .container fs, v => 1 + valuesF fs v
  | .union vs, v => valuesV vs v

/-- The number of values inside the fields of a struct. -/
def valuesF : (fs : Fields) → fs.Val → Nat
  | .nil, _ => 0
  | .cons _ t rest, v => values t v.1 + valuesF rest v.2

/-- The number of values inside an enum value. -/
def valuesV : (vs : Variants) → vs.Val → Nat
  | .nil, _ => 0
  | .unit _, .inl _ => 1
  | .unit rest, .inr v => valuesV rest v
  | .data t _, .inl v => 1 + values t v
  | .data _ rest, .inr v => valuesV rest v

end

mutual

/-- The number of types inside a type, itself included; bit sequences count for two, variants without
a type for one. Bounds play no part. -/
def typeSize : Ty → Nat
  | .uint _ => 1
  | .u256 => 1
  | .bool => 1
  | .node => 1
  | .array t _ => 1 + typeSize t
  | .vector t _ => 1 + typeSize t
  | .list t _ => 1 + typeSize t
  | .bitvector _ => 2
  | .bitlist _ => 2
  | .option t => 1 + typeSize t
  | .newtype t => 1 + typeSize t
  | .container fs => 1 + typeSizeF fs
  | .union vs => 1 + typeSizeV vs

/-- The number of types inside the fields of a struct. -/
def typeSizeF : Fields → Nat
  | .nil => 0
  | .cons _ t rest => typeSize t + typeSizeF rest

/-- The number of types inside the variants of an enum. -/
def typeSizeV : Variants → Nat
  | .nil => 0
  | .unit rest => 1 + typeSizeV rest
  | .data t rest => typeSize t + typeSizeV rest

end

mutual

/-- The number of values inside a value, itself included, with a bit sequence as one value. -/
def partCount : (t : Ty) → t.Val → Nat
  | .uint _, _ => 1
  | .u256, _ => 1
  | .bool, _ => 1
  | .node, _ => 1
  | .array t _, v => 1 + (v.1.map fun x => partCount t x).sum
  | .vector t _, v => 1 + (List.map (fun x => partCount t x) v).sum
  | .list t _, v => 1 + (List.map (fun x => partCount t x) v).sum
  | .bitvector _, _ => 1
  | .bitlist _, _ => 1
  | .option t, v => match (v : Option t.Val) with
    | none => 1
    | some x => 1 + partCount t x
  | .newtype t, v => 1 + partCount t v
  | .container fs, v => 1 + partCountF fs v
  | .union vs, v => partCountV vs v

/-- The number of values inside the fields of a struct. -/
def partCountF : (fs : Fields) → fs.Val → Nat
  | .nil, _ => 0
  | .cons _ t rest, v => partCount t v.1 + partCountF rest v.2

/-- The number of values inside an enum value. -/
def partCountV : (vs : Variants) → vs.Val → Nat
  | .nil, _ => 0
  | .unit _, .inl _ => 1
  | .unit rest, .inr v => partCountV rest v
  | .data t _, .inl v => 1 + partCount t v
  | .data _ rest, .inr v => partCountV rest v

end

mutual

/-- How many collections and structs a part of a value of the type can be inside of. -/
def nesting : Ty → Nat
  | .uint _ => 0
  | .u256 => 0
  | .bool => 0
  | .node => 0
  | .array t _ => 1 + nesting t
  | .vector t _ => 1 + nesting t
  | .list t _ => 1 + nesting t
  | .bitvector _ => 0
  | .bitlist _ => 0
  | .option t => nesting t
  | .newtype t => nesting t
  | .container fs => 1 + nestingF fs
  | .union vs => nestingV vs

/-- The largest `nesting` of the fields of a struct. -/
def nestingF : Fields → Nat
  | .nil => 0
  | .cons _ t rest => max (nesting t) (nestingF rest)

/-- The largest `nesting` of the variants of an enum. -/
def nestingV : Variants → Nat
  | .nil => 0
  | .unit rest => nestingV rest
  | .data t rest => max (nesting t) (nestingV rest)

end

/-- What it takes to put an encoded part into the encoding of a collection or struct: two iterations and
its bytes; in case of variable size also an offset (a call and four bytes) and its bytes once more. -/
def placing (p : Piece) : Nat := if p.1 then 7 + 2 * p.2.length else 2 + p.2.length

mutual

/-- The number of steps of encoding a value. -/
def encodeCost : (t : Ty) → t.Val → Nat
  | .uint u, _ => 1 + u.bits / 8
  | .u256, _ => 33
  | .bool, _ => 2
  | .node, _ => 33
  | .array t _, v => 1 + (v.1.map fun x => encodeCost t x + placing (isVar t, enc t x)).sum
  | .vector t _, v => 1 + (List.map (fun x => encodeCost t x + placing (isVar t, enc t x)) v).sum
  | .list t _, v => 1 + (List.map (fun x => encodeCost t x + placing (isVar t, enc t x)) v).sum
  | .bitvector _, v => 1 + (v.live.length + 7) / 8
  | .bitlist _, v => 1 + (v.live.length + 8) / 8
  | .option t, v => match (v : Option t.Val) with
    | none => 3
    | some x => 3 + encodeCost t x
  | .newtype t, v => 1 + encodeCost t v
  | .container fs, v => 1 + encodeCostF fs v
  | .union vs, v => 1 + encodeCostV vs v

/-- The number of steps of encoding the fields of a struct. -/
def encodeCostF : (fs : Fields) → fs.Val → Nat
  | .nil, _ => 0
  | .cons _ t rest, v => encodeCost t v.1 + placing (isVar t, enc t v.1) + encodeCostF rest v.2

/-- The number of steps of encoding an enum value. -/
def encodeCostV : (vs : Variants) → vs.Val → Nat
  | .nil, _ => 0
  | .unit _, .inl _ => 2
  | .unit rest, .inr v => encodeCostV rest v
  | .data t _, .inl v => 2 + encodeCost t v
  | .data _ rest, .inr v => encodeCostV rest v

end

end Ssz.Spec
