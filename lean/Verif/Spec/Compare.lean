import Verif.Model.Types

/-!
# The order of values

`sortKey` writes a value as a list of numbers, so that comparing values is comparing lists of numbers
from the left.
-/

namespace Ssz.Spec

/-- The elements of a collection, each behind a 1, and a 0 at the end. -/
def sortKeys {α : Type} (k : α → List Nat) (vs : List α) : List Nat :=
  vs.flatMap (fun x => 1 :: k x) ++ [0]

mutual

/-- The numbers that a value is sorted by. -/
def sortKey : (t : Ty) → t.Val → List Nat
  | .uint u, v => [BitVec.toNat (w := u.bits) v]
  | .u256, v => [BitVec.toNat (w := 256) v]
  | .bool, v => [Bool.toNat v]
  | .node, v => v.1.map BitVec.toNat
  | .array t _, v => sortKeys (sortKey t) v.1
  | .vector t _, v => sortKeys (sortKey t) v
  | .list t _, v => sortKeys (sortKey t) v
  | .bitvector _, v => sortKeys (fun b : Bool => [b.toNat]) v.live
  | .bitlist _, v => sortKeys (fun b : Bool => [b.toNat]) v.live
  | .option t, v => match (v : Option t.Val) with
    | none => [0]
    | some x => 1 :: sortKey t x
  | .newtype t, v => sortKey t v
  | .container fs, v => sortKeyF fs v
  | .union vs, v => sortKeyV vs 0 v

/-- The numbers of the fields, in the order of declaration. -/
def sortKeyF : (fs : Fields) → fs.Val → List Nat
  | .nil, _ => []
  | .cons _ t rest, v => sortKey t v.1 ++ sortKeyF rest v.2

/-- The position of the variant, then the numbers of the payload. -/
def sortKeyV : (vs : Variants) → Nat → vs.Val → List Nat
  | .nil, _, _ => []
  | .unit _, i, .inl _ => [i]
  | .unit rest, i, .inr v => sortKeyV rest (i + 1) v
  | .data t _, i, .inl v => i :: sortKey t v
  | .data _ rest, i, .inr v => sortKeyV rest (i + 1) v

end

end Ssz.Spec
