import Verif.Spec.WidthRoot
import Verif.Spec.Width

/-!
# Types for proofs on targets with a smaller `usize`
-/

namespace Ssz.Spec

mutual

/-- Every part of the type has at most `2^(b-8)` chunks, so that its materialised tree has fewer than
`2^(b-1)` bytes, the bounds are in the range of `b` bits, and no collection has elements of type `usize`. -/
def ShallowW (b : Nat) : Ty → Prop
  | .uint _ => True
  | .u256 => True
  | .bool => True
  | .node => True
  | .array t n => itemCount prims t n ≤ 2 ^ (b - 8) ∧ elementW t ∧ ShallowW b t
  | .vector t n => itemCount prims t n ≤ 2 ^ (b - 8) ∧ elementW t ∧ ShallowW b t
  | .list t n => itemCount prims t n ≤ 2 ^ (b - 8) ∧ elementW t ∧ ¬ HugeW b t n ∧ ShallowW b t
  | .bitvector n => n < 2 ^ b
  | .bitlist n => n < 2 ^ b
  | .option t => ShallowW b t
  | .newtype t => ShallowW b t
  | .container fs => countF fs ≤ 2 ^ (b - 8) ∧ ShallowWF b fs
  | .union vs => ShallowWV b vs

/-- `ShallowW` for the fields of a struct. -/
def ShallowWF (b : Nat) : Fields → Prop
  | .nil => True
  | .cons _ t rest => ShallowW b t ∧ ShallowWF b rest

/-- `ShallowW` for the variants of an enum. -/
def ShallowWV (b : Nat) : Variants → Prop
  | .nil => True
  | .unit rest => ShallowWV b rest
  | .data t rest => ShallowW b t ∧ ShallowWV b rest

end

end Ssz.Spec
