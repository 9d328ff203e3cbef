import Verif.Spec.Index

/-!
# Types for targets with a smaller `usize`
-/

namespace Ssz.Spec

/-- A collection that is the same on a target with `b` bits: the elements are not `usize`, and the number
of bytes, `N * item_length + 31`, fits in `b` bits. -/
def widthItems (b : Nat) (t : Ty) (n : Nat) : Prop :=
  t ≠ .uint .usize ∧ n * itemLen prims t + 31 < 2 ^ b

mutual

/-- This holds for each collection in the type. -/
def FitsWidth (b : Nat) : Ty → Prop
  | .uint _ => True
  | .u256 => True
  | .bool => True
  | .node => True
  | .array t n => widthItems b t n ∧ FitsWidth b t
  | .vector t n => widthItems b t n ∧ FitsWidth b t
  | .list t n => widthItems b t n ∧ FitsWidth b t
  | .bitvector _ => True
  | .bitlist _ => True
  | .option t => FitsWidth b t
  | .newtype t => FitsWidth b t
  | .container fs => FitsWidthF b fs
  | .union vs => FitsWidthV b vs

/-- `FitsWidth` for the fields of a struct. -/
def FitsWidthF (b : Nat) : Fields → Prop
  | .nil => True
  | .cons _ t rest => FitsWidth b t ∧ FitsWidthF b rest

/-- `FitsWidth` for the variants of an enum. -/
def FitsWidthV (b : Nat) : Variants → Prop
  | .nil => True
  | .unit rest => FitsWidthV b rest
  | .data t rest => FitsWidth b t ∧ FitsWidthV b rest

end

end Ssz.Spec
