import Verif.Spec.Encoding

/-!
# The least and the greatest length of an encoding

Written from the layout that the SSZ specification gives for each kind of type.
-/

namespace Ssz.Spec

/-- Bytes taken by a part of a composite whose encoding has `n` bytes: a variable-size part also
needs an offset. -/
def slot (t : Ty) (n : Nat) : Nat := if isVar t then 4 + n else n

mutual

/-- The least length of an encoding of the type. -/
def minSize : Ty → Nat
  | .uint u => u.bits / 8
  | .u256 => 32
  | .bool => 1
  | .node => 32
  | .array t n => n * slot t (minSize t)
  | .vector t n => n * slot t (minSize t)
  | .list _ _ => 0
  | .bitvector n => (n + 7) / 8
  | .bitlist _ => 1
  | .option _ => 1
  | .newtype t => minSize t
  | .container fs => minSizeF fs
  | .union vs => (minSizesV vs).min?.getD 0

/-- The least length of an encoding of the fields. -/
def minSizeF : Fields → Nat
  | .nil => 0
  | .cons _ t rest => slot t (minSize t) + minSizeF rest

/-- The least lengths of the encodings of the variants, one by one. -/
def minSizesV : Variants → List Nat
  | .nil => []
  | .unit rest => 1 :: minSizesV rest
  | .data t rest => (1 + minSize t) :: minSizesV rest

end

mutual

/-- The greatest length of an encoding of the type. -/
def maxSize : Ty → Nat
  | .uint u => u.bits / 8
  | .u256 => 32
  | .bool => 1
  | .node => 32
  | .array t n => n * slot t (maxSize t)
  | .vector t n => n * slot t (maxSize t)
  | .list t n => n * slot t (maxSize t)
  | .bitvector n => (n + 7) / 8
  | .bitlist n => n / 8 + 1
  | .option t => 1 + maxSize t
  | .newtype t => maxSize t
  | .container fs => maxSizeF fs
  | .union vs => (maxSizesV vs).max?.getD 0

/-- The greatest length of an encoding of the fields. -/
def maxSizeF : Fields → Nat
  | .nil => 0
  | .cons _ t rest => slot t (maxSize t) + maxSizeF rest

/-- The greatest lengths of the encodings of the variants, one by one. -/
def maxSizesV : Variants → List Nat
  | .nil => []
  | .unit rest => 1 :: maxSizesV rest
  | .data t rest => (1 + maxSize t) :: maxSizesV rest

end

end Ssz.Spec
