import Verif.Spec.Encoding

/-!
# Types for encodings on targets with a smaller `usize`
-/

namespace Ssz.Spec

mutual

/-- The type for a target with `b` bits: bounds are in the range of `usize`, the sizes of all parts are at
most `isize::MAX` and bit sequences have at most `usize::MAX / 8` bits. `usize` is not part of it. -/
def FitsW (b : Nat) : Ty → Prop
  | .uint u => u ≠ .usize
  | .u256 => True
  | .bool => True
  | .node => True
  | .array t n => FitsW b t ∧ n < 2 ^ b ∧ fixedLen t * n < 2 ^ (b - 1)
  | .vector t n => FitsW b t ∧ n < 2 ^ b ∧ fixedLen t * n < 2 ^ (b - 1)
  | .list t n => FitsW b t ∧ n < 2 ^ b
  | .bitvector n => n < 2 ^ (b - 3)
  | .bitlist n => n < 2 ^ (b - 3)
  | .option t => FitsW b t
  | .newtype t => FitsW b t
  | .container fs => FitsWF b fs ∧ fixedLenF fs < 2 ^ (b - 1)
  | .union vs => FitsWV b vs

/-- `FitsW` for the fields of a struct. -/
def FitsWF (b : Nat) : Fields → Prop
  | .nil => True
  | .cons _ t rest => FitsW b t ∧ FitsWF b rest

/-- `FitsW` for the variants of an enum. -/
def FitsWV (b : Nat) : Variants → Prop
  | .nil => True
  | .unit rest => FitsWV b rest
  | .data t rest => FitsW b t ∧ FitsWV b rest

end

/-- The error with all its numbers reduced modulo `2^b`. -/
def reduceError (b : Nat) : DeError → DeError
  | .expectedFurtherInput provided expected =>
    .expectedFurtherInput (provided % 2 ^ b) (expected % 2 ^ b)
  | .additionalInput provided expected => .additionalInput (provided % 2 ^ b) (expected % 2 ^ b)
  | .invalidByte x => .invalidByte x
  | .invalidInstance (.exact required provided) =>
    .invalidInstance (.exact (required % 2 ^ b) (provided % 2 ^ b))
  | .invalidInstance (.bounded bound provided) =>
    .invalidInstance (.bounded (bound % 2 ^ b) (provided % 2 ^ b))
  | .invalidType (.invalidBound bound) => .invalidType (.invalidBound (bound % 2 ^ b))
  | .invalidOffsetsLength n => .invalidOffsetsLength (n % 2 ^ b)
  | .offsetNotIncreasing start stop => .offsetNotIncreasing (start % 2 ^ b) (stop % 2 ^ b)
  | .missingOffset => .missingOffset
  | .noMatchingVariant => .noMatchingVariant

end Ssz.Spec
