import Verif.Model.Base

/-!
# What an error says about the input

Only the types of errors are shared with the model.
-/

namespace Ssz.Spec

/-- What the error says is true of the input: input that is said to be too short is shorter than what
is expected, input that is said to be too long is longer, neither is longer than the whole
input, a byte that is said to be invalid occurs in the input, and lengths, bounds and offsets
that are said to disagree do. The other errors say something about the type, or about the decoder
itself, that is never true. -/
def Truthful (b : Bytes) : DeError → Prop
  | .expectedFurtherInput provided expected => provided ≤ b.length ∧ provided < expected
  | .additionalInput provided expected => provided ≤ b.length ∧ expected < provided
  | .invalidByte x => x ∈ b
  | .invalidInstance (.exact required provided) => provided ≠ required
  | .invalidInstance (.bounded bound provided) => bound < provided
  | .invalidType _ => False
  | .invalidOffsetsLength n => n ≤ b.length ∧ n % 4 ≠ 0
  | .offsetNotIncreasing start stop => stop < start
  | .missingOffset => False
  | .noMatchingVariant => False

/-- What a serialization error says is true: an encoding that is said to be too long has at least
`2^32` bytes, a number of elements that is said to exceed a bound does. The other errors say
something about the type that is never true. -/
def TruthfulSer : SerError → Prop
  | .maximumEncodedLengthReached size => 2 ^ 32 ≤ size
  | .invalidInstance (.bounded bound provided) => bound < provided
  | .invalidInstance (.exact _ _) => False
  | .invalidType _ => False

/-- The error names an element of the path, or a nonempty end of the path. -/
def TruthfulPath (path : List PathElement) (e : MerkError) : Prop :=
  (∃ x ∈ path, e = .invalidPathElement x) ∨
    ∃ rest, rest ≠ [] ∧ rest <:+ path ∧ e = .invalidPath rest

end Ssz.Spec
