import Verif.Spec.Encoding

/-!
# What is said about inputs of the wrong length
-/

namespace Ssz.Spec

/-- The error for fields of fixed size of which only `len` bytes are there: it names what is left for the first
field that is not there as a whole, and the size of that field. -/
def tooShortF : Fields → Nat → DeError
  | .nil, len => .expectedFurtherInput len 0
  | .cons _ t rest, len =>
    if len < fixedLen t then .expectedFurtherInput len (fixedLen t) else tooShortF rest (len - fixedLen t)

/-- The error for an input of `len` bytes that is too short for a type of fixed size. -/
def tooShort : Ty → Nat → DeError
  | .container fs, len => tooShortF fs len
  | .newtype t, len => tooShort t len
  | t, len => .expectedFurtherInput len (fixedLen t)

/-- The error for an input of `len` bytes, where these are not as many as the type has. -/
def wrongLength (t : Ty) (len : Nat) : DeError :=
  if fixedLen t < len then .additionalInput len (fixedLen t) else tooShort t len

end Ssz.Spec
