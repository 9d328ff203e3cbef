import Verif.Spec.Merkle

/-!
# Bounds that do not fit

The limit of a list is a number of elements or of bytes. These are the values that contain a list
whose limit is out of the range of 64-bit arithmetic.
-/

namespace Ssz.Spec

/-- Some element satisfies the predicate. -/
def Any {α : Type} (P : α → Prop) (l : List α) : Prop := ∃ x ∈ l, P x

mutual

/-- `Bounded` without the conditions on the limits of lists: no packed element (an array) has `2^32`
or more bytes, the numbers of bits and fields are in range. -/
def Ranged : Ty → Prop
  | .uint _ => True
  | .u256 => True
  | .bool => True
  | .node => True
  | .array t _ => Ranged t ∧ (packs t = true → fixedLen t < 2 ^ 32)
  | .vector t _ => Ranged t ∧ (packs t = true → fixedLen t < 2 ^ 32)
  | .list t _ => Ranged t ∧ (packs t = true → fixedLen t < 2 ^ 32)
  | .bitvector n => n < 2 ^ 64
  | .bitlist n => n < 2 ^ 64
  | .option t => Ranged t
  | .newtype t => Ranged t
  | .container fs => RangedF fs ∧ countF fs ≤ 2 ^ 58
  | .union vs => RangedV vs

/-- `Ranged` for the fields of a struct. -/
def RangedF : Fields → Prop
  | .nil => True
  | .cons _ t rest => Ranged t ∧ RangedF rest

/-- `Ranged` for the variants of an enum. -/
def RangedV : Variants → Prop
  | .nil => True
  | .unit rest => RangedV rest
  | .data t rest => Ranged t ∧ RangedV rest

end

/-- The limit of a list of `n` such elements is out of range: `2^64` bytes or more of packed elements,
or more than `2^63` others. -/
def Huge (t : Ty) (n : Nat) : Prop :=
  if packs t = true then 2 ^ 64 ≤ n * fixedLen t else 2 ^ 63 < n

mutual

/-- The value contains a list whose limit is out of range. -/
def Overflows : (t : Ty) → t.Val → Prop
  | .uint _, _ => False
  | .u256, _ => False
  | .bool, _ => False
  | .node, _ => False
  | .array t _, v => Any (Overflows t) v.1
  | .vector t _, v => Any (Overflows t) v
  | .list t n, v => Huge t n ∨ Any (Overflows t) v
  | .bitvector _, _ => False
  | .bitlist _, _ => False
  | .option t, v => ∃ x : t.Val, v = some x ∧ Overflows t x
  | .newtype t, v => Overflows t v
  | .container fs, v => OverflowsF fs v
  | .union vs, v => OverflowsV vs v

/-- `Overflows` for the fields of a struct. -/
def OverflowsF : (fs : Fields) → fs.Val → Prop
  | .nil, _ => False
  | .cons _ t rest, v => Overflows t v.1 ∨ OverflowsF rest v.2

/-- `Overflows` for the payload of an enum value. -/
def OverflowsV : (vs : Variants) → vs.Val → Prop
  | .nil, _ => False
  | .unit _, .inl _ => False
  | .unit rest, .inr v => OverflowsV rest v
  | .data t _, .inl v => Overflows t v
  | .data _ rest, .inr v => OverflowsV rest v

end

end Ssz.Spec
