import Verif.Spec.Overflow

/-!
# Types and values for roots on targets with a smaller `usize`

The conditions of `Spec/Overflow.lean` and `Spec/Merkle.lean` for `b` bits in place of 64.
-/

namespace Ssz.Spec

/-- The elements of a collection have the same encoding on every target: they are not `usize`, and if
they are packed they have fewer than `2^32` bytes. -/
def elementW (t : Ty) : Prop := t ≠ .uint .usize ∧ (packs t = true → fixedLen t < 2 ^ 32)

mutual

/-- The numbers of bits and fields in the type are in the range of `b` bits; nothing is said of the
limits of lists. -/
def RangedW (b : Nat) : Ty → Prop
  | .uint _ => True
  | .u256 => True
  | .bool => True
  | .node => True
  | .array t _ => RangedW b t ∧ elementW t
  | .vector t _ => RangedW b t ∧ elementW t
  | .list t _ => RangedW b t ∧ elementW t
  | .bitvector n => n < 2 ^ b
  | .bitlist n => n < 2 ^ b
  | .option t => RangedW b t
  | .newtype t => RangedW b t
  | .container fs => RangedWF b fs ∧ countF fs ≤ 2 ^ (b - 6)
  | .union vs => RangedWV b vs

/-- `RangedW` for the fields of a struct. -/
def RangedWF (b : Nat) : Fields → Prop
  | .nil => True
  | .cons _ t rest => RangedW b t ∧ RangedWF b rest

/-- `RangedW` for the variants of an enum. -/
def RangedWV (b : Nat) : Variants → Prop
  | .nil => True
  | .unit rest => RangedWV b rest
  | .data t rest => RangedW b t ∧ RangedWV b rest

end

/-- A collection of `n` elements that fits in the memory of a target with `b` bits. -/
def heldW (b : Nat) (t : Ty) (n : Nat) : Prop :=
  n < 2 ^ (b - 6) ∧ (packs t = true → n * fixedLen t < 2 ^ (b - 1))

mutual

/-- Every collection in the value fits in the memory of a target with `b` bits. -/
def InMemoryW (b : Nat) : (t : Ty) → t.Val → Prop
  | .uint _, _ => True
  | .u256, _ => True
  | .bool, _ => True
  | .node, _ => True
  | .array t _, v => heldW b t v.1.length ∧ Each (InMemoryW b t) v.1
  | .vector t _, v => heldW b t (List.length v) ∧ Each (InMemoryW b t) v
  | .list t _, v => heldW b t (List.length v) ∧ Each (InMemoryW b t) v
  | .bitvector _, v => v.live.length < 2 ^ b
  | .bitlist _, v => v.live.length < 2 ^ b
  | .option t, v => ∀ x : t.Val, v = some x → InMemoryW b t x
  | .newtype t, v => InMemoryW b t v
  | .container fs, v => InMemoryWF b fs v
  | .union vs, v => InMemoryWV b vs v

/-- `InMemoryW` for the fields of a struct. -/
def InMemoryWF (b : Nat) : (fs : Fields) → fs.Val → Prop
  | .nil, _ => True
  | .cons _ t rest, v => InMemoryW b t v.1 ∧ InMemoryWF b rest v.2

/-- `InMemoryW` for the payload of an enum value. -/
def InMemoryWV (b : Nat) : (vs : Variants) → vs.Val → Prop
  | .nil, _ => True
  | .unit _, .inl _ => True
  | .unit rest, .inr v => InMemoryWV b rest v
  | .data t _, .inl v => InMemoryW b t v
  | .data _ rest, .inr v => InMemoryWV b rest v

end

/-- The limit of a list of `n` such elements is out of range: `2^b` bytes or more of packed elements, or
more than `2^(b-1)` others. -/
def HugeW (b : Nat) (t : Ty) (n : Nat) : Prop :=
  if packs t = true then 2 ^ b ≤ n * fixedLen t else 2 ^ (b - 1) < n

mutual

/-- The value contains a list whose limit is out of the range of `b` bits. -/
def OverflowsW (b : Nat) : (t : Ty) → t.Val → Prop
  | .uint _, _ => False
  | .u256, _ => False
  | .bool, _ => False
  | .node, _ => False
  | .array t _, v => Any (OverflowsW b t) v.1
  | .vector t _, v => Any (OverflowsW b t) v
  | .list t n, v => HugeW b t n ∨ Any (OverflowsW b t) v
  | .bitvector _, _ => False
  | .bitlist _, _ => False
  | .option t, v => ∃ x : t.Val, v = some x ∧ OverflowsW b t x
  | .newtype t, v => OverflowsW b t v
  | .container fs, v => OverflowsWF b fs v
  | .union vs, v => OverflowsWV b vs v

/-- `OverflowsW` for the fields of a struct. -/
def OverflowsWF (b : Nat) : (fs : Fields) → fs.Val → Prop
  | .nil, _ => False
  | .cons _ t rest, v => OverflowsW b t v.1 ∨ OverflowsWF b rest v.2

/-- `OverflowsW` for the payload of an enum value. -/
def OverflowsWV (b : Nat) : (vs : Variants) → vs.Val → Prop
  | .nil, _ => False
  | .unit _, .inl _ => False
  | .unit rest, .inr v => OverflowsWV b rest v
  | .data t _, .inl v => OverflowsW b t v
  | .data _ rest, .inr v => OverflowsWV b rest v

end

end Ssz.Spec
