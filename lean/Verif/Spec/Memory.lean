import Verif.Spec.Encoding

/-!
# Memory for decoded values
-/

namespace Ssz.Spec

/-- How many bytes of memory the vector of the elements of a collection may take for every four bytes of
input, if `mem` are the sizes of the types in memory. An element takes its size for the bytes that the
input has for it: those of its encoding if that has a fixed length, and else an offset of four bytes. To
that come the offsets in memory, of eight bytes each, with one more at the end. -/
def memElement (mem : Ty → Nat) (t : Ty) : Nat :=
  if isVar t then mem t + 16 else 4 * ((mem t + fixedLen t - 1) / fixedLen t)

mutual

/-- How many bytes of memory decoding may reserve for every four bytes of input. -/
def memRoom (mem : Ty → Nat) : Ty → Nat
  | .uint _ => 0
  | .u256 => 0
  | .bool => 0
  | .node => 0
  | .array t _ => memElement mem t + memRoom mem t
  | .vector t _ => memElement mem t + memRoom mem t
  | .list t _ => memElement mem t + memRoom mem t
  | .bitvector _ => 4
  | .bitlist _ => 4
  | .option t => memRoom mem t
  | .newtype t => memRoom mem t
  | .container fs => memRoomF mem fs
  | .union vs => memRoomV mem vs

/-- The same for all fields together. -/
def memRoomF (mem : Ty → Nat) : Fields → Nat
  | .nil => 0
  | .cons _ t rest => memRoom mem t + memRoomF mem rest

/-- The same for the most demanding variant. -/
def memRoomV (mem : Ty → Nat) : Variants → Nat
  | .nil => 0
  | .unit rest => memRoomV mem rest
  | .data t rest => max (memRoom mem t) (memRoomV mem rest)

end

mutual

/-- The bytes of the vectors inside a value: for each its elements, for bit sequences the bytes in which
the bits are. -/
def heap (mem : Ty → Nat) : (t : Ty) → t.Val → Nat
  | .uint _, _ => 0
  | .u256, _ => 0
  | .bool, _ => 0
  | .node, _ => 0
  | .array t _, v => (v.1.map (heap mem t)).sum
  | .vector t _, v => List.length v * mem t + (List.map (heap mem t) v).sum
  | .list t _, v => List.length v * mem t + (List.map (heap mem t) v).sum
  | .bitvector _, v => (v.live.length + 7) / 8
  | .bitlist _, v => (v.live.length + 7) / 8
  | .option t, v => match (v : Option t.Val) with
    | none => 0
    | some x => heap mem t x
  | .newtype t, v => heap mem t v
  | .container fs, v => heapF mem fs v
  | .union vs, v => heapV mem vs v

/-- The same for the fields of a struct. -/
def heapF (mem : Ty → Nat) : (fs : Fields) → fs.Val → Nat
  | .nil, _ => 0
  | .cons _ t rest, v => heap mem t v.1 + heapF mem rest v.2

/-- The same for an enum value. -/
def heapV (mem : Ty → Nat) : (vs : Variants) → vs.Val → Nat
  | .nil, _ => 0
  | .unit _, .inl _ => 0
  | .unit rest, .inr v => heapV mem rest v
  | .data t _, .inl v => heap mem t v
  | .data _ rest, .inr v => heapV mem rest v

end

/-- What is used of the sizes of types in memory: the elements of an array lie one after the other, and
`Option` has space for its payload. -/
structure Layout (mem : Ty → Nat) : Prop where
  u8 : mem (.uint .u8) = 1
  array : ∀ t n, mem (.array t n) = n * mem t
  option : ∀ t, mem t ≤ mem (.option t)

end Ssz.Spec
