import Verif.Model.DecodeCost

/-!
# What decoding reserves

`deserialize` of all types once more, now with a counter of the bytes of memory that it takes for
vectors: `Vec::with_capacity(n)` counts as `n` elements at once, `push` to a vector without a capacity
as one element. (The standard library doubles the room of a vector when it is full, so it may take twice
that much.) `mem t` is `size_of::<T>()` for the type `t`, a parameter: Rust does not say how it lays out
structs and enums. For bit sequences the length of the input is counted, whether it is accepted or not.
Not counted: the vectors of `ContainerDeserializer`, whose lengths are the numbers of fields of a struct.
Each definition follows the one of the same name (without `M`) line by line;
`Proofs/Memory.lean` shows that without the counter they are the same.
-/

namespace Ssz

open Timed

/-- Room for `n` elements of `size` bytes. -/
def reserve (n size : Nat) : Timed Unit := step (n * size)

/-- A loop whose body is `result.push(f(x)?)`; `size` is that of the elements of `result`. -/
def mapListM {α β : Type} (size : Nat) (f : α → Timed β) : List α → Timed (List β)
  | [] => free (.ok [])
  | a :: as => do
    let b ← f a
    reserve 1 size
    let bs ← mapListM size f as
    free (.ok (b :: bs))

/-- `deserialize_fixed_homogeneous_composite`: /repo/ssz-rs/src/de.rs:74-87 -/
def deserializeFixedHomogeneousCompositeM {α : Type} (E : Env) (T : Serializable α) (size : Nat)
    (de : Bytes → Timed α) (encoding : Bytes) : Timed (List α) := do
  let hint ← free T.sizeHint.lift
  if hint = 0 then free .panic
  else
    let _ ← free (E.debugAssert (encoding.length % hint == 0)).lift
    mapListM size de (chunksExact hint encoding)

/-- The loop over `offsets.windows(2)`, where `result` has its capacity: /repo/ssz-rs/src/de.rs:125-136. -/
def deserializeSpansM {α : Type} (de : Bytes → Timed α) (encoding : Bytes) :
    List Nat → Timed (List α)
  | start :: stop :: rest =>
    if start > stop then free (.err (.offsetNotIncreasing start stop))
    else do
      let piece ← free (slice encoding start stop)
      let element ← de piece
      let elements ← deserializeSpansM de encoding (stop :: rest)
      free (.ok (element :: elements))
  | _ => free (.ok [])

/-- `deserialize_variable_homogeneous_composite`: /repo/ssz-rs/src/de.rs:89-138. The vector of offsets
(lines 117-121) has elements of eight bytes; the capacity of `result` is the number of offsets
(lines 123-124). -/
def deserializeVariableHomogeneousCompositeM {α : Type} (size : Nat) (de : Bytes → Timed α)
    (encoding : Bytes) : Timed (List α) :=
  if encoding.isEmpty then free (.ok [])
  else
    match getRange encoding 0 4 with
    | none => free (.err (.expectedFurtherInput encoding.length 4))
    | some word => do
      let offsetsLen ← free (deserializeU32 word)
      if encoding.length < offsetsLen then
        free (.err (.expectedFurtherInput encoding.length offsetsLen))
      else if offsetsLen % 4 ≠ 0 then free (.err (.invalidOffsetsLength offsetsLen))
      else
        let head ← free (slice encoding 0 offsetsLen)
        let offsets ← mapListM 8 (fun b => free (deserializeU32 b)) (chunksExact 4 head)
        reserve 1 8
        reserve (offsetsLen / 4) size
        deserializeSpansM de encoding (offsets ++ [encoding.length])

/-- `deserialize_homogeneous_composite`: /repo/ssz-rs/src/de.rs:140-149 -/
def deserializeHomogeneousCompositeM {α : Type} (E : Env) (T : Serializable α) (size : Nat)
    (de : Bytes → Timed α) (encoding : Bytes) : Timed (List α) :=
  if T.isVariableSize then deserializeVariableHomogeneousCompositeM size de encoding
  else deserializeFixedHomogeneousCompositeM E T size de encoding

mutual

/-- `deserialize`, with the number of bytes reserved. -/
def Ty.deM (E : Env) (mem : Ty → Nat) : (t : Ty) → Bytes → Timed t.Val
  | .uint u, encoding => free ((SimpleSerialize.uint u).deserialize encoding)
  | .u256, encoding => free (SimpleSerialize.u256.deserialize encoding)
  | .bool, encoding => free (SimpleSerialize.bool.deserialize encoding)
  | .node, encoding => free (SimpleSerialize.node.deserialize encoding)
  -- /repo/ssz-rs/src/array.rs:47-73
  | .array t n, encoding =>
    if n = 0 then free (.err (.invalidType (.invalidBound n)))
    else do
      free (checkVectorLength E (t.impl E).toSerializable n encoding)
      let elements ← deserializeHomogeneousCompositeM E (t.impl E).toSerializable (mem t)
        (fun b => t.deM E mem b) encoding
      if h : elements.length = n then free (.ok ⟨elements, h⟩)
      else free (.err (.invalidInstance (.exact n elements.length)))
  -- /repo/ssz-rs/src/vector.rs:179-208
  | .vector t n, encoding =>
    if n = 0 then free (.err (.invalidType (.invalidBound n)))
    else do
      free (checkVectorLength E (t.impl E).toSerializable n encoding)
      let inner ← deserializeHomogeneousCompositeM E (t.impl E).toSerializable (mem t)
        (fun b => t.deM E mem b) encoding
      match SszVector.tryFromVec n inner with
      | .ok v => free (.ok v)
      | .err (_, .deserialize e) => free (.err e)
      | .err (_, .instance e) => free (.err (.invalidInstance e))
      | .err (_, .type e) => free (.err (.invalidType e))
      | .panic => free .panic
  -- /repo/ssz-rs/src/list.rs:168-193
  | .list t n, encoding => do
    free (checkListLength E (t.impl E).toSerializable encoding)
    let result ← deserializeHomogeneousCompositeM E (t.impl E).toSerializable (mem t)
      (fun b => t.deM E mem b) encoding
    if result.length > n then free (.err (.invalidInstance (.bounded n result.length)))
    else
      match SszList.tryFromVec n result with
      | .ok v => free (.ok v)
      | .err (_, .instance e) => free (.err (.invalidInstance e))
      | .err _ => free .panic
      | .panic => free .panic
  -- /repo/ssz-rs/src/bitvector.rs:134-168
  | .bitvector n, encoding => do
    reserve encoding.length 1
    free (Bitvector.deserialize n encoding)
  -- /repo/ssz-rs/src/bitlist.rs:138-179
  | .bitlist n, encoding => do
    reserve encoding.length 1
    free (Bitlist.deserialize E n encoding)
  -- /repo/ssz-rs/src/union.rs:47-75
  | .option t, encoding =>
    match encoding with
    | [] => free (.err (.expectedFurtherInput 0 1))
    | b :: rest =>
      if b = 0 then
        if encoding.length ≠ 1 then free (.err (.additionalInput encoding.length 1))
        else free (.ok none)
      else if b = 1 then do
        let inner ← t.deM E mem rest
        free (.ok (some inner))
      else free (.err (.invalidByte b))
  -- /repo/ssz-rs-derive/src/lib.rs:109-119
  | .newtype t, encoding => do
    let result ← t.deM E mem encoding
    free (.ok result)
  -- /repo/ssz-rs-derive/src/lib.rs:124-156
  | .container fs, encoding => do
    let d ← free ((fs.impls E).parseAll E encoding {})
    let spans ← free (d.finalize E encoding)
    fs.initM E mem encoding spans 0
  -- /repo/ssz-rs-derive/src/lib.rs:158-237
  | .union vs, encoding =>
    match encoding with
    | [] => free (.err (.expectedFurtherInput 0 1))
    | b :: rest => vs.deM E mem b rest encoding 0

/-- `field: T::deserialize(&encoding[spans[2*i]..spans[2*i+1]])?` per field:
/repo/ssz-rs-derive/src/lib.rs:134-142 -/
def Fields.initM (E : Env) (mem : Ty → Nat) : (fs : Fields) → Bytes → List Nat → Nat → Timed fs.Val
  | .nil, _, _, _ => free (.ok ())
  | .cons _ t rest, encoding, spans, i => do
    let start ← free (index spans (2 * i))
    let stop ← free (index spans (2 * i + 1))
    let piece ← free (slice encoding start stop)
    let v ← t.deM E mem piece
    let vs ← rest.initM E mem encoding spans (i + 1)
    free (.ok (v, vs))

/-- The arms of `match encoding[0]`: /repo/ssz-rs-derive/src/lib.rs:182-222 -/
def Variants.deM (E : Env) (mem : Ty → Nat) : (vs : Variants) → Byte → Bytes → Bytes → Nat →
    Timed vs.Val
  | .nil, b, _, _, _ => free (.err (.invalidByte b))
  | .unit vs, b, rest, encoding, i =>
    if b = 0 then
      if encoding.length ≠ 1 then free (.err (.additionalInput encoding.length 1))
      else free (.ok (.inl ()))
    else do
      let v ← vs.deM E mem b rest encoding (i + 1)
      free (.ok (.inr v))
  | .data t vs, b, rest, encoding, i =>
    if b = BitVec.ofNat 8 i then do
      let v ← t.deM E mem rest
      free (.ok (.inl v))
    else do
      let v ← vs.deM E mem b rest encoding (i + 1)
      free (.ok (.inr v))

end

end Ssz
