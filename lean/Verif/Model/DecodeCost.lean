import Verif.Model.Types

/-!
# What decoding costs

The code of /repo/ssz-rs/src/de.rs and of the `deserialize` implementations once more, now with a
counter of the calls of `deserialize` and of the iterations of loops. Each definition follows the one
of the same name (without `C`) line by line; `Proofs/DecodeCost.lean` shows that without the counter
they are the same. For bit sequences each input byte counts as one iteration; what is done for an
integer (at most 32 bytes) counts as one call.
-/

namespace Ssz

/-- A computation with the number of steps it has made when it ends, also if it ends with an error or a
panic. -/
def Timed (α : Type) : Type := Nat × Res DeError α

namespace Timed

variable {α β : Type}

/-- Sequencing with `?`. -/
def bind (x : Timed α) (f : α → Timed β) : Timed β :=
  match x.2 with
  | .ok a => (x.1 + (f a).1, (f a).2)
  | .err e => (x.1, .err e)
  | .panic => (x.1, .panic)

instance : Monad Timed where
  pure a := (0, .ok a)
  bind := bind

/-- A computation without calls and loops. -/
def free (r : Res DeError α) : Timed α := (0, r)

/-- `n` steps: the beginning of an iteration or call, or `n` iterations of a loop. -/
def step (n : Nat := 1) : Timed Unit := (n, .ok ())

end Timed

open Timed

/-- A loop whose body is `result.push(f(x)?)`, as `Res.mapList`. -/
def mapListC {α β : Type} (f : α → Timed β) : List α → Timed (List β)
  | [] => free (.ok [])
  | a :: as => do
    step
    let b ← f a
    let bs ← mapListC f as
    free (.ok (b :: bs))

/-- `deserialize_fixed_homogeneous_composite`: /repo/ssz-rs/src/de.rs:74-87 -/
def deserializeFixedHomogeneousCompositeC {α : Type} (E : Env) (T : Serializable α)
    (de : Bytes → Timed α) (encoding : Bytes) : Timed (List α) := do
  let size ← free T.sizeHint.lift
  if size = 0 then free .panic
  else
    let _ ← free (E.debugAssert (encoding.length % size == 0)).lift
    mapListC de (chunksExact size encoding)

/-- The loop over `offsets.windows(2)`: /repo/ssz-rs/src/de.rs:125-136. -/
def deserializeSpansC {α : Type} (de : Bytes → Timed α) (encoding : Bytes) :
    List Nat → Timed (List α)
  | start :: stop :: rest => do
    step
    if start > stop then free (.err (.offsetNotIncreasing start stop))
    else do
      let piece ← free (slice encoding start stop)
      let element ← de piece
      let elements ← deserializeSpansC de encoding (stop :: rest)
      free (.ok (element :: elements))
  | _ => free (.ok [])

/-- `deserialize_variable_homogeneous_composite`: /repo/ssz-rs/src/de.rs:89-138 -/
def deserializeVariableHomogeneousCompositeC {α : Type} (de : Bytes → Timed α)
    (encoding : Bytes) : Timed (List α) :=
  if encoding.isEmpty then free (.ok [])
  else
    match getRange encoding 0 4 with
    | none => free (.err (.expectedFurtherInput encoding.length 4))
    | some word => do
      let offsetsLen ← free (deserializeU32 word)
      if encoding.length < offsetsLen then
        free (.err (.expectedFurtherInput encoding.length offsetsLen))
      else if offsetsLen % 4 ≠ 0 then free (.err (.invalidOffsetsLength offsetsLen))
      else
        let head ← free (slice encoding 0 offsetsLen)
        let offsets ← mapListC (fun b => free (deserializeU32 b)) (chunksExact 4 head)
        deserializeSpansC de encoding (offsets ++ [encoding.length])

/-- `deserialize_homogeneous_composite`: /repo/ssz-rs/src/de.rs:140-149 -/
def deserializeHomogeneousCompositeC {α : Type} (E : Env) (T : Serializable α)
    (de : Bytes → Timed α) (encoding : Bytes) : Timed (List α) :=
  if T.isVariableSize then deserializeVariableHomogeneousCompositeC de encoding
  else deserializeFixedHomogeneousCompositeC E T de encoding

/-- The loop over `segments` in `ContainerDeserializer::finalize`: /repo/ssz-rs/src/de.rs:242-271 -/
def finalizeSegmentsC (E : Env) (encodingLen : Nat) :
    List Segment → List Nat → Nat → Timed (List Nat × Nat)
  | [], _, total => free (.ok ([], total))
  | .fixed start stop :: rest, offsets, total => do
    step
    let (spans, total') ← finalizeSegmentsC E encodingLen rest offsets total
    free (.ok (start :: stop :: spans, total'))
  | .offset :: rest, offsets, total => do
    step
    match offsets[0]? with
    | none => free (.err .missingOffset)
    | some start =>
      match offsets[1]? with
      | none => free (.err .missingOffset)
      | some stop =>
        if encodingLen < start then free (.err (.expectedFurtherInput encodingLen start))
        else if encodingLen < stop then free (.err (.expectedFurtherInput encodingLen stop))
        else do
          let len ← free (E.sub stop start).lift
          let total1 ← free (E.add total len).lift
          let (spans, total') ← finalizeSegmentsC E encodingLen rest (offsets.drop 1) total1
          free (.ok (start :: stop :: spans, total'))

/-- `ContainerDeserializer::finalize`: /repo/ssz-rs/src/de.rs:237-287 -/
def ContainerDeserializer.finalizeC (E : Env) (d : ContainerDeserializer) (encoding : Bytes) :
    Timed (List Nat) := do
  let (spans, total) ← finalizeSegmentsC E encoding.length d.segments
    (d.offsets ++ [encoding.length]) d.totalBytesRead
  if total > encoding.length then free (.err (.expectedFurtherInput encoding.length total))
  else if total < encoding.length then free (.err (.additionalInput encoding.length total))
  else free (.ok spans)

/-- `deserializer.parse::<T>(encoding)?` per field: /repo/ssz-rs-derive/src/lib.rs:124-132. The
generated code has no loop; each field counts as an iteration. -/
def FieldImpls.parseAllC (E : Env) (encoding : Bytes) :
    {α : Type} → FieldImpls α → ContainerDeserializer → Timed ContainerDeserializer
  | _, nil, d => free (.ok d)
  | _, cons _ T rest, d => do
    step
    let d' ← free (d.parse E T.toSerializable encoding)
    rest.parseAllC E encoding d'

mutual

/-- `deserialize`, with the number of steps. -/
def Ty.deC (E : Env) : (t : Ty) → Bytes → Timed t.Val
  | .uint u, encoding => do
    step
    free ((SimpleSerialize.uint u).deserialize encoding)
  | .u256, encoding => do
    step
    free (SimpleSerialize.u256.deserialize encoding)
  | .bool, encoding => do
    step
    free (SimpleSerialize.bool.deserialize encoding)
  | .node, encoding => do
    step
    free (SimpleSerialize.node.deserialize encoding)
  -- /repo/ssz-rs/src/array.rs:47-73
  | .array t n, encoding => do
    step
    if n = 0 then free (.err (.invalidType (.invalidBound n)))
    else do
      free (checkVectorLength E (t.impl E).toSerializable n encoding)
      let elements ← deserializeHomogeneousCompositeC E (t.impl E).toSerializable
        (fun b => t.deC E b) encoding
      if h : elements.length = n then free (.ok ⟨elements, h⟩)
      else free (.err (.invalidInstance (.exact n elements.length)))
  -- /repo/ssz-rs/src/vector.rs:179-208
  | .vector t n, encoding => do
    step
    if n = 0 then free (.err (.invalidType (.invalidBound n)))
    else do
      free (checkVectorLength E (t.impl E).toSerializable n encoding)
      let inner ← deserializeHomogeneousCompositeC E (t.impl E).toSerializable
        (fun b => t.deC E b) encoding
      match SszVector.tryFromVec n inner with
      | .ok v => free (.ok v)
      | .err (_, .deserialize e) => free (.err e)
      | .err (_, .instance e) => free (.err (.invalidInstance e))
      | .err (_, .type e) => free (.err (.invalidType e))
      | .panic => free .panic
  -- /repo/ssz-rs/src/list.rs:168-193
  | .list t n, encoding => do
    step
    free (checkListLength E (t.impl E).toSerializable encoding)
    let result ← deserializeHomogeneousCompositeC E (t.impl E).toSerializable
      (fun b => t.deC E b) encoding
    if result.length > n then free (.err (.invalidInstance (.bounded n result.length)))
    else
      match SszList.tryFromVec n result with
      | .ok v => free (.ok v)
      | .err (_, .instance e) => free (.err (.invalidInstance e))
      | .err _ => free .panic
      | .panic => free .panic
  -- /repo/ssz-rs/src/bitvector.rs:134-168
  | .bitvector n, encoding => do
    step
    step encoding.length
    free (Bitvector.deserialize n encoding)
  -- /repo/ssz-rs/src/bitlist.rs:138-179
  | .bitlist n, encoding => do
    step
    step encoding.length
    free (Bitlist.deserialize E n encoding)
  -- /repo/ssz-rs/src/union.rs:47-75
  | .option t, encoding => do
    step
    match encoding with
    | [] => free (.err (.expectedFurtherInput 0 1))
    | b :: rest =>
      if b = 0 then
        if encoding.length ≠ 1 then free (.err (.additionalInput encoding.length 1))
        else free (.ok none)
      else if b = 1 then do
        let inner ← t.deC E rest
        free (.ok (some inner))
      else free (.err (.invalidByte b))
  -- /repo/ssz-rs-derive/src/lib.rs:109-119
  | .newtype t, encoding => do
    step
    let result ← t.deC E encoding
    free (.ok result)
  -- /repo/ssz-rs-derive/src/lib.rs:124-156
  | .container fs, encoding => do
    step
    let d ← (fs.impls E).parseAllC E encoding {}
    let spans ← d.finalizeC E encoding
    fs.initC E encoding spans 0
  -- /repo/ssz-rs-derive/src/lib.rs:158-237
  | .union vs, encoding => do
    step
    match encoding with
    | [] => free (.err (.expectedFurtherInput 0 1))
    | b :: rest => vs.deC E b rest encoding 0

/-- `field: T::deserialize(&encoding[spans[2*i]..spans[2*i+1]])?` per field:
/repo/ssz-rs-derive/src/lib.rs:134-142 -/
def Fields.initC (E : Env) : (fs : Fields) → Bytes → List Nat → Nat → Timed fs.Val
  | .nil, _, _, _ => free (.ok ())
  | .cons _ t rest, encoding, spans, i => do
    step
    let start ← free (index spans (2 * i))
    let stop ← free (index spans (2 * i + 1))
    let piece ← free (slice encoding start stop)
    let v ← t.deC E piece
    let vs ← rest.initC E encoding spans (i + 1)
    free (.ok (v, vs))

/-- The arms of `match encoding[0]`, tried in order, each but the last counting as a step:
/repo/ssz-rs-derive/src/lib.rs:182-222 -/
def Variants.deC (E : Env) : (vs : Variants) → Byte → Bytes → Bytes → Nat → Timed vs.Val
  | .nil, b, _, _, _ => free (.err (.invalidByte b))
  | .unit vs, b, rest, encoding, i => do
    step
    if b = 0 then
      if encoding.length ≠ 1 then free (.err (.additionalInput encoding.length 1))
      else free (.ok (.inl ()))
    else do
      let v ← vs.deC E b rest encoding (i + 1)
      free (.ok (.inr v))
  | .data t vs, b, rest, encoding, i => do
    step
    if b = BitVec.ofNat 8 i then do
      let v ← t.deC E rest
      free (.ok (.inl v))
    else do
      let v ← vs.deC E b rest encoding (i + 1)
      free (.ok (.inr v))

end

end Ssz
