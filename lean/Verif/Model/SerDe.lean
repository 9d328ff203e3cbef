import Verif.Model.Uint

/-!
# `Serializer`, homogeneous composite decoding and `ContainerDeserializer`

/repo/ssz-rs/src/ser.rs and /repo/ssz-rs/src/de.rs
-/

namespace Ssz

/-- `MAXIMUM_LENGTH`: /repo/ssz-rs/src/ser.rs:9 -/
def maximumLength : Nat := 4294967296

/-- `Part`: /repo/ssz-rs/src/ser.rs:60-63 -/
inductive Part where
  | fixed (data : Bytes)
  | offset (n : Nat)

/-- `Serializer`: /repo/ssz-rs/src/ser.rs:66-71. The two length sums count bytes held in live
`Vec`s, so they are plain naturals: they cannot exceed the address space. -/
structure Serializer where
  parts : List Part := []
  variablePart : Bytes := []
  fixedLengthsSum : Nat := 0
  variableLengthsSum : Nat := 0

/-- The loop over `parts` in `Serializer::serialize`: /repo/ssz-rs/src/ser.rs:82-95. -/
def writeParts (E : Env) : Nat → List Part → BufM SerError Unit
  | _, [] => pure ()
  | running, .fixed data :: rest => do
    BufM.append data
    writeParts E running rest
  | running, .offset n :: rest => do
    let written ← (Serializable.uint .u32).serialize (BitVec.ofNat 32 running)
    BufM.ofRes (E.debugAssert (written == 4)).lift
    let running' ← BufM.ofRes (E.add32 running (n % u32Mod)).lift
    writeParts E running' rest

/-- `Serializer::serialize`: /repo/ssz-rs/src/ser.rs:74-100 -/
def Serializer.serialize (E : Env) (s : Serializer) : BufM SerError Nat :=
  let totalSize := s.fixedLengthsSum + s.variableLengthsSum
  if totalSize ≥ maximumLength then
    BufM.ofRes (.err (.maximumEncodedLengthReached totalSize))
  else do
    writeParts E (s.fixedLengthsSum % u32Mod) s.parts
    BufM.append s.variablePart
    BufM.ofRes (.ok totalSize)

/-- `Serializer::with_element`: /repo/ssz-rs/src/ser.rs:102-117. `Vec::with_capacity` (line 103)
panics beyond `isize::MAX` bytes. -/
def Serializer.withElement {α : Type} (T : Serializable α) (s : Serializer) (element : α) :
    Res SerError Serializer := do
  let capacity ← T.sizeHint.lift
  withCapacity capacity
  match T.serialize element [] with
  | (_, .err e) => .err e
  | (_, .panic) => .panic
  | (elementBuffer, .ok _) =>
    if T.isVariableSize then
      .ok { parts := s.parts ++ [.offset elementBuffer.length]
            variablePart := s.variablePart ++ elementBuffer
            fixedLengthsSum := s.fixedLengthsSum + 4
            variableLengthsSum := s.variableLengthsSum + elementBuffer.length }
    else
      .ok { s with
            parts := s.parts ++ [.fixed elementBuffer]
            fixedLengthsSum := s.fixedLengthsSum + elementBuffer.length }

/-- The loop `for element in elements { serializer.with_element(element)?; }` shared by
/repo/ssz-rs/src/array.rs:37-39, /repo/ssz-rs/src/vector.rs:170-172 and
/repo/ssz-rs/src/list.rs:159-161. -/
def Serializer.withElements {α : Type} (T : Serializable α) (s : Serializer) :
    List α → Res SerError Serializer
  | [] => .ok s
  | x :: xs => do
    let s' ← s.withElement T x
    s'.withElements T xs

/-- `deserialize_fixed_homogeneous_composite`: /repo/ssz-rs/src/de.rs:74-87. Both `% 0` and
`chunks_exact(0)` panic. -/
def deserializeFixedHomogeneousComposite {α : Type} (E : Env) (T : Serializable α)
    (encoding : Bytes) : Res DeError (List α) := do
  let size ← T.sizeHint.lift
  if size = 0 then .panic
  else
    let _ ← (E.debugAssert (encoding.length % size == 0)).lift
    Res.mapList T.deserialize (chunksExact size encoding)

/-- The loop over `offsets.windows(2)`: /repo/ssz-rs/src/de.rs:125-136. -/
def deserializeSpans {α : Type} (T : Serializable α) (encoding : Bytes) :
    List Nat → Res DeError (List α)
  | start :: stop :: rest =>
    if start > stop then .err (.offsetNotIncreasing start stop)
    else do
      let piece ← slice encoding start stop
      let element ← T.deserialize piece
      let elements ← deserializeSpans T encoding (stop :: rest)
      .ok (element :: elements)
  | _ => .ok []

/-- `deserialize_variable_homogeneous_composite`: /repo/ssz-rs/src/de.rs:89-138 -/
def deserializeVariableHomogeneousComposite {α : Type} (T : Serializable α)
    (encoding : Bytes) : Res DeError (List α) :=
  if encoding.isEmpty then .ok []
  else
    match getRange encoding 0 4 with
    | none => .err (.expectedFurtherInput encoding.length 4)
    | some word => do
      let offsetsLen ← deserializeU32 word
      if encoding.length < offsetsLen then
        .err (.expectedFurtherInput encoding.length offsetsLen)
      else if offsetsLen % 4 ≠ 0 then .err (.invalidOffsetsLength offsetsLen)
      else
        let head ← slice encoding 0 offsetsLen
        let offsets ← Res.mapList deserializeU32 (chunksExact 4 head)
        deserializeSpans T encoding (offsets ++ [encoding.length])

/-- `deserialize_homogeneous_composite`: /repo/ssz-rs/src/de.rs:140-149 -/
def deserializeHomogeneousComposite {α : Type} (E : Env) (T : Serializable α)
    (encoding : Bytes) : Res DeError (List α) :=
  if T.isVariableSize then deserializeVariableHomogeneousComposite T encoding
  else deserializeFixedHomogeneousComposite E T encoding

/-- `Segment`: /repo/ssz-rs/src/de.rs:152-155 -/
inductive Segment where
  | fixed (start stop : Nat)
  | offset

/-- `ContainerDeserializer`: /repo/ssz-rs/src/de.rs:165-169 -/
structure ContainerDeserializer where
  segments : List Segment := []
  offsets : List Nat := []
  totalBytesRead : Nat := 0

/-- The checks on a new offset against the previous one: /repo/ssz-rs/src/de.rs:185-206. -/
def checkOffset (E : Env) (encodingLen : Nat) (previous : Option Nat) (next : Nat) :
    Res DeError Unit :=
  match previous with
  | none => .ok ()
  | some prev =>
    if next < prev then .err (.offsetNotIncreasing prev next)
    else if prev > encodingLen then do
      let provided ← (E.sub encodingLen prev).lift
      let expected ← (E.sub next prev).lift
      .err (.expectedFurtherInput provided expected)
    else if next > encodingLen then do
      let provided ← (E.sub encodingLen next).lift
      let expected ← (E.sub next prev).lift
      .err (.expectedFurtherInput provided expected)
    else .ok ()

/-- `ContainerDeserializer::parse`: /repo/ssz-rs/src/de.rs:173-231. The argument of `ok_or` (line
179) is evaluated eagerly. `start + 4` (line 176) is a plain sum: `start` never exceeds the length
of the input. -/
def ContainerDeserializer.parse {α : Type} (E : Env) (T : Serializable α)
    (d : ContainerDeserializer) (encoding : Bytes) : Res DeError ContainerDeserializer :=
  let start := d.totalBytesRead
  if T.isVariableSize then do
    let provided ← (E.sub encoding.length start).lift
    match getRange encoding start (start + 4) with
    | none => .err (.expectedFurtherInput provided 4)
    | some target =>
      let nextOffset ← deserializeU32 target
      let _ ← checkOffset E encoding.length d.offsets.getLast? nextOffset
      .ok { segments := d.segments ++ [.offset]
            offsets := d.offsets ++ [nextOffset]
            totalBytesRead := d.totalBytesRead + 4 }
  else do
    let encodedLength ← T.sizeHint.lift
    let stop ← (E.add d.totalBytesRead encodedLength).lift
    if encoding.length < d.totalBytesRead then
      .err (.expectedFurtherInput encoding.length d.totalBytesRead)
    else if encoding.length < stop then
      let provided ← (E.sub encoding.length d.totalBytesRead).lift
      .err (.expectedFurtherInput provided encodedLength)
    else
      let total ← (E.add d.totalBytesRead encodedLength).lift
      .ok { d with
            segments := d.segments ++ [.fixed start stop]
            totalBytesRead := total }

/-- The loop over `segments` in `ContainerDeserializer::finalize`: /repo/ssz-rs/src/de.rs:242-271.
Returns the spans and the updated `total_bytes_read`. -/
def finalizeSegments (E : Env) (encodingLen : Nat) :
    List Segment → List Nat → Nat → Res DeError (List Nat × Nat)
  | [], _, total => .ok ([], total)
  | .fixed start stop :: rest, offsets, total => do
    let (spans, total') ← finalizeSegments E encodingLen rest offsets total
    .ok (start :: stop :: spans, total')
  | .offset :: rest, offsets, total =>
    match offsets[0]? with
    | none => .err .missingOffset
    | some start =>
      match offsets[1]? with
      | none => .err .missingOffset
      | some stop =>
        if encodingLen < start then .err (.expectedFurtherInput encodingLen start)
        else if encodingLen < stop then .err (.expectedFurtherInput encodingLen stop)
        else do
          let len ← (E.sub stop start).lift
          let total1 ← (E.add total len).lift
          let (spans, total') ← finalizeSegments E encodingLen rest (offsets.drop 1) total1
          .ok (start :: stop :: spans, total')

/-- `ContainerDeserializer::finalize`: /repo/ssz-rs/src/de.rs:237-287 -/
def ContainerDeserializer.finalize (E : Env) (d : ContainerDeserializer) (encoding : Bytes) :
    Res DeError (List Nat) := do
  let (spans, total) ← finalizeSegments E encoding.length d.segments
    (d.offsets ++ [encoding.length]) d.totalBytesRead
  if total > encoding.length then .err (.expectedFurtherInput encoding.length total)
  else if total < encoding.length then .err (.additionalInput encoding.length total)
  else .ok spans

end Ssz
