import Verif.Model.Types

/-!
# What encoding costs

The code of /repo/ssz-rs/src/ser.rs and of the `serialize` implementations once more, now with a
counter of the calls of `serialize`, of the iterations of loops, and of the bytes written to any buffer
(also those moved from one buffer to another). Each definition follows the one of the same name (without
`C`) line by line; `Proofs/EncodeCost.lean` shows that without the counter they are the same. What a
buffer costs when it has to grow is not counted.
-/

namespace Ssz

/-- A computation that appends to a buffer, with the number of steps it has made when it ends, also if
it ends with an error or a panic. -/
def BufC (α : Type) : Type := Bytes → Nat × (Bytes × Res SerError α)

namespace BufC

variable {α β : Type}

/-- Sequencing with `?`. -/
def bind (x : BufC α) (f : α → BufC β) : BufC β := fun buf =>
  match x buf with
  | (k, buf', .ok a) => (k + (f a buf').1, (f a buf').2)
  | (k, buf', .err e) => (k, buf', .err e)
  | (k, buf', .panic) => (k, buf', .panic)

instance : Monad BufC where
  pure a := fun buf => (0, buf, .ok a)
  bind := bind

/-- A computation that leaves the buffer alone and makes no steps. -/
def free (r : Res SerError α) : BufC α := fun buf => (0, buf, r)

/-- A computation that leaves the buffer alone, with its steps. -/
def ofCount (x : Nat × Res SerError α) : BufC α := fun buf => (x.1, buf, x.2)

/-- The beginning of an iteration or call. -/
def step : BufC Unit := fun buf => (1, buf, .ok ())

/-- `buffer.append(&mut bytes)`: a step for each byte. -/
def write (bytes : Bytes) : BufC Unit := fun buf => (bytes.length, buf ++ bytes, .ok ())

/-- A call that does nothing but append to the buffer: one step, and one for each byte. -/
def appends (x : BufM SerError α) : BufC α := fun buf =>
  (1 + ((x buf).1.length - buf.length), x buf)

end BufC

open BufC

/-- The loop over `parts` in `Serializer::serialize`: /repo/ssz-rs/src/ser.rs:82-95. -/
def writePartsC (E : Env) : Nat → List Part → BufC Unit
  | _, [] => pure ()
  | running, .fixed data :: rest => do
    step
    write data
    writePartsC E running rest
  | running, .offset n :: rest => do
    step
    let written ← appends ((Serializable.uint .u32).serialize (BitVec.ofNat 32 running))
    free (E.debugAssert (written == 4)).lift
    let running' ← free (E.add32 running (n % u32Mod)).lift
    writePartsC E running' rest

/-- `Serializer::serialize`: /repo/ssz-rs/src/ser.rs:74-100 -/
def Serializer.serializeC (E : Env) (s : Serializer) : BufC Nat :=
  let totalSize := s.fixedLengthsSum + s.variableLengthsSum
  if totalSize ≥ maximumLength then free (.err (.maximumEncodedLengthReached totalSize))
  else do
    writePartsC E (s.fixedLengthsSum % u32Mod) s.parts
    write s.variablePart
    free (.ok totalSize)

/-- `Serializer::with_element`: /repo/ssz-rs/src/ser.rs:102-117. The bytes of an element of variable
size are moved to `variable` (line 109), those of another become a part without being moved. -/
def Serializer.withElementC {α : Type} (T : Serializable α) (ser : α → BufC Nat) (s : Serializer)
    (element : α) : Nat × Res SerError Serializer :=
  match (do let capacity ← T.sizeHint.lift; withCapacity capacity : Res SerError Unit) with
  | .err e => (1, .err e)
  | .panic => (1, .panic)
  | .ok () =>
    match ser element [] with
    | (k, _, .err e) => (1 + k, .err e)
    | (k, _, .panic) => (1 + k, .panic)
    | (k, elementBuffer, .ok _) =>
      if T.isVariableSize then
        (1 + k + elementBuffer.length,
          .ok { parts := s.parts ++ [.offset elementBuffer.length]
                variablePart := s.variablePart ++ elementBuffer
                fixedLengthsSum := s.fixedLengthsSum + 4
                variableLengthsSum := s.variableLengthsSum + elementBuffer.length })
      else
        (1 + k,
          .ok { s with
                parts := s.parts ++ [.fixed elementBuffer]
                fixedLengthsSum := s.fixedLengthsSum + elementBuffer.length })

/-- The loop over the elements: /repo/ssz-rs/src/array.rs:37-39, /repo/ssz-rs/src/vector.rs:170-172 and
/repo/ssz-rs/src/list.rs:159-161. -/
def Serializer.withElementsC {α : Type} (T : Serializable α) (ser : α → BufC Nat) (s : Serializer) :
    List α → Nat × Res SerError Serializer
  | [] => (0, .ok s)
  | x :: xs =>
    match s.withElementC T ser x with
    | (k, .err e) => (k, .err e)
    | (k, .panic) => (k, .panic)
    | (k, .ok s') => (k + (s'.withElementsC T ser xs).1, (s'.withElementsC T ser xs).2)

/-- `selector.serialize(buffer)?` followed by `value.serialize(buffer)?`. -/
def serializeWithSelectorC (selector : Nat) (value : BufC Nat) : BufC Nat := do
  let selectorBytes ← appends ((Serializable.uint .u8).serialize (BitVec.ofNat 8 selector))
  let valueBytes ← value
  free (.ok (selectorBytes + valueBytes))

mutual

/-- `serialize`, with the number of steps. -/
def Ty.serC (E : Env) : (t : Ty) → t.Val → BufC Nat
  | .uint u, v => appends ((SimpleSerialize.uint u).serialize v)
  | .u256, v => appends (SimpleSerialize.u256.serialize v)
  | .bool, v => appends (SimpleSerialize.bool.serialize v)
  | .node, v => appends (SimpleSerialize.node.serialize v)
  -- /repo/ssz-rs/src/array.rs:32-41
  | .array t n, v => do
    step
    if n = 0 then free (.err (.invalidType (.invalidBound n)))
    else do
      let s ← ofCount (Serializer.withElementsC (t.impl E).toSerializable (fun x => t.serC E x) {} v.1)
      s.serializeC E
  -- /repo/ssz-rs/src/vector.rs:165-174
  | .vector t n, v => do
    step
    if n = 0 then free (.err (.invalidType (.invalidBound n)))
    else do
      let s ← ofCount (Serializer.withElementsC (t.impl E).toSerializable (fun x => t.serC E x) {} v)
      s.serializeC E
  -- /repo/ssz-rs/src/list.rs:154-163
  | .list t n, v => do
    step
    if List.length v > n then free (.err (.invalidInstance (.bounded n (List.length v))))
    else do
      let s ← ofCount (Serializer.withElementsC (t.impl E).toSerializable (fun x => t.serC E x) {} v)
      s.serializeC E
  | .bitvector n, v => appends (Bitvector.serialize n v)
  | .bitlist n, v => appends (Bitlist.serializeWithLength n v true)
  -- /repo/ssz-rs/src/union.rs:35-44
  | .option t, v => do
    step
    match (v : Option t.Val) with
    | some data => serializeWithSelectorC 1 (t.serC E data)
    | none => appends ((Serializable.uint .u8).serialize (0 : BitVec 8))
  -- /repo/ssz-rs-derive/src/lib.rs:30-36
  | .newtype t, v => do
    step
    t.serC E v
  -- /repo/ssz-rs-derive/src/lib.rs:41-56
  | .container fs, v => do
    step
    let s ← ofCount (fs.withElementsC E v {})
    s.serializeC E
  -- /repo/ssz-rs-derive/src/lib.rs:59-95
  | .union vs, v => do
    step
    vs.serC E 0 v

/-- `serializer.with_element(&self.field)?` per field: /repo/ssz-rs-derive/src/lib.rs:41-46 -/
def Fields.withElementsC (E : Env) : (fs : Fields) → fs.Val → Serializer → Nat × Res SerError Serializer
  | .nil, _, s => (0, .ok s)
  | .cons _ t rest, v, s =>
    match s.withElementC (t.impl E).toSerializable (fun x => t.serC E x) v.1 with
    | (k, .err e) => (k, .err e)
    | (k, .panic) => (k, .panic)
    | (k, .ok s') => (k + (rest.withElementsC E v.2 s').1, (rest.withElementsC E v.2 s').2)

/-- The arm of the variant that the value has: /repo/ssz-rs-derive/src/lib.rs:59-95 -/
def Variants.serC (E : Env) : (vs : Variants) → Nat → vs.Val → BufC Nat
  | .nil, _, v => Empty.elim v
  | .unit _, _, .inl _ => appends ((Serializable.uint .u8).serialize (0 : BitVec 8))
  | .unit rest, i, .inr v => rest.serC E (i + 1) v
  | .data t _, i, .inl v => serializeWithSelectorC i (t.serC E v)
  | .data _ rest, i, .inr v => rest.serC E (i + 1) v

end

end Ssz
