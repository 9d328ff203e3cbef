import Verif.Model.Types

/-!
# What encoding holds in memory

The code of /repo/ssz-rs/src/ser.rs and of the `serialize` implementations once more, now with the largest
number of bytes that are held at one time: in the buffer that is written to, in the vectors made by
`Serializer::with_element`, in `variable`, and in `parts`, of which each entry takes `w` bytes (24 on a 64-bit
target, as `Part` is a `Vec<u8>` or a number). A vector counts with the capacity that it was made with, or
with its length if that is more; the room that a vector that grows has besides (up to as much again) is not
counted. Each definition follows the one of the same name (without `P`) line by line;
`Proofs/EncodeMemory.lean` shows that without the number they are the same.
-/

namespace Ssz

/-- A computation that appends to a buffer. The first argument is the capacity that the buffer was made
with; the number is the largest number of bytes held at one time, this buffer included. -/
def BufP (α : Type) : Type := Nat → Bytes → Nat × (Bytes × Res SerError α)

namespace BufP

variable {α β : Type}

/-- Sequencing with `?`. -/
def bind (x : BufP α) (f : α → BufP β) : BufP β := fun cap buf =>
  match x cap buf with
  | (k, buf', .ok a) => (max k (f a cap buf').1, (f a cap buf').2)
  | (k, buf', .err e) => (k, buf', .err e)
  | (k, buf', .panic) => (k, buf', .panic)

/-- A computation that leaves the buffer alone and holds nothing else. -/
def free (r : Res SerError α) : BufP α := fun cap buf => (max cap buf.length, buf, r)

instance : Monad BufP where
  pure a := free (.ok a)
  bind := bind

/-- A computation that leaves the buffer alone, with what it holds besides. -/
def ofPeak (x : Nat × Res SerError α) : BufP α := fun cap buf => (max cap buf.length + x.1, buf, x.2)

/-- A computation during which `n` bytes are held besides. -/
def holding (n : Nat) (x : BufP α) : BufP α := fun cap buf => (n + (x cap buf).1, (x cap buf).2)

/-- A call that does nothing but append to the buffer. -/
def appends (x : BufM SerError α) : BufP α := fun cap buf => (max cap (x buf).1.length, x buf)

/-- `buffer.append(&mut bytes)` -/
def write (bytes : Bytes) : BufP Unit := appends (BufM.append bytes)

end BufP

open BufP

/-- `Serializer` (/repo/ssz-rs/src/ser.rs:65-71), with what the vector of each part takes. -/
structure SerializerP where
  plain : Serializer := {}
  caps : List Nat := []

/-- What a serializer holds: an entry for each part, the vectors of the parts, `variable`. -/
def SerializerP.held (w : Nat) (s : SerializerP) : Nat :=
  w * s.plain.parts.length + s.caps.sum + s.plain.variablePart.length

/-- The loop over `parts` in `Serializer::serialize`: /repo/ssz-rs/src/ser.rs:82-95. The vector of a part
is gone at the end of its iteration. -/
def writePartsP (E : Env) : Nat → List Part → List Nat → BufP Unit
  | _, [], _ => pure ()
  | running, .fixed data :: rest, caps => do
    holding caps.sum (write data)
    writePartsP E running rest caps.tail
  | running, .offset n :: rest, caps => do
    let written ← holding caps.sum
      (appends ((Serializable.uint .u32).serialize (BitVec.ofNat 32 running)))
    free (E.debugAssert (written == 4)).lift
    let running' ← free (E.add32 running (n % u32Mod)).lift
    writePartsP E running' rest caps.tail

/-- `Serializer::serialize`: /repo/ssz-rs/src/ser.rs:74-100. The entries of the parts are held to the end of
the loop, `variable` to the end of the function. -/
def SerializerP.serialize (E : Env) (w : Nat) (s : SerializerP) : BufP Nat :=
  let totalSize := s.plain.fixedLengthsSum + s.plain.variableLengthsSum
  if totalSize ≥ maximumLength then
    holding (s.held w) (free (.err (.maximumEncodedLengthReached totalSize)))
  else do
    holding (w * s.plain.parts.length + s.plain.variablePart.length)
      (writePartsP E (s.plain.fixedLengthsSum % u32Mod) s.plain.parts s.caps)
    holding s.plain.variablePart.length (write s.plain.variablePart)
    free (.ok totalSize)

/-- `Serializer::with_element`: /repo/ssz-rs/src/ser.rs:102-117, with what the serializer and the vector of
the element hold. The vector of an element of variable size is held while its bytes are appended to
`variable` (line 109). -/
def SerializerP.withElement {α : Type} (w : Nat) (T : Serializable α) (ser : α → BufP Nat)
    (s : SerializerP) (element : α) : Nat × Res SerError SerializerP :=
  match (T.sizeHint.lift : Res SerError Nat) with
  | .err e => (s.held w, .err e)
  | .panic => (s.held w, .panic)
  | .ok capacity =>
    match (withCapacity capacity : Res SerError Unit) with
    | .err e => (s.held w, .err e)
    | .panic => (s.held w, .panic)
    | .ok () =>
      match ser element capacity [] with
      | (k, _, .err e) => (s.held w + k, .err e)
      | (k, _, .panic) => (s.held w + k, .panic)
      | (k, elementBuffer, .ok _) =>
        if T.isVariableSize then
          let s' : SerializerP :=
            { plain := { parts := s.plain.parts ++ [.offset elementBuffer.length]
                         variablePart := s.plain.variablePart ++ elementBuffer
                         fixedLengthsSum := s.plain.fixedLengthsSum + 4
                         variableLengthsSum := s.plain.variableLengthsSum + elementBuffer.length }
              caps := s.caps ++ [0] }
          (max (s.held w + k) (s'.held w + max capacity elementBuffer.length), .ok s')
        else
          let s' : SerializerP :=
            { plain := { s.plain with
                         parts := s.plain.parts ++ [.fixed elementBuffer]
                         fixedLengthsSum := s.plain.fixedLengthsSum + elementBuffer.length }
              caps := s.caps ++ [max capacity elementBuffer.length] }
          (max (s.held w + k) (s'.held w), .ok s')

/-- The loop over the elements: /repo/ssz-rs/src/array.rs:37-39, /repo/ssz-rs/src/vector.rs:170-172 and
/repo/ssz-rs/src/list.rs:159-161. -/
def SerializerP.withElements {α : Type} (w : Nat) (T : Serializable α) (ser : α → BufP Nat)
    (s : SerializerP) : List α → Nat × Res SerError SerializerP
  | [] => (s.held w, .ok s)
  | x :: xs =>
    match s.withElement w T ser x with
    | (k, .err e) => (k, .err e)
    | (k, .panic) => (k, .panic)
    | (k, .ok s') => (max k (s'.withElements w T ser xs).1, (s'.withElements w T ser xs).2)

/-- `selector.serialize(buffer)?` followed by `value.serialize(buffer)?`. -/
def serializeWithSelectorP (selector : Nat) (value : BufP Nat) : BufP Nat := do
  let selectorBytes ← appends ((Serializable.uint .u8).serialize (BitVec.ofNat 8 selector))
  let valueBytes ← value
  free (.ok (selectorBytes + valueBytes))

mutual

/-- `serialize`, with what it holds. -/
def Ty.serP (E : Env) (w : Nat) : (t : Ty) → t.Val → BufP Nat
  | .uint u, v => appends ((SimpleSerialize.uint u).serialize v)
  | .u256, v => appends (SimpleSerialize.u256.serialize v)
  | .bool, v => appends (SimpleSerialize.bool.serialize v)
  | .node, v => appends (SimpleSerialize.node.serialize v)
  -- /repo/ssz-rs/src/array.rs:32-41
  | .array t n, v =>
    if n = 0 then free (.err (.invalidType (.invalidBound n)))
    else do
      let s ← ofPeak (SerializerP.withElements w (t.impl E).toSerializable (fun x => t.serP E w x) {} v.1)
      s.serialize E w
  -- /repo/ssz-rs/src/vector.rs:165-174
  | .vector t n, v =>
    if n = 0 then free (.err (.invalidType (.invalidBound n)))
    else do
      let s ← ofPeak (SerializerP.withElements w (t.impl E).toSerializable (fun x => t.serP E w x) {} v)
      s.serialize E w
  -- /repo/ssz-rs/src/list.rs:154-163
  | .list t n, v =>
    if List.length v > n then free (.err (.invalidInstance (.bounded n (List.length v))))
    else do
      let s ← ofPeak (SerializerP.withElements w (t.impl E).toSerializable (fun x => t.serP E w x) {} v)
      s.serialize E w
  | .bitvector n, v => appends (Bitvector.serialize n v)
  | .bitlist n, v => appends (Bitlist.serializeWithLength n v true)
  -- /repo/ssz-rs/src/union.rs:35-44
  | .option t, v => match (v : Option t.Val) with
    | some data => serializeWithSelectorP 1 (t.serP E w data)
    | none => appends ((Serializable.uint .u8).serialize (0 : BitVec 8))
  -- /repo/ssz-rs-derive/src/lib.rs:30-36
  | .newtype t, v => t.serP E w v
  -- /repo/ssz-rs-derive/src/lib.rs:41-56
  | .container fs, v => do
    let s ← ofPeak (fs.withElementsP E w v {})
    s.serialize E w
  -- /repo/ssz-rs-derive/src/lib.rs:59-95
  | .union vs, v => vs.serP E w 0 v

/-- `serializer.with_element(&self.field)?` per field: /repo/ssz-rs-derive/src/lib.rs:41-46 -/
def Fields.withElementsP (E : Env) (w : Nat) : (fs : Fields) → fs.Val → SerializerP →
    Nat × Res SerError SerializerP
  | .nil, _, s => (s.held w, .ok s)
  | .cons _ t rest, v, s =>
    match s.withElement w (t.impl E).toSerializable (fun x => t.serP E w x) v.1 with
    | (k, .err e) => (k, .err e)
    | (k, .panic) => (k, .panic)
    | (k, .ok s') => (max k (rest.withElementsP E w v.2 s').1, (rest.withElementsP E w v.2 s').2)

/-- The arm of the variant that the value has: /repo/ssz-rs-derive/src/lib.rs:59-95 -/
def Variants.serP (E : Env) (w : Nat) : (vs : Variants) → Nat → vs.Val → BufP Nat
  | .nil, _, v => Empty.elim v
  | .unit _, _, .inl _ => appends ((Serializable.uint .u8).serialize (0 : BitVec 8))
  | .unit rest, i, .inr v => rest.serP E w (i + 1) v
  | .data t _, i, .inl v => serializeWithSelectorP i (t.serP E w v)
  | .data _ rest, i, .inr v => rest.serP E w (i + 1) v

end

/-- `serialize`: /repo/ssz-rs/src/lib.rs:181-188 -/
def Ty.serializeP (E : Env) (w : Nat) (t : Ty) (v : t.Val) : Nat × Res SerError Bytes :=
  match t.serP E w v 0 [] with
  | (k, result, .ok _) => (k, .ok result)
  | (k, _, .err e) => (k, .err e)
  | (k, _, .panic) => (k, .panic)

end Ssz
