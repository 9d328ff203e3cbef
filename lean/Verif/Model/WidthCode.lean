import Verif.Model.WidthRoot

/-!
# Encodings on targets with a smaller `usize`

`serialize` and `deserialize` once more, for a `usize` of `b` bits, at least 32. The functions are those of
the same name (without `W`) with the arithmetic of the target where it may overflow: `size_hint`, the
lengths computed from it, the differences in the arguments of errors, and the allocation limit
`isize::MAX`. An offset has 32 bits and `as usize` keeps it; `start + 4` and the sums of the lengths of
live buffers are as before. The `bitvec` crate holds at most `usize::MAX / 8` bits; that limit, out of reach
with 64 bits, is part of the model here. `usize` itself is not covered by `Ty.codeW`; `Serializable.usizeW`
is its implementation.
-/

namespace Ssz

/-- `a - b` on `usize` -/
def Target.sub (W : Target) (a b : Nat) : Calc Nat :=
  if b ≤ a then .ok (a - b)
  else if W.debug then .panic else .ok (a + 2 ^ W.bits - b)

/-- `Vec::<u8>::with_capacity(n)`: panics ("capacity overflow") beyond `isize::MAX` bytes. -/
def withCapacityW {ε : Type} (b n : Nat) : Res ε Unit :=
  if n < 2 ^ (b - 1) then .ok () else .panic

/-- `Serializer::with_element`: /repo/ssz-rs/src/ser.rs:102-117 -/
def Serializer.withElementW {α : Type} (b : Nat) (T : Serializable α) (s : Serializer) (element : α) :
    Res SerError Serializer := do
  let capacity ← T.sizeHint.lift
  withCapacityW b capacity
  match T.serialize element [] with
  | (_, .err e) => .err e
  | (_, .panic) => .panic
  | (elementBuffer, .ok _) =>
    if T.isVariableSize then
      .ok { parts := s.parts ++ [.offset elementBuffer.length]
            variablePart := s.variablePart ++ elementBuffer
            fixedLengthsSum := s.fixedLengthsSum + 4
            variableLengthsSum := s.variableLengthsSum + elementBuffer.length }
    else
      .ok { s with
            parts := s.parts ++ [.fixed elementBuffer]
            fixedLengthsSum := s.fixedLengthsSum + elementBuffer.length }

/-- The loop over the elements: array.rs:37-39, vector.rs:170-172 and list.rs:159-161. -/
def Serializer.withElementsW {α : Type} (b : Nat) (T : Serializable α) (s : Serializer) :
    List α → Res SerError Serializer
  | [] => .ok s
  | x :: xs => do
    let s' ← s.withElementW b T x
    s'.withElementsW b T xs

/-- The length check for fixed-size elements: array.rs:53-67, vector.rs:185-199. -/
def checkVectorLengthW {α : Type} (b : Nat) (E : Env) (T : Serializable α) (n : Nat) (encoding : Bytes) :
    Res DeError Unit :=
  if T.isVariableSize then .ok ()
  else do
    let s ← T.sizeHint.lift
    let expected ← ((E.on b).mul n s).lift
    if encoding.length < expected then .err (.expectedFurtherInput encoding.length expected)
    else if encoding.length > expected then .err (.additionalInput encoding.length expected)
    else .ok ()

/-- The length check for fixed-size elements: /repo/ssz-rs/src/list.rs:171-181. -/
def checkListLengthW {α : Type} (b : Nat) (E : Env) (T : Serializable α) (encoding : Bytes) :
    Res DeError Unit :=
  if T.isVariableSize then .ok ()
  else do
    let s ← T.sizeHint.lift
    let remainder ← usizeRem encoding.length s
    if remainder ≠ 0 then
      let expected ← ((E.on b).sub encoding.length remainder).lift
      .err (.additionalInput encoding.length expected)
    else .ok ()

/-- The checks on a new offset against the previous one: /repo/ssz-rs/src/de.rs:185-206. -/
def checkOffsetW (b : Nat) (E : Env) (encodingLen : Nat) (previous : Option Nat) (next : Nat) :
    Res DeError Unit :=
  match previous with
  | none => .ok ()
  | some prev =>
    if next < prev then .err (.offsetNotIncreasing prev next)
    else if prev > encodingLen then do
      let provided ← ((E.on b).sub encodingLen prev).lift
      let expected ← ((E.on b).sub next prev).lift
      .err (.expectedFurtherInput provided expected)
    else if next > encodingLen then do
      let provided ← ((E.on b).sub encodingLen next).lift
      let expected ← ((E.on b).sub next prev).lift
      .err (.expectedFurtherInput provided expected)
    else .ok ()

/-- `ContainerDeserializer::parse`: /repo/ssz-rs/src/de.rs:173-231. -/
def ContainerDeserializer.parseW {α : Type} (b : Nat) (E : Env) (T : Serializable α)
    (d : ContainerDeserializer) (encoding : Bytes) : Res DeError ContainerDeserializer :=
  let start := d.totalBytesRead
  if T.isVariableSize then do
    let provided ← ((E.on b).sub encoding.length start).lift
    match getRange encoding start (start + 4) with
    | none => .err (.expectedFurtherInput provided 4)
    | some target =>
      let nextOffset ← deserializeU32 target
      let _ ← checkOffsetW b E encoding.length d.offsets.getLast? nextOffset
      .ok { segments := d.segments ++ [.offset]
            offsets := d.offsets ++ [nextOffset]
            totalBytesRead := d.totalBytesRead + 4 }
  else do
    let encodedLength ← T.sizeHint.lift
    let stop ← ((E.on b).add d.totalBytesRead encodedLength).lift
    if encoding.length < d.totalBytesRead then
      .err (.expectedFurtherInput encoding.length d.totalBytesRead)
    else if encoding.length < stop then
      let provided ← ((E.on b).sub encoding.length d.totalBytesRead).lift
      .err (.expectedFurtherInput provided encodedLength)
    else
      let total ← ((E.on b).add d.totalBytesRead encodedLength).lift
      .ok { d with
            segments := d.segments ++ [.fixed start stop]
            totalBytesRead := total }

/-- The loop over `segments` in `ContainerDeserializer::finalize`: /repo/ssz-rs/src/de.rs:242-271. -/
def finalizeSegmentsW (b : Nat) (E : Env) (encodingLen : Nat) :
    List Segment → List Nat → Nat → Res DeError (List Nat × Nat)
  | [], _, total => .ok ([], total)
  | .fixed start stop :: rest, offsets, total => do
    let (spans, total') ← finalizeSegmentsW b E encodingLen rest offsets total
    .ok (start :: stop :: spans, total')
  | .offset :: rest, offsets, total =>
    match offsets[0]? with
    | none => .err .missingOffset
    | some start =>
      match offsets[1]? with
      | none => .err .missingOffset
      | some stop =>
        if encodingLen < start then .err (.expectedFurtherInput encodingLen start)
        else if encodingLen < stop then .err (.expectedFurtherInput encodingLen stop)
        else do
          let len ← ((E.on b).sub stop start).lift
          let total1 ← ((E.on b).add total len).lift
          let (spans, total') ← finalizeSegmentsW b E encodingLen rest (offsets.drop 1) total1
          .ok (start :: stop :: spans, total')

/-- `ContainerDeserializer::finalize`: /repo/ssz-rs/src/de.rs:237-287 -/
def ContainerDeserializer.finalizeW (b : Nat) (E : Env) (d : ContainerDeserializer) (encoding : Bytes) :
    Res DeError (List Nat) := do
  let (spans, total) ← finalizeSegmentsW b E encoding.length d.segments
    (d.offsets ++ [encoding.length]) d.totalBytesRead
  if total > encoding.length then .err (.expectedFurtherInput encoding.length total)
  else if total < encoding.length then .err (.additionalInput encoding.length total)
  else .ok spans

/-- `usize`: /repo/ssz-rs/src/uint.rs:19-56, 93 -/
def Serializable.usizeW (b : Nat) : Serializable (BitVec b) where
  isVariableSize := false
  sizeHint := .ok (bitsToBytes b)
  serialize v := do
    BufM.append (toLeBytes (bitsToBytes b) v.toNat)
    BufM.ofRes (.ok (bitsToBytes b))
  deserialize encoding :=
    let byteSize := bitsToBytes b
    if encoding.length < byteSize then .err (.expectedFurtherInput encoding.length byteSize)
    else if encoding.length > byteSize then .err (.additionalInput encoding.length byteSize)
    else (slice encoding 0 byteSize).map fun bytes => BitVec.ofNat b (fromLeBytes bytes)

/-- `[T; N]`: /repo/ssz-rs/src/array.rs:15-73 -/
def Serializable.arrayW {α : Type} (b : Nat) (E : Env) (T : Serializable α) (n : Nat) :
    Serializable { l : List α // l.length = n } where
  isVariableSize := T.isVariableSize
  sizeHint := do
    let s ← T.sizeHint
    (E.on b).mul s n
  serialize v :=
    if n = 0 then BufM.ofRes (.err (.invalidType (.invalidBound n)))
    else do
      let s ← BufM.ofRes (Serializer.withElementsW b T {} v.1)
      s.serialize E
  deserialize encoding :=
    if n = 0 then .err (.invalidType (.invalidBound n))
    else do
      checkVectorLengthW b E T n encoding
      let elements ← deserializeHomogeneousComposite E T encoding
      if h : elements.length = n then .ok ⟨elements, h⟩
      else .err (.invalidInstance (.exact n elements.length))

/-- `Vector<T, N>`: /repo/ssz-rs/src/vector.rs:148-208 -/
def Serializable.vectorW {α : Type} (b : Nat) (E : Env) (T : Serializable α) (n : Nat) :
    Serializable (List α) where
  isVariableSize := T.isVariableSize
  sizeHint := do
    let s ← T.sizeHint
    (E.on b).mul s n
  serialize v :=
    if n = 0 then BufM.ofRes (.err (.invalidType (.invalidBound n)))
    else do
      let s ← BufM.ofRes (Serializer.withElementsW b T {} v)
      s.serialize E
  deserialize encoding :=
    if n = 0 then .err (.invalidType (.invalidBound n))
    else do
      checkVectorLengthW b E T n encoding
      let inner ← deserializeHomogeneousComposite E T encoding
      match SszVector.tryFromVec n inner with
      | .ok v => .ok v
      | .err (_, .deserialize e) => .err e
      | .err (_, .instance e) => .err (.invalidInstance e)
      | .err (_, .type e) => .err (.invalidType e)
      | .panic => .panic

/-- `List<T, N>`: /repo/ssz-rs/src/list.rs:137-193 -/
def Serializable.listW {α : Type} (b : Nat) (E : Env) (T : Serializable α) (n : Nat) :
    Serializable (List α) where
  isVariableSize := true
  sizeHint := .ok 0
  serialize v :=
    if v.length > n then BufM.ofRes (.err (.invalidInstance (.bounded n v.length)))
    else do
      let s ← BufM.ofRes (Serializer.withElementsW b T {} v)
      s.serialize E
  deserialize encoding := do
    checkListLengthW b E T encoding
    let result ← deserializeHomogeneousComposite E T encoding
    if result.length > n then .err (.invalidInstance (.bounded n result.length))
    else
      match SszList.tryFromVec n result with
      | .ok v => .ok v
      | .err (_, .instance e) => .err (.invalidInstance e)
      | .err _ => .panic
      | .panic => .panic

/-- `BitVec::repeat(false, n)`, for at most `usize::MAX / 8` bits. -/
def bitsRepeatW {ε : Type} (b n : Nat) : Res ε Bits :=
  if n < 2 ^ (b - 3) then .ok (Bits.repeatFalse n) else .panic

/-- `BitVec::from_slice(bytes)`, for at most `usize::MAX / 8` bits. -/
def bitsFromSliceW {ε : Type} (b : Nat) (bytes : Bytes) : Res ε Bits :=
  if bytes.length ≤ 2 ^ (b - 6) then .ok (Bits.fromBytes bytes) else .panic

/-- `Deserialize` for `Bitvector`: /repo/ssz-rs/src/bitvector.rs:134-168 -/
def Bitvector.deserializeW (b : Nat) (n : Nat) (encoding : Bytes) : Res DeError Bits :=
  if n = 0 then .err (.invalidType (.invalidBound n))
  else
    let expected := bitvectorByteLength n
    if encoding.length < expected then .err (.expectedFurtherInput encoding.length expected)
    else if encoding.length > expected then .err (.additionalInput encoding.length expected)
    else do
      let init ← bitsRepeatW b n
      let result : Bits := ⟨storeBytes (chunks8 init.live) encoding, init.dead⟩
      let remainderCount := n % 8
      if remainderCount ≠ 0 then
        match encoding.getLast? with
        | none => .panic
        | some lastByte =>
          if lastByte >>> remainderCount ≠ 0 then .err (.invalidByte lastByte)
          else .ok result
      else .ok result

/-- `Bitvector<N>`: /repo/ssz-rs/src/bitvector.rs:110-168 -/
def Serializable.bitvectorW (b : Nat) (n : Nat) : Serializable Bits where
  isVariableSize := false
  sizeHint := .ok (bitvectorByteLength n)
  serialize := Bitvector.serialize n
  deserialize := Bitvector.deserializeW b n

/-- `byte_length`: /repo/ssz-rs/src/bitlist.rs:20-22 -/
def bitlistByteLengthW (b : Nat) (E : Env) (n : Nat) : Calc Nat := do
  let a ← (E.on b).add n 8
  let c ← (E.on b).sub a 1
  let d ← (E.on b).add c 1
  .ok (d / 8)

/-- `Deserialize` for `Bitlist`: /repo/ssz-rs/src/bitlist.rs:138-179 -/
def Bitlist.deserializeW (b : Nat) (E : Env) (n : Nat) (encoding : Bytes) : Res DeError Bits :=
  match encoding.getLast? with
  | none => .err (.expectedFurtherInput 0 1)
  | some lastByte => do
    let maxLen ← (bitlistByteLengthW b E n).lift
    if encoding.length > maxLen then .err (.additionalInput encoding.length maxLen)
    else if lastByte = 0 then .err (.invalidByte lastByte)
    else
      let result ← bitsFromSliceW b encoding.dropLast
      let last := Bits.fromBytes [lastByte]
      let bitLength ← ((E.on b).sub 8 last.trailingZeros).lift
      let additionalMembers ← ((E.on b).sub bitLength 1).lift
      let totalMembers := result.len + additionalMembers
      if totalMembers > n then .err (.invalidInstance (.bounded n totalMembers))
      else
        let extra ← slice last.live 0 additionalMembers
        .ok (result.extend extra)

/-- `Bitlist<N>`: /repo/ssz-rs/src/bitlist.rs:122-179 -/
def Serializable.bitlistW (b : Nat) (E : Env) (n : Nat) : Serializable Bits where
  isVariableSize := true
  sizeHint := .ok 0
  serialize v := Bitlist.serializeWithLength n v true
  deserialize := Bitlist.deserializeW b E n

/-- A newtype: /repo/ssz-rs-derive/src/lib.rs:30-36, 109-119, 242-308 -/
def Serializable.newtypeW {α : Type} (T : Serializable α) : Serializable α where
  isVariableSize := T.isVariableSize
  sizeHint := if T.isVariableSize then .ok 0 else T.sizeHint
  serialize := T.serialize
  deserialize encoding := do
    let result ← T.deserialize encoding
    .ok result

/-- The fields of a derived struct, each with its `Serializable` implementation. -/
inductive FieldCodes : Type → Type 1 where
  | nil : FieldCodes Unit
  | cons {α β : Type} (T : Serializable α) (rest : FieldCodes β) : FieldCodes (α × β)

namespace FieldCodes

/-- `is_variable_size`: /repo/ssz-rs-derive/src/lib.rs:252-261 -/
def isVariableSize : {α : Type} → FieldCodes α → Bool
  | _, nil => false
  | _, cons T rest => T.isVariableSize || rest.isVariableSize

/-- The sum of `size_hint`s, added from the left: /repo/ssz-rs-derive/src/lib.rs:284-297 -/
def sizeHintSumW (b : Nat) (E : Env) : {α : Type} → FieldCodes α → Nat → Calc Nat
  | _, nil, acc => .ok acc
  | _, cons T rest, acc => do
    let s ← T.sizeHint
    let acc' ← (E.on b).add acc s
    rest.sizeHintSumW b E acc'

/-- `serializer.with_element(&self.field)?` per field: /repo/ssz-rs-derive/src/lib.rs:41-46 -/
def withElementsW (b : Nat) : {α : Type} → FieldCodes α → α → Serializer → Res SerError Serializer
  | _, nil, _, s => .ok s
  | _, cons T rest, v, s => do
    let s' ← s.withElementW b T v.1
    rest.withElementsW b v.2 s'

/-- `deserializer.parse::<T>(encoding)?` per field: /repo/ssz-rs-derive/src/lib.rs:124-132 -/
def parseAllW (b : Nat) (E : Env) (encoding : Bytes) :
    {α : Type} → FieldCodes α → ContainerDeserializer → Res DeError ContainerDeserializer
  | _, nil, d => .ok d
  | _, cons T rest, d => do
    let d' ← d.parseW b E T encoding
    rest.parseAllW b E encoding d'

/-- `field: T::deserialize(&encoding[spans[2*i]..spans[2*i+1]])?` per field:
/repo/ssz-rs-derive/src/lib.rs:134-142 -/
def initFields (encoding : Bytes) (spans : List Nat) :
    {α : Type} → FieldCodes α → Nat → Res DeError α
  | _, nil, _ => .ok ()
  | _, cons T rest, i => do
    let start ← index spans (2 * i)
    let stop ← index spans (2 * i + 1)
    let piece ← slice encoding start stop
    let v ← T.deserialize piece
    let vs ← rest.initFields encoding spans (i + 1)
    .ok (v, vs)

end FieldCodes

/-- A struct with named fields: /repo/ssz-rs-derive/src/lib.rs:41-56, 124-156, 242-308 -/
def Serializable.containerW {α : Type} (b : Nat) (E : Env) (fs : FieldCodes α) : Serializable α where
  isVariableSize := fs.isVariableSize
  sizeHint := if fs.isVariableSize then .ok 0 else fs.sizeHintSumW b E 0
  serialize v := do
    let s ← BufM.ofRes (fs.withElementsW b v {})
    s.serialize E
  deserialize encoding := do
    let d ← fs.parseAllW b E encoding {}
    let spans ← d.finalizeW b E encoding
    fs.initFields encoding spans 0

/-- The variants of a derived enum, each with the `Serializable` implementation of its field. -/
inductive VariantCodes : Type → Type 1 where
  | nil : VariantCodes Empty
  | unit {β : Type} (rest : VariantCodes β) : VariantCodes (Unit ⊕ β)
  | data {α β : Type} (T : Serializable α) (rest : VariantCodes β) : VariantCodes (α ⊕ β)

namespace VariantCodes

/-- `serialize`: /repo/ssz-rs-derive/src/lib.rs:59-95 -/
def serialize : {α : Type} → VariantCodes α → Nat → α → BufM SerError Nat
  | _, nil, _, v => v.elim
  | _, unit _, _, .inl _ => (Serializable.uint .u8).serialize (0 : BitVec 8)
  | _, unit rest, i, .inr v => rest.serialize (i + 1) v
  | _, data T _, i, .inl v => serializeWithSelector T i v
  | _, data _ rest, i, .inr v => rest.serialize (i + 1) v

/-- The arms of `match encoding[0]`: /repo/ssz-rs-derive/src/lib.rs:182-222 -/
def deserialize (x : Byte) (rest encoding : Bytes) :
    {α : Type} → VariantCodes α → Nat → Res DeError α
  | _, nil, _ => .err (.invalidByte x)
  | _, unit vs, i =>
    if x = 0 then
      if encoding.length ≠ 1 then .err (.additionalInput encoding.length 1) else .ok (.inl ())
    else (vs.deserialize x rest encoding (i + 1)).map .inr
  | _, data T vs, i =>
    if x = BitVec.ofNat 8 i then (T.deserialize rest).map .inl
    else (vs.deserialize x rest encoding (i + 1)).map .inr

end VariantCodes

/-- An enum: /repo/ssz-rs-derive/src/lib.rs:58-96, 158-237, 263-269 and 299-305 -/
def Serializable.unionW {α : Type} (vs : VariantCodes α) : Serializable α where
  isVariableSize := true
  sizeHint := .ok 0
  serialize v := vs.serialize 0 v
  deserialize encoding :=
    match encoding with
    | [] => .err (.expectedFurtherInput 0 1)
    | x :: rest => vs.deserialize x rest encoding 0

mutual

/-- The encoding and decoding of a type (lifted to the universe of the lists of fields and variants). -/
def Ty.liftedCodeW (b : Nat) (E : Env) : (t : Ty) → ULift.{1} (Serializable t.Val)
  | .uint u => ⟨Serializable.uint u⟩
  | .u256 => ⟨SimpleSerialize.u256.toSerializable⟩
  | .bool => ⟨SimpleSerialize.bool.toSerializable⟩
  | .node => ⟨SimpleSerialize.node.toSerializable⟩
  | .array t n => ⟨Serializable.arrayW b E (t.liftedCodeW b E).down n⟩
  | .vector t n => ⟨Serializable.vectorW b E (t.liftedCodeW b E).down n⟩
  | .list t n => ⟨Serializable.listW b E (t.liftedCodeW b E).down n⟩
  | .bitvector n => ⟨Serializable.bitvectorW b n⟩
  | .bitlist n => ⟨Serializable.bitlistW b E n⟩
  | .option t => ⟨Serializable.option (t.liftedCodeW b E).down⟩
  | .newtype t => ⟨Serializable.newtypeW (t.liftedCodeW b E).down⟩
  | .container fs => ⟨Serializable.containerW b E (fs.codesW b E)⟩
  | .union vs => ⟨Serializable.unionW (vs.codesW b E)⟩

/-- The fields of a struct. -/
def Fields.codesW (b : Nat) (E : Env) : (fs : Fields) → FieldCodes fs.Val
  | .nil => .nil
  | .cons _ t rest => .cons (t.liftedCodeW b E).down (rest.codesW b E)

/-- The variants of an enum. -/
def Variants.codesW (b : Nat) (E : Env) : (vs : Variants) → VariantCodes vs.Val
  | .nil => .nil
  | .unit rest => .unit (rest.codesW b E)
  | .data t rest => .data (t.liftedCodeW b E).down (rest.codesW b E)

end

/-- The encoding and decoding of a type on a target with `b` bits. -/
def Ty.codeW (b : Nat) (E : Env) (t : Ty) : Serializable t.Val := (t.liftedCodeW b E).down

end Ssz
