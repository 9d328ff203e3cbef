import Verif.Model.Proofs

/-!
# `Bitvector` and `Bitlist`

/repo/ssz-rs/src/bitvector.rs, /repo/ssz-rs/src/bitlist.rs, and the operations of
`bitvec::vec::BitVec<u8, Lsb0>` they use.

The `bitvec` crate is not part of /repo; its behaviour is an assumption of the model, written out
in the definitions of this section and listed in DESIGN.md.
-/

namespace Ssz

/-- Bits of a byte, least significant first (`Lsb0`). -/
def bitsOfByte (b : Byte) : List Bool := (List.range 8).map fun i => b.getLsbD i

/-- The number with the given bits, least significant first. -/
def natOfBits : List Bool → Nat
  | [] => 0
  | b :: bs => b.toNat + 2 * natOfBits bs

/-- A byte from (at most eight) bits, least significant first; missing bits are zero. -/
def byteOfBits (bits : List Bool) : Byte := BitVec.ofNat 8 (natOfBits bits)

/-- `chunks(8)` of a bit sequence: groups of eight, the last one possibly shorter. -/
def chunks8 (bits : List Bool) : List (List Bool) :=
  if _h : bits = [] then [] else bits.take 8 :: chunks8 (bits.drop 8)
termination_by bits.length
decreasing_by
  have : 0 < bits.length := List.length_pos_iff.mpr _h
  simp only [List.length_drop]; omega

/-- `BitVec<u8, Lsb0>`: the live bits (those below `len`) and the dead bits of the last byte of the
allocation, which exist in memory (`as_raw_slice` shows them) but are not part of the value. -/
structure Bits where
  live : List Bool
  dead : List Bool
  deriving DecidableEq

namespace Bits

/-- The representation invariant of `bitvec`: the dead bits complete the last byte. -/
def WF (b : Bits) : Prop := b.dead.length = (8 - b.live.length % 8) % 8

/-- `BitVec::new()` -/
def new : Bits := ⟨[], []⟩

/-- `BitVec::repeat(false, n)`: fresh bytes, all zero. -/
def repeatFalse (n : Nat) : Bits :=
  ⟨List.replicate n false, List.replicate ((8 - n % 8) % 8) false⟩

/-- `BitVec::from_slice(bytes)` / `from_element(byte)`: all bits of the given bytes. -/
def fromBytes (bytes : Bytes) : Bits := ⟨bytes.flatMap bitsOfByte, []⟩

/-- `as_raw_slice()`: the bytes in memory, dead bits included. -/
def rawSlice (b : Bits) : Bytes := (chunks8 (b.live ++ b.dead)).map byteOfBits

/-- `len()` -/
def len (b : Bits) : Nat := b.live.length

/-- `push(bit)`: a fresh byte starts with zero bits; otherwise the first dead bit is overwritten. -/
def push (b : Bits) (bit : Bool) : Bits :=
  match b.dead with
  | [] => ⟨b.live ++ [bit], List.replicate 7 false⟩
  | _ :: dead => ⟨b.live ++ [bit], dead⟩

/-- `pop()`: only the length changes; the removed bit stays in memory as a dead bit, unless its
byte is no longer used at all. -/
def pop (b : Bits) : Bits :=
  match b.live.getLast? with
  | none => b
  | some bit =>
    if b.live.length % 8 = 1 then ⟨b.live.dropLast, []⟩
    else ⟨b.live.dropLast, bit :: b.dead⟩

/-- `trailing_zeros()`: the number of unset bits after the last set bit. -/
def trailingZeros (b : Bits) : Nat := (b.live.reverse.takeWhile (fun x => !x)).length

/-- `extend_from_bitslice`: appends bit by bit. -/
def extend (b : Bits) (bits : List Bool) : Bits := bits.foldl push b

/-- `get(index)`: bitvector.rs:70-72, bitlist.rs:57-59 -/
def get (b : Bits) (i : Nat) : Option Bool := b.live[i]?

/-- `set(index, value)`, returning the previous bit: bitvector.rs:76-82, bitlist.rs:63-69 -/
def set (b : Bits) (i : Nat) (value : Bool) : Bits × Option Bool :=
  match b.live[i]? with
  | some old => (⟨b.live.set i value, b.dead⟩, some old)
  | none => (b, none)

end Bits

/-! ## `Bitvector<N>` -/

/-- `byte_length`: /repo/ssz-rs/src/bitvector.rs:22-24 -/
def bitvectorByteLength (n : Nat) : Nat := (n + 7) / 8

/-- `Default` for `Bitvector`: /repo/ssz-rs/src/bitvector.rs:58-66 -/
def Bitvector.default {ε : Type} (n : Nat) : Res ε Bits :=
  if n = 0 then .panic else .ok (Bits.repeatFalse n)

/-- The loop `for (slot, byte) in chunks_mut(8).zip(encoding)`: each slot takes its low bits from
the byte (`store_le`): /repo/ssz-rs/src/bitvector.rs:155-157. -/
def storeBytes : List (List Bool) → Bytes → List Bool
  | slot :: slots, byte :: bytes => (bitsOfByte byte).take slot.length ++ storeBytes slots bytes
  | slots, [] => slots.flatten
  | [], _ => []

/-- `Serialize` for `Bitvector`: /repo/ssz-rs/src/bitvector.rs:120-132 (`load` reads the bits of a
group as an integer). -/
def Bitvector.serialize (n : Nat) (v : Bits) : BufM SerError Nat :=
  if n = 0 then BufM.ofRes (.err (.invalidType (.invalidBound n)))
  else do
    BufM.append ((chunks8 v.live).map byteOfBits)
    BufM.ofRes (.ok (bitvectorByteLength n))

/-- `Deserialize` for `Bitvector`: /repo/ssz-rs/src/bitvector.rs:134-168 -/
def Bitvector.deserialize (n : Nat) (encoding : Bytes) : Res DeError Bits :=
  if n = 0 then .err (.invalidType (.invalidBound n))
  else
    let expected := bitvectorByteLength n
    if encoding.length < expected then .err (.expectedFurtherInput encoding.length expected)
    else if encoding.length > expected then .err (.additionalInput encoding.length expected)
    else do
      let init ← Bitvector.default n
      let result : Bits := ⟨storeBytes (chunks8 init.live) encoding, init.dead⟩
      let remainderCount := n % 8
      if remainderCount ≠ 0 then
        match encoding.getLast? with
        | none => .panic
        | some lastByte =>
          if lastByte >>> remainderCount ≠ 0 then .err (.invalidByte lastByte)
          else .ok result
      else .ok result

/-- `pack_bits` for `Bitvector`: /repo/ssz-rs/src/bitvector.rs:84-89 -/
def Bitvector.packBits (n : Nat) (v : Bits) : Res MerkError Bytes :=
  match Bitvector.serialize n v [] with
  | (data, .ok _) => .ok (packBytes data)
  | (_, .err e) => .err (.serializationError e)
  | (_, .panic) => .panic

/-- `chunk_count` for `Bitvector` and `Bitlist`: bitvector.rs:91-93, bitlist.rs:103-105 -/
def bitsChunkCount (n : Nat) : Nat := (n + 255) / 256

/-- `compute_generalized_index` for `Bitvector`: /repo/ssz-rs/src/bitvector.rs:182-204 -/
def bitvectorGeneralizedIndex (E : Env) (n : Nat) (parent : Nat) (path : List PathElement) :
    Res MerkError Nat :=
  match path with
  | [] => .ok parent
  | .index i :: rest =>
    if i ≥ n then .err (.invalidPathElement (.index i))
    else do
      let chunkPosition := i / 256
      let p ← (E.nextPowerOfTwo (bitsChunkCount n)).lift
      let b ← (E.mul parent p).lift
      let child ← (E.add b chunkPosition).lift
      SimpleSerialize.bool.computeGeneralizedIndex child rest
  | elem :: _ => .err (.invalidPathElement elem)

/-- `SimpleSerialize` for `Bitvector`: /repo/ssz-rs/src/bitvector.rs:110-213 -/
def SimpleSerialize.bitvector (E : Env) (n : Nat) : SimpleSerialize Bits where
  isVariableSize := false
  sizeHint := .ok (bitvectorByteLength n)
  serialize := Bitvector.serialize n
  deserialize := Bitvector.deserialize n
  hashTreeRoot v := do
    let chunks ← Bitvector.packBits n v
    merkleize E chunks (some (bitsChunkCount n))
  isCompositeType := defaultIsCompositeType
  itemLength := defaultItemLength
  chunkCount := .ok (bitsChunkCount n)
  computeGeneralizedIndex := bitvectorGeneralizedIndex E n
  chunks v := Bitvector.packBits n v
  proveElement := defaultProveElement
  decoration := defaultDecoration

/-- The loop `for (i, &bit) in value.iter().enumerate() { result.set(i, bit); }`:
/repo/ssz-rs/src/bitvector.rs:232-234. -/
def setAll : Nat → List Bool → Bits → Bits
  | _, [], b => b
  | i, x :: xs, b => setAll (i + 1) xs (b.set i x).1

/-- `TryFrom<&[bool]>` for `Bitvector`: /repo/ssz-rs/src/bitvector.rs:223-238 -/
def Bitvector.tryFromBools (n : Nat) (value : List Bool) : Res Error Bits :=
  if value.length ≠ n then .err (.instance (.exact n value.length))
  else do
    let init ← Bitvector.default n
    .ok (setAll 0 value init)

/-- `TryFrom<&[u8]>` for `Bitvector`: /repo/ssz-rs/src/bitvector.rs:215-221 -/
def Bitvector.tryFromBytes (n : Nat) (value : Bytes) : Res Error Bits :=
  (Bitvector.deserialize n value).mapErr .deserialize

/-! ## `Bitlist<N>` -/

/-- `byte_length`: /repo/ssz-rs/src/bitlist.rs:20-22 -/
def bitlistByteLength (E : Env) (n : Nat) : Calc Nat := do
  let a ← E.add n 8
  let b ← E.sub a 1
  let c ← E.add b 1
  .ok (c / 8)

/-- `buffer.last_mut()` then `*last |= mask`. -/
def orLast (mask : Byte) : Bytes → Option Bytes
  | [] => none
  | [b] => some [b ||| mask]
  | b :: bs => (orLast mask bs).map (b :: ·)

/-- `serialize_with_length`: /repo/ssz-rs/src/bitlist.rs:78-101 -/
def Bitlist.serializeWithLength (n : Nat) (v : Bits) (withLengthBit : Bool) :
    BufM SerError Nat := fun buffer =>
  if v.len > n then (buffer, .err (.invalidInstance (.bounded n v.len)))
  else
    let startLen := buffer.length
    let buffer1 := buffer ++ v.rawSlice
    if withLengthBit then
      let markerIndex := v.len % 8
      if markerIndex = 0 then
        let buffer2 := buffer1 ++ [1]
        (buffer2, .ok (buffer2.length - startLen))
      else
        match orLast ((1 : Byte) <<< markerIndex) buffer1 with
        | none => (buffer1, .panic)
        | some buffer2 => (buffer2, .ok (buffer2.length - startLen))
    else (buffer1, .ok (buffer1.length - startLen))

/-- `Deserialize` for `Bitlist`: /repo/ssz-rs/src/bitlist.rs:138-179 -/
def Bitlist.deserialize (E : Env) (n : Nat) (encoding : Bytes) : Res DeError Bits :=
  match encoding.getLast? with
  | none => .err (.expectedFurtherInput 0 1)
  | some lastByte => do
    let maxLen ← (bitlistByteLength E n).lift
    if encoding.length > maxLen then .err (.additionalInput encoding.length maxLen)
    else if lastByte = 0 then .err (.invalidByte lastByte)
    else
      let result := Bits.fromBytes encoding.dropLast
      let last := Bits.fromBytes [lastByte]
      let bitLength ← (E.sub 8 last.trailingZeros).lift
      let additionalMembers ← (E.sub bitLength 1).lift
      let totalMembers := result.len + additionalMembers
      if totalMembers > n then .err (.invalidInstance (.bounded n totalMembers))
      else
        let extra ← slice last.live 0 additionalMembers
        .ok (result.extend extra)

/-- `pack_bits` for `Bitlist`: /repo/ssz-rs/src/bitlist.rs:71-76 -/
def Bitlist.packBits (n : Nat) (v : Bits) : Res MerkError Bytes :=
  match Bitlist.serializeWithLength n v false [] with
  | (data, .ok _) => .ok (packBytes data)
  | (_, .err e) => .err (.serializationError e)
  | (_, .panic) => .panic

/-- `compute_generalized_index` for `Bitlist`: /repo/ssz-rs/src/bitlist.rs:194-217 -/
def bitlistGeneralizedIndex (E : Env) (n : Nat) (parent : Nat) (path : List PathElement) :
    Res MerkError Nat :=
  match path with
  | [] => .ok parent
  | .index i :: rest =>
    if i ≥ n then .err (.invalidPathElement (.index i))
    else do
      let chunkPosition := i / 256
      let twice ← (E.mul parent 2).lift
      let p ← (E.nextPowerOfTwo (bitsChunkCount n)).lift
      let b ← (E.mul twice p).lift
      let child ← (E.add b chunkPosition).lift
      SimpleSerialize.bool.computeGeneralizedIndex child rest
  | elem :: _ => .err (.invalidPathElement elem)

/-- `SimpleSerialize` for `Bitlist`: /repo/ssz-rs/src/bitlist.rs:122-230 -/
def SimpleSerialize.bitlist (E : Env) (n : Nat) : SimpleSerialize Bits where
  isVariableSize := true
  sizeHint := .ok 0
  serialize v := Bitlist.serializeWithLength n v true
  deserialize := Bitlist.deserialize E n
  hashTreeRoot v := do
    let chunks ← Bitlist.packBits n v
    let dataRoot ← merkleize E chunks (some (bitsChunkCount n))
    mixInDecoration E dataRoot v.len
  isCompositeType := defaultIsCompositeType
  itemLength := defaultItemLength
  chunkCount := .ok (bitsChunkCount n)
  computeGeneralizedIndex := bitlistGeneralizedIndex E n
  chunks v := Bitlist.packBits n v
  proveElement := defaultProveElement
  decoration v := some v.len

/-- `TryFrom<&[bool]>` for `Bitlist`: /repo/ssz-rs/src/bitlist.rs:240-255 -/
def Bitlist.tryFromBools (n : Nat) (value : List Bool) : Res Error Bits :=
  if value.length > n then .err (.instance (.bounded n value.length))
  else .ok (value.foldl Bits.push Bits.new)

/-- `TryFrom<&[u8]>` for `Bitlist`: /repo/ssz-rs/src/bitlist.rs:232-238 -/
def Bitlist.tryFromBytes (E : Env) (n : Nat) (value : Bytes) : Res Error Bits :=
  (Bitlist.deserialize E n value).mapErr .deserialize

end Ssz
