import Verif.Model.Collections
import Verif.Model.Bits

/-!
# `Option<T>` and newtype structs

/repo/ssz-rs/src/union.rs and the tuple-struct cases of /repo/ssz-rs-derive/src/lib.rs
-/

namespace Ssz

variable {α : Type}

/-- `selector.serialize(buffer)?` followed by `value.serialize(buffer)?`; the selector stays in the
buffer when the value fails to serialize. -/
def serializeWithSelector (T : Serializable α) (selector : Nat) (v : α) : BufM SerError Nat := do
  let selectorBytes ← (Serializable.uint .u8).serialize (BitVec.ofNat 8 selector)
  let valueBytes ← T.serialize v
  BufM.ofRes (.ok (selectorBytes + valueBytes))

/-- `Serializable`, `Serialize`, `Deserialize` for `Option<T>`: /repo/ssz-rs/src/union.rs:21-75 -/
def Serializable.option (T : Serializable α) : Serializable (Option α) where
  isVariableSize := true
  sizeHint := .ok 0
  serialize
    | some data => serializeWithSelector T 1 data
    | none => (Serializable.uint .u8).serialize (0 : BitVec 8)
  deserialize encoding :=
    match encoding with
    | [] => .err (.expectedFurtherInput 0 1)
    | b :: rest =>
      if b = 0 then
        if encoding.length ≠ 1 then .err (.additionalInput encoding.length 1) else .ok none
      else if b = 1 then do
        let inner ← T.deserialize rest
        .ok (some inner)
      else .err (.invalidByte b)

/-- `Prove::chunks` for `Option<T>`: /repo/ssz-rs/src/union.rs:136-144 -/
def optionChunks (T : SimpleSerialize α) : Option α → Res MerkError Bytes
  | some value => (T.hashTreeRoot value).map (·.1)
  | none => .ok (List.replicate 32 0)

/-- `SimpleSerialize` for `Option<T>`: /repo/ssz-rs/src/union.rs:77-168 -/
def SimpleSerialize.option (E : Env) (T : SimpleSerialize α) : SimpleSerialize (Option α) where
  toSerializable := Serializable.option T.toSerializable
  hashTreeRoot v := do
    let bytes ← optionChunks T v
    let chunks ← toNode bytes
    match v with
    | some _ => mixInDecoration E chunks 1
    | none => mixInDecoration E chunks 0
  isCompositeType := defaultIsCompositeType
  itemLength := defaultItemLength
  chunkCount := defaultChunkCount
  computeGeneralizedIndex parent path :=
    match path with
    | [] => .ok parent
    | .index i :: rest =>
      if i ≥ 2 then .err (.invalidPathElement (.index i))
      else do
        let child ← (E.mul parent 2).lift
        if i = 0 then
          if rest.isEmpty then .ok child else .err (.invalidPath rest)
        else T.computeGeneralizedIndex child rest
    | .selector :: rest =>
      if rest.isEmpty then do
        let twice ← (E.mul parent 2).lift
        (E.add twice 1).lift
      else .err (.invalidPath rest)
    | elem :: _ => .err (.invalidPathElement elem)
  chunks v := optionChunks T v
  proveElement v i prover :=
    if i ≥ 2 then .err .invalidInnerIndex
    else
      match v with
      | some value => computeProof E T value prover
      | none => computeProof E (SimpleSerialize.uint .usize) (0 : BitVec 64) prover
  decoration
    | some _ => some 1
    | none => some 0

/-- A newtype `struct Foo(T)` with derived `SimpleSerialize`, values identified with those of `T`:
/repo/ssz-rs-derive/src/lib.rs:30-36 (serialize), 109-119 (deserialize), 242-308 (size),
326-347 (`hash_tree_root`, through a one-chunk `assemble_chunks`), 471-478 and 559-568 (generalized
index), 625-641 (prove). `is_composite_type` and `item_length` keep their trait defaults. -/
def SimpleSerialize.newtype (E : Env) (T : SimpleSerialize α) : SimpleSerialize α where
  isVariableSize := T.isVariableSize
  sizeHint := if T.isVariableSize then .ok 0 else T.sizeHint
  serialize := T.serialize
  deserialize encoding := do
    let result ← T.deserialize encoding
    .ok result
  hashTreeRoot v := do
    let chunk ← T.hashTreeRoot v
    let chunks ← copyInto (List.replicate (1 * 32) 0) (0 * 32) ((0 + 1) * 32) chunk.1
    merkleize E chunks none
  isCompositeType := defaultIsCompositeType
  itemLength := defaultItemLength
  chunkCount := T.chunkCount
  computeGeneralizedIndex := T.computeGeneralizedIndex
  chunks := T.chunks
  proveElement := T.proveElement
  decoration := T.decoration

end Ssz
