import Verif.Model.Union

/-!
# Derived containers (structs) and unions (enums)

/repo/ssz-rs-derive/src/lib.rs. The code generated by the macro for a struct is a straight-line
sequence over its fields, and for an enum a match over its variants; both become recursion over the
list of fields or variants.
-/

namespace Ssz

/-- The named fields of a derived struct, each with its `SimpleSerialize` implementation; the index
is the type of values of the struct (nested pairs). -/
inductive FieldImpls : Type → Type 1 where
  | nil : FieldImpls Unit
  | cons {α β : Type} (name : String) (T : SimpleSerialize α) (rest : FieldImpls β) :
      FieldImpls (α × β)

namespace FieldImpls

/-- `fields.len()` -/
def count : {α : Type} → FieldImpls α → Nat
  | _, nil => 0
  | _, cons _ _ rest => 1 + rest.count

/-- `is_variable_size`: /repo/ssz-rs-derive/src/lib.rs:252-261 -/
def isVariableSize : {α : Type} → FieldImpls α → Bool
  | _, nil => false
  | _, cons _ T rest => T.isVariableSize || rest.isVariableSize

/-- The sum of `size_hint`s, added from the left: /repo/ssz-rs-derive/src/lib.rs:284-297 -/
def sizeHintSum (E : Env) : {α : Type} → FieldImpls α → Nat → Calc Nat
  | _, nil, acc => .ok acc
  | _, cons _ T rest, acc => do
    let s ← T.sizeHint
    let acc' ← E.add acc s
    rest.sizeHintSum E acc'

/-- `serializer.with_element(&self.field)?` per field: /repo/ssz-rs-derive/src/lib.rs:41-46 -/
def withElements : {α : Type} → FieldImpls α → α → Serializer → Res SerError Serializer
  | _, nil, _, s => .ok s
  | _, cons _ T rest, v, s => do
    let s' ← s.withElement T.toSerializable v.1
    rest.withElements v.2 s'

/-- `deserializer.parse::<T>(encoding)?` per field: /repo/ssz-rs-derive/src/lib.rs:124-132 -/
def parseAll (E : Env) (encoding : Bytes) :
    {α : Type} → FieldImpls α → ContainerDeserializer → Res DeError ContainerDeserializer
  | _, nil, d => .ok d
  | _, cons _ T rest, d => do
    let d' ← d.parse E T.toSerializable encoding
    rest.parseAll E encoding d'

/-- `field: T::deserialize(&encoding[spans[2*i]..spans[2*i+1]])?` per field:
/repo/ssz-rs-derive/src/lib.rs:134-142 -/
def initFields (encoding : Bytes) (spans : List Nat) :
    {α : Type} → FieldImpls α → Nat → Res DeError α
  | _, nil, _ => .ok ()
  | _, cons _ T rest, i => do
    let start ← index spans (2 * i)
    let stop ← index spans (2 * i + 1)
    let piece ← slice encoding start stop
    let v ← T.deserialize piece
    let vs ← rest.initFields encoding spans (i + 1)
    .ok (v, vs)

/-- `assemble_chunks`, the copies into the zeroed buffer:
/repo/ssz-rs-derive/src/lib.rs:326-342 -/
def assembleLoop : {α : Type} → FieldImpls α → α → Nat → Bytes → Res MerkError Bytes
  | _, nil, _, _, chunks => .ok chunks
  | _, cons _ T rest, v, i, chunks => do
    let chunk ← T.hashTreeRoot v.1
    let chunks' ← copyInto chunks (i * 32) ((i + 1) * 32) chunk.1
    rest.assembleLoop v.2 (i + 1) chunks'

/-- `assemble_chunks`: /repo/ssz-rs-derive/src/lib.rs:338-342 -/
def assembleChunks {α : Type} (fs : FieldImpls α) (v : α) : Res MerkError Bytes :=
  fs.assembleLoop v 0 (List.replicate (fs.count * 32) 0)

/-- `__ssz_rs_generalized_index_by_field`: /repo/ssz-rs-derive/src/lib.rs:443-466. `total` is
`Self::chunk_count()`, `i` the position of the first field of the list. -/
def generalizedIndexByField (E : Env) (total parent : Nat) (path : List PathElement)
    (field : String) : {α : Type} → FieldImpls α → Nat → Res MerkError Nat
  | _, nil, _ => .err (.invalidPathElement (.field field))
  | _, cons name T rest, i =>
    if field = name then do
      let p ← (E.nextPowerOfTwo total).lift
      let b ← (E.mul parent p).lift
      let child ← (E.add b i).lift
      T.computeGeneralizedIndex child path
    else rest.generalizedIndexByField E total parent path field (i + 1)

/-- The `match index { i => prover.compute_proof(&self.field), .. }` of `prove_element`:
/repo/ssz-rs-derive/src/lib.rs:599-620; past the last arm is `unreachable!`. -/
def proveField (E : Env) (prover : Prover) :
    {α : Type} → FieldImpls α → α → Nat → Res MerkError Prover
  | _, nil, _, _ => .panic
  | _, cons _ T _, v, 0 => computeProof E T v.1 prover
  | _, cons _ _ rest, v, i + 1 => rest.proveField E prover v.2 i

end FieldImpls

/-- A struct with named fields and derived `SimpleSerialize`:
/repo/ssz-rs-derive/src/lib.rs:41-56 (serialize), 124-156 (deserialize), 242-308 (size),
326-347 (`hash_tree_root`), 429-469 and 549-558 (generalized index), 596-624 (prove). -/
def SimpleSerialize.container {α : Type} (E : Env) (fs : FieldImpls α) : SimpleSerialize α where
  isVariableSize := fs.isVariableSize
  sizeHint := if fs.isVariableSize then .ok 0 else fs.sizeHintSum E 0
  serialize v := do
    let s ← BufM.ofRes (fs.withElements v {})
    s.serialize E
  deserialize encoding := do
    let d ← fs.parseAll E encoding {}
    let spans ← d.finalize E encoding
    fs.initFields encoding spans 0
  hashTreeRoot v := do
    let chunks ← fs.assembleChunks v
    merkleize E chunks none
  isCompositeType := defaultIsCompositeType
  itemLength := defaultItemLength
  chunkCount := .ok fs.count
  computeGeneralizedIndex parent path :=
    match path with
    | [] => .ok parent
    | .field name :: rest => fs.generalizedIndexByField E fs.count parent rest name 0
    | elem :: _ => .err (.invalidPathElement elem)
  chunks v := fs.assembleChunks v
  proveElement v i prover :=
    if i ≥ fs.count then .err .invalidInnerIndex
    else fs.proveField E prover v i
  decoration := defaultDecoration

/-- The variants of a derived enum; `unit` is a unit variant (which must be called `None`), `data` a
variant with one unnamed field. The index is the type of values of the enum (nested sums). -/
inductive VariantImpls : Type → Type 1 where
  | nil : VariantImpls Empty
  | unit {β : Type} (rest : VariantImpls β) : VariantImpls (Unit ⊕ β)
  | data {α β : Type} (T : SimpleSerialize α) (rest : VariantImpls β) : VariantImpls (α ⊕ β)

namespace VariantImpls

/-- `data.variants.len()` -/
def count : {α : Type} → VariantImpls α → Nat
  | _, nil => 0
  | _, unit rest => 1 + rest.count
  | _, data _ rest => 1 + rest.count

/-- `serialize`: /repo/ssz-rs-derive/src/lib.rs:59-95; `i` is the position of the first variant of
the list, written as `#i as u8`. -/
def serialize : {α : Type} → VariantImpls α → Nat → α → BufM SerError Nat
  | _, nil, _, v => v.elim
  | _, unit _, _, .inl _ => (Serializable.uint .u8).serialize (0 : BitVec 8)
  | _, unit rest, i, .inr v => rest.serialize (i + 1) v
  | _, data T _, i, .inl v => serializeWithSelector T.toSerializable i v
  | _, data _ rest, i, .inr v => rest.serialize (i + 1) v

/-- The arms of `match encoding[0]`, tried in order: /repo/ssz-rs-derive/src/lib.rs:182-222. The arm
of a unit variant is the literal `0`. -/
def deserialize (b : Byte) (rest encoding : Bytes) :
    {α : Type} → VariantImpls α → Nat → Res DeError α
  | _, nil, _ => .err (.invalidByte b)
  | _, unit vs, i =>
    if b = 0 then
      if encoding.length ≠ 1 then .err (.additionalInput encoding.length 1) else .ok (.inl ())
    else (vs.deserialize b rest encoding (i + 1)).map .inr
  | _, data T vs, i =>
    if b = BitVec.ofNat 8 i then (T.deserialize rest).map .inl
    else (vs.deserialize b rest encoding (i + 1)).map .inr

/-- `hash_tree_root`: /repo/ssz-rs-derive/src/lib.rs:349-394 -/
def hashTreeRoot (E : Env) : {α : Type} → VariantImpls α → Nat → α → Res MerkError Node
  | _, nil, _, v => v.elim
  | _, unit _, _, .inl _ => mixInDecoration E zeroNode 0
  | _, unit rest, i, .inr v => rest.hashTreeRoot E (i + 1) v
  | _, data T _, i, .inl v => do
    let chunks ← T.hashTreeRoot v
    mixInDecoration E chunks i
  | _, data _ rest, i, .inr v => rest.hashTreeRoot E (i + 1) v

/-- `assemble_chunks`: /repo/ssz-rs-derive/src/lib.rs:368-400 -/
def chunks : {α : Type} → VariantImpls α → α → Res MerkError Bytes
  | _, nil, v => v.elim
  | _, unit _, .inl _ => .ok zeroNode.1
  | _, unit rest, .inr v => rest.chunks v
  | _, data T _, .inl v => (T.hashTreeRoot v).map (·.1)
  | _, data _ rest, .inr v => rest.chunks v

/-- The arms of `match *i` in `compute_generalized_index`:
/repo/ssz-rs-derive/src/lib.rs:484-515, 525-528; past the last arm is `unreachable!`. -/
def generalizedIndex (child : Nat) (rest : List PathElement) :
    {α : Type} → VariantImpls α → Nat → Res MerkError Nat
  | _, nil, _ => .panic
  | _, unit _, 0 => if rest.isEmpty then .ok child else .err (.invalidPath rest)
  | _, unit vs, i + 1 => vs.generalizedIndex child rest i
  | _, data T _, 0 => T.computeGeneralizedIndex child rest
  | _, data _ vs, i + 1 => vs.generalizedIndex child rest i

/-- The match on the active variant in `prove_element`: /repo/ssz-rs-derive/src/lib.rs:647-690 -/
def proveVariant (E : Env) (prover : Prover) :
    {α : Type} → VariantImpls α → α → Res MerkError Prover
  | _, nil, v => v.elim
  | _, unit _, .inl _ => computeProof E (SimpleSerialize.uint .usize) (0 : BitVec 64) prover
  | _, unit rest, .inr v => rest.proveVariant E prover v
  | _, data T _, .inl v => computeProof E T v prover
  | _, data _ rest, .inr v => rest.proveVariant E prover v

/-- `decoration`, the position of the active variant: /repo/ssz-rs-derive/src/lib.rs:654-673 -/
def decoration : {α : Type} → VariantImpls α → Nat → α → Nat
  | _, nil, _, v => v.elim
  | _, unit _, i, .inl _ => i
  | _, unit rest, i, .inr v => rest.decoration (i + 1) v
  | _, data _ _, i, .inl _ => i
  | _, data _ rest, i, .inr v => rest.decoration (i + 1) v

end VariantImpls

/-- An enum with derived `SimpleSerialize` (no `transparent` attribute):
/repo/ssz-rs-derive/src/lib.rs:58-96 (serialize), 158-237 (deserialize), 263-269 and 299-305 (size),
349-401 (`hash_tree_root`), 481-544 and 571 (generalized index), 644-703 (prove). -/
def SimpleSerialize.union {α : Type} (E : Env) (vs : VariantImpls α) : SimpleSerialize α where
  isVariableSize := true
  sizeHint := .ok 0
  serialize v := vs.serialize 0 v
  deserialize encoding :=
    match encoding with
    | [] => .err (.expectedFurtherInput 0 1)
    | b :: rest => vs.deserialize b rest encoding 0
  hashTreeRoot v := vs.hashTreeRoot E 0 v
  isCompositeType := defaultIsCompositeType
  itemLength := defaultItemLength
  chunkCount := defaultChunkCount
  computeGeneralizedIndex parent path :=
    match path with
    | [] => .ok parent
    | .index i :: rest =>
      if i ≥ vs.count then .err (.invalidPathElement (.index i))
      else do
        let child ← (E.mul parent 2).lift
        vs.generalizedIndex child rest i
    | .selector :: rest =>
      if rest.isEmpty then do
        let twice ← (E.mul parent 2).lift
        (E.add twice 1).lift
      else .err (.invalidPath rest)
    | elem :: _ => .err (.invalidPathElement elem)
  chunks v := vs.chunks v
  proveElement v i prover :=
    if i ≥ vs.count then .err .invalidInnerIndex
    else vs.proveVariant E prover v
  decoration v := some (vs.decoration 0 v)

/-- An enum with `#[ssz(transparent)]` and derived `Serializable` and `HashTreeRoot`: the variants
with their implementations, in declaration order. -/
inductive TransparentImpls : Type → Type 1 where
  | nil : TransparentImpls Empty
  | cons {α β : Type} (T : Serializable α) (hashTreeRoot : α → Res MerkError Node)
      (rest : TransparentImpls β) : TransparentImpls (α ⊕ β)

namespace TransparentImpls

/-- `serialize`: /repo/ssz-rs-derive/src/lib.rs:63-66 -/
def serialize : {α : Type} → TransparentImpls α → α → BufM SerError Nat
  | _, nil, v => v.elim
  | _, cons T _ _, .inl v => T.serialize v
  | _, cons _ _ rest, .inr v => rest.serialize v

/-- The sequence of `if let Ok(value) = T::deserialize(encoding) { return .. }` in reverse order of
declaration: /repo/ssz-rs-derive/src/lib.rs:159-180. A panic inside a variant propagates. -/
def deserializeBody (encoding : Bytes) : {α : Type} → TransparentImpls α → Res DeError α
  | _, nil => .err .noMatchingVariant
  | _, cons T _ rest =>
    match rest.deserializeBody encoding with
    | .ok v => .ok (.inr v)
    | .panic => .panic
    | .err _ =>
      match T.deserialize encoding with
      | .ok v => .ok (.inl v)
      | .panic => .panic
      | .err _ => .err .noMatchingVariant

/-- `deserialize`: /repo/ssz-rs-derive/src/lib.rs:225-236 -/
def deserialize {α : Type} (vs : TransparentImpls α) (encoding : Bytes) : Res DeError α :=
  if encoding.isEmpty then .err (.expectedFurtherInput 0 1)
  else vs.deserializeBody encoding

/-- `hash_tree_root`: /repo/ssz-rs-derive/src/lib.rs:355-358 -/
def hashTreeRoot : {α : Type} → TransparentImpls α → α → Res MerkError Node
  | _, nil, v => v.elim
  | _, cons _ htr _, .inl v => htr v
  | _, cons _ _ rest, .inr v => rest.hashTreeRoot v

/-- `Serializable` for a transparent enum; `is_variable_size` and `size_hint` are those of any enum:
/repo/ssz-rs-derive/src/lib.rs:263-269, 299-305. -/
def serializable {α : Type} (vs : TransparentImpls α) : Serializable α where
  isVariableSize := true
  sizeHint := .ok 0
  serialize := vs.serialize
  deserialize := vs.deserialize

end TransparentImpls

/-- An enum all of whose variants have one unnamed field, each with its `SimpleSerialize`
implementation. -/
inductive PayloadImpls : Type → Type 1 where
  | nil : PayloadImpls Empty
  | cons {α β : Type} (T : SimpleSerialize α) (rest : PayloadImpls β) : PayloadImpls (α ⊕ β)

namespace PayloadImpls

/-- The input of `Serializable` and `HashTreeRoot` for a transparent enum. -/
def transparent : {α : Type} → PayloadImpls α → TransparentImpls α
  | _, nil => .nil
  | _, cons T rest => .cons T.toSerializable T.hashTreeRoot rest.transparent

/-- The input of `GeneralizedIndexable` and `Prove`. -/
def variants : {α : Type} → PayloadImpls α → VariantImpls α
  | _, nil => .nil
  | _, cons T rest => .data T rest.variants

end PayloadImpls

/-- An enum with `#[ssz(transparent)]`, derived `Serializable` and `HashTreeRoot` (which read the
attribute: /repo/ssz-rs-derive/src/lib.rs:931-963) and derived `GeneralizedIndexable` and `Prove`
(which do not: lib.rs:967-992, and treat it as any other enum: lib.rs:481-544, 571, 644-703).
`chunks` calls the `assemble_chunks` of lib.rs:372-374, the same with and without the attribute. -/
def SimpleSerialize.transparent {α : Type} (E : Env) (ps : PayloadImpls α) : SimpleSerialize α :=
  { SimpleSerialize.union E ps.variants with
    toSerializable := ps.transparent.serializable
    hashTreeRoot := ps.transparent.hashTreeRoot }

end Ssz
