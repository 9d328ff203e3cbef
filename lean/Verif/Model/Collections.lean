import Verif.Model.Proofs

/-!
# Arrays, `Vector`, `List`

/repo/ssz-rs/src/array.rs, /repo/ssz-rs/src/vector.rs, /repo/ssz-rs/src/list.rs
-/

namespace Ssz

variable {α : Type}

/-! ## Arrays `[T; N]` -/

/-- The length check for fixed-size elements: array.rs:53-67, vector.rs:185-199 (the same code). -/
def checkVectorLength (E : Env) (T : Serializable α) (n : Nat) (encoding : Bytes) :
    Res DeError Unit :=
  if T.isVariableSize then .ok ()
  else do
    let s ← T.sizeHint.lift
    let expected ← (E.mul n s).lift
    if encoding.length < expected then .err (.expectedFurtherInput encoding.length expected)
    else if encoding.length > expected then .err (.additionalInput encoding.length expected)
    else .ok ()

/-- `Serializable`, `Serialize`, `Deserialize` for `[T; N]`: /repo/ssz-rs/src/array.rs:15-73 -/
def Serializable.array (E : Env) (T : Serializable α) (n : Nat) :
    Serializable { l : List α // l.length = n } where
  isVariableSize := T.isVariableSize
  sizeHint := do
    let s ← T.sizeHint
    E.mul s n
  serialize v :=
    if n = 0 then BufM.ofRes (.err (.invalidType (.invalidBound n)))
    else do
      let s ← BufM.ofRes (Serializer.withElements T {} v.1)
      s.serialize E
  deserialize encoding :=
    if n = 0 then .err (.invalidType (.invalidBound n))
    else do
      checkVectorLength E T n encoding
      let elements ← deserializeHomogeneousComposite E T encoding
      if h : elements.length = n then .ok ⟨elements, h⟩
      else .err (.invalidInstance (.exact n elements.length))

/-- `(N * T::item_length() + 31) / 32`: array.rs:93-95, vector.rs:242-244, list.rs:242-244 -/
def itemChunkCount (E : Env) (T : SimpleSerialize α) (n : Nat) : Calc Nat := do
  let itemLength ← T.itemLength
  let a ← E.mul n itemLength
  let b ← E.add a 31
  .ok (b / 32)

/-- `chunks` for arrays (array.rs:124-131) and `assemble_chunks` for vectors (vector.rs:214-221)
and lists (list.rs:199-206): the three bodies are the same. -/
def assembleChunks (E : Env) (T : SimpleSerialize α) (elements : List α) : Res MerkError Bytes :=
  if T.isCompositeType then elementsToChunks E T.hashTreeRoot elements elements.length
  else pack T.toSerializable elements

/-- `compute_generalized_index` for arrays (array.rs:97-117) and vectors (vector.rs:246-266): the
two bodies are the same. -/
def vectorGeneralizedIndex (E : Env) (T : SimpleSerialize α) (n : Nat) (parent : Nat)
    (path : List PathElement) : Res MerkError Nat :=
  match path with
  | [] => .ok parent
  | .index i :: rest =>
    if i ≥ n then .err (.invalidPathElement (.index i))
    else do
      let itemLength ← T.itemLength.lift
      let a ← (E.mul i itemLength).lift
      let chunkPosition := a / 32
      let count ← (itemChunkCount E T n).lift
      let p ← (E.nextPowerOfTwo count).lift
      let b ← (E.mul parent p).lift
      let child ← (E.add b chunkPosition).lift
      T.computeGeneralizedIndex child rest
  | elem :: _ => .err (.invalidPathElement elem)

/-- `prove_element` for arrays (array.rs:133-140), vectors (vector.rs:277-284) and lists
(list.rs:286-293): `&self[index]` panics when the element does not exist. -/
def collectionProveElement (E : Env) (T : SimpleSerialize α) (n : Nat) (elements : List α)
    (i : Nat) (prover : Prover) : Res MerkError Prover :=
  if i ≥ n then .err .invalidInnerIndex
  else do
    let child ← index elements i
    computeProof E T child prover

/-- `SimpleSerialize` for `[T; N]`: /repo/ssz-rs/src/array.rs:75-143 -/
def SimpleSerialize.array (E : Env) (T : SimpleSerialize α) (n : Nat) :
    SimpleSerialize { l : List α // l.length = n } where
  toSerializable := Serializable.array E T.toSerializable n
  hashTreeRoot v := do
    let chunks ← assembleChunks E T v.1
    merkleize E chunks none
  isCompositeType := T.isCompositeType
  itemLength := defaultItemLength
  chunkCount := itemChunkCount E T n
  computeGeneralizedIndex := vectorGeneralizedIndex E T n
  chunks v := assembleChunks E T v.1
  proveElement v := collectionProveElement E T n v.1
  decoration := defaultDecoration

/-! ## `Vector<T, N>`

A `Vector` derefs mutably to the `Vec` inside (vector.rs:119-126), so safe code can give it any
length: the carrier is `List α` without a length invariant. -/

/-- `TryFrom<Vec<T>>` for `Vector`: /repo/ssz-rs/src/vector.rs:38-52 (the data is handed back with
the error). -/
def SszVector.tryFromVec (n : Nat) (data : List α) : Res (List α × Error) (List α) :=
  if n = 0 then .err (data, .type (.invalidBound n))
  else if data.length ≠ n then .err (data, .instance (.exact n data.length))
  else .ok data

/-- `TryFrom<&[T]>` for `Vector`: /repo/ssz-rs/src/vector.rs:54-71 -/
def SszVector.tryFromSlice (n : Nat) (data : List α) : Res Error (List α) :=
  if n = 0 then .err (.type (.invalidBound n))
  else if data.length ≠ n then .err (.instance (.exact n data.length))
  else .ok data

/-- `Default` for `Vector`: /repo/ssz-rs/src/vector.rs:86-106 -/
def SszVector.default (n : Nat) (d : α) : Calc (List α) :=
  if n = 0 then .panic
  else
    match SszVector.tryFromVec n (List.replicate n d) with
    | .ok v => .ok v
    | .err _ => .panic
    | .panic => .panic

/-- `Serializable`, `Serialize`, `Deserialize` for `Vector`: /repo/ssz-rs/src/vector.rs:148-208 -/
def Serializable.vector (E : Env) (T : Serializable α) (n : Nat) : Serializable (List α) where
  isVariableSize := T.isVariableSize
  sizeHint := do
    let s ← T.sizeHint
    E.mul s n
  serialize v :=
    if n = 0 then BufM.ofRes (.err (.invalidType (.invalidBound n)))
    else do
      let s ← BufM.ofRes (Serializer.withElements T {} v)
      s.serialize E
  deserialize encoding :=
    if n = 0 then .err (.invalidType (.invalidBound n))
    else do
      checkVectorLength E T n encoding
      let inner ← deserializeHomogeneousComposite E T encoding
      match SszVector.tryFromVec n inner with
      | .ok v => .ok v
      | .err (_, .deserialize e) => .err e
      | .err (_, .instance e) => .err (.invalidInstance e)
      | .err (_, .type e) => .err (.invalidType e)
      | .panic => .panic

/-- `SimpleSerialize` for `Vector`: /repo/ssz-rs/src/vector.rs:210-287 -/
def SimpleSerialize.vector (E : Env) (T : SimpleSerialize α) (n : Nat) :
    SimpleSerialize (List α) where
  toSerializable := Serializable.vector E T.toSerializable n
  hashTreeRoot v := do
    let chunks ← assembleChunks E T v
    merkleize E chunks none
  isCompositeType := defaultIsCompositeType
  itemLength := defaultItemLength
  chunkCount := itemChunkCount E T n
  computeGeneralizedIndex := vectorGeneralizedIndex E T n
  chunks v := assembleChunks E T v
  proveElement := collectionProveElement E T n
  decoration := defaultDecoration

/-! ## `List<T, N>`

As for `Vector`, `DerefMut` (list.rs:108-115) makes any length reachable. -/

/-- `TryFrom<Vec<T>>` for `List`: /repo/ssz-rs/src/list.rs:65-79 -/
def SszList.tryFromVec (n : Nat) (data : List α) : Res (List α × Error) (List α) :=
  if data.length > n then .err (data, .instance (.bounded n data.length))
  else .ok data

/-- `TryFrom<&[T]>` for `List`: /repo/ssz-rs/src/list.rs:81-95 -/
def SszList.tryFromSlice (n : Nat) (data : List α) : Res Error (List α) :=
  if data.length > n then .err (.instance (.bounded n data.length))
  else .ok data

/-- The length check for fixed-size elements: /repo/ssz-rs/src/list.rs:171-181.
`encoding.len() % T::size_hint()` panics for a zero-size element type. -/
def checkListLength (E : Env) (T : Serializable α) (encoding : Bytes) : Res DeError Unit :=
  if T.isVariableSize then .ok ()
  else do
    let s ← T.sizeHint.lift
    let remainder ← usizeRem encoding.length s
    if remainder ≠ 0 then
      let expected ← (E.sub encoding.length remainder).lift
      .err (.additionalInput encoding.length expected)
    else .ok ()

/-- `Serializable`, `Serialize`, `Deserialize` for `List`: /repo/ssz-rs/src/list.rs:137-193 -/
def Serializable.list (E : Env) (T : Serializable α) (n : Nat) : Serializable (List α) where
  isVariableSize := true
  sizeHint := .ok 0
  serialize v :=
    if v.length > n then BufM.ofRes (.err (.invalidInstance (.bounded n v.length)))
    else do
      let s ← BufM.ofRes (Serializer.withElements T {} v)
      s.serialize E
  deserialize encoding := do
    checkListLength E T encoding
    let result ← deserializeHomogeneousComposite E T encoding
    if result.length > n then .err (.invalidInstance (.bounded n result.length))
    else
      match SszList.tryFromVec n result with
      | .ok v => .ok v
      | .err (_, .instance e) => .err (.invalidInstance e)
      | .err _ => .panic
      | .panic => .panic

/-- The inherent `List::chunk_count` used by `hash_tree_root`: /repo/ssz-rs/src/list.rs:214-216 -/
def listChunkCount (E : Env) (T : SimpleSerialize α) (n : Nat) : Calc Nat := do
  let s ← T.sizeHint
  let a ← E.mul n s
  .ok ((a + 31) / 32)

/-- `compute_generalized_index` for `List`: /repo/ssz-rs/src/list.rs:246-275 -/
def listGeneralizedIndex (E : Env) (T : SimpleSerialize α) (n : Nat) (parent : Nat)
    (path : List PathElement) : Res MerkError Nat :=
  match path with
  | [] => .ok parent
  | .index i :: rest =>
    if i ≥ n then .err (.invalidPathElement (.index i))
    else do
      let itemLength ← T.itemLength.lift
      let a ← (E.mul i itemLength).lift
      let chunkPosition := a / 32
      let twice ← (E.mul parent 2).lift
      let count ← (itemChunkCount E T n).lift
      let p ← (E.nextPowerOfTwo count).lift
      let b ← (E.mul twice p).lift
      let child ← (E.add b chunkPosition).lift
      T.computeGeneralizedIndex child rest
  | .length :: rest =>
    if rest.isEmpty then do
      let twice ← (E.mul parent 2).lift
      (E.add twice 1).lift
    else .err (.invalidPath rest)
  | elem :: _ => .err (.invalidPathElement elem)

/-- `SimpleSerialize` for `List`: /repo/ssz-rs/src/list.rs:195-300 -/
def SimpleSerialize.list (E : Env) (T : SimpleSerialize α) (n : Nat) :
    SimpleSerialize (List α) where
  toSerializable := Serializable.list E T.toSerializable n
  hashTreeRoot v := do
    let chunks ← assembleChunks E T v
    let dataRoot ←
      if T.isCompositeType then merkleize E chunks (some n)
      else do
        let count ← (listChunkCount E T n).lift
        merkleize E chunks (some count)
    mixInDecoration E dataRoot v.length
  isCompositeType := defaultIsCompositeType
  itemLength := defaultItemLength
  chunkCount := itemChunkCount E T n
  computeGeneralizedIndex := listGeneralizedIndex E T n
  chunks v := assembleChunks E T v
  proveElement := collectionProveElement E T n
  decoration v := some v.length

end Ssz
