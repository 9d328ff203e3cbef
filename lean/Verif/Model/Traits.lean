import Verif.Model.Base

/-!
# The traits of `ssz-rs` as records of functions

A Rust type implementing a trait is represented by a record of the trait's functions, indexed by
the Lean type of its values; a generic `impl` becomes a function between records.
-/

namespace Ssz

/-- `Serializable` (with its supertraits `Serialize` and `Deserialize`):
/repo/ssz-rs/src/lib.rs:145-152, /repo/ssz-rs/src/ser.rs:51-56, /repo/ssz-rs/src/de.rs:64-72.
`size_hint` may overflow for absurd type parameters, hence `Calc`. -/
structure Serializable (α : Type) where
  isVariableSize : Bool
  sizeHint : Calc Nat
  serialize : α → BufM SerError Nat
  deserialize : Bytes → Res DeError α

/-- `Proof`: /repo/ssz-rs/src/merkleization/proofs.rs:173-177 -/
structure Proof where
  leaf : Node
  branch : List Node
  index : Nat
  deriving DecidableEq

/-- `Prover`: /repo/ssz-rs/src/merkleization/proofs.rs:47-51. The `hasher` field is dropped: it is
reset after every use, so it carries no state between uses. -/
structure Prover where
  proof : Proof
  witness : Node
  deriving DecidableEq

/-- `SimpleSerialize`, i.e. `Serializable + HashTreeRoot + GeneralizedIndexable + Prove`:
/repo/ssz-rs/src/lib.rs:157, /repo/ssz-rs/src/merkleization/merkleize.rs:19-27,
/repo/ssz-rs/src/merkleization/generalized_index.rs:37-66,
/repo/ssz-rs/src/merkleization/proofs.rs:137-168. -/
structure SimpleSerialize (α : Type) : Type 1 extends Serializable α where
  hashTreeRoot : α → Res MerkError Node
  isCompositeType : Bool
  itemLength : Calc Nat
  chunkCount : Calc Nat
  computeGeneralizedIndex : Nat → List PathElement → Res MerkError Nat
  chunks : α → Res MerkError Bytes
  proveElement : α → Nat → Prover → Res MerkError Prover
  decoration : α → Option Nat

/-- `HashTreeRoot::is_composite_type`, default: merkleize.rs:24-26 -/
def defaultIsCompositeType : Bool := true

/-- `GeneralizedIndexable::item_length`, default: generalized_index.rs:38-40 -/
def defaultItemLength : Calc Nat := .ok 32

/-- `GeneralizedIndexable::chunk_count`, default: generalized_index.rs:44-46 -/
def defaultChunkCount : Calc Nat := .ok 1

/-- `GeneralizedIndexable::compute_generalized_index`, default: generalized_index.rs:51-60 -/
def defaultComputeGeneralizedIndex (parent : Nat) (path : List PathElement) :
    Res MerkError Nat :=
  if path.isEmpty then .ok parent else .err (.invalidPath path)

/-- `Prove::prove_element`, default: proofs.rs:148-150 -/
def defaultProveElement {α : Type} (_ : α) (_ : Nat) (_ : Prover) : Res MerkError Prover :=
  .err .noInnerElement

/-- `Prove::decoration`, default: proofs.rs:156-158 -/
def defaultDecoration {α : Type} (_ : α) : Option Nat := none

end Ssz
