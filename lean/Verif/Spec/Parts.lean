import Verif.Spec.Merkle
import Verif.Model.Derive

/-!
# What it takes to be a part of another type

Anyone can implement the traits for a type of their own. `Codec` says how the values of such a type
are meant to be encoded and `Implements` that an implementation does so; the definitions below say
how SSZ encodes the collections, options, structs and enums built from parts of which no more than
that is known.
-/

namespace Ssz.Spec

/-- The intended encoding of the values of a type. -/
structure Codec (α : Type) where
  /-- Is the type variable-size? -/
  var : Bool
  /-- The number of bytes of every value, for a fixed-size type. -/
  size : Nat
  /-- The values that respect the bounds of the type. -/
  valid : α → Prop
  /-- The encoding. -/
  enc : α → Bytes
  /-- The value decoded from the encoding of a value: the two may differ in unobservable ways. -/
  norm : α → α

/-- The implementation `T` follows the codec `c`. -/
structure Implements {α : Type} (T : Serializable α) (c : Codec α) : Prop where
  isVariableSize : T.isVariableSize = c.var
  sizeHint : T.sizeHint = .ok c.size
  size_lt : c.size < 2 ^ 63
  size_pos : c.var = false → 0 < c.size
  length : c.var = false → ∀ v, c.valid v → (c.enc v).length = c.size
  serialize : ∀ v, c.valid v → (c.enc v).length < 2 ^ 32 →
    ∀ buf, T.serialize v buf = (buf ++ c.enc v, .ok (c.enc v).length)
  deserialize : ∀ v, c.valid v → (c.enc v).length < 2 ^ 32 → T.deserialize (c.enc v) = .ok (c.norm v)

/-- Whatever `T` decodes satisfies `P`. -/
def Yields {α : Type} (T : Serializable α) (P : α → Prop) : Prop :=
  ∀ b v, T.deserialize b = .ok v → P v

namespace Codec

variable {α : Type} (c : Codec α)

/-- `List<T, N>` -/
def list (n : Nat) : Codec (List α) where
  var := true
  size := 0
  valid vs := vs.length ≤ n ∧ Each c.valid vs
  enc vs := assemble (vs.map fun x => (c.var, c.enc x))
  norm := List.map c.norm

/-- `Vector<T, N>` -/
def vector (n : Nat) : Codec (List α) where
  var := c.var
  size := c.size * n
  valid vs := vs.length = n ∧ Each c.valid vs
  enc vs := assemble (vs.map fun x => (c.var, c.enc x))
  norm := List.map c.norm

/-- `[T; N]` -/
def array (n : Nat) : Codec { l : List α // l.length = n } where
  var := c.var
  size := c.size * n
  valid vs := Each c.valid vs.1
  enc vs := assemble (vs.1.map fun x => (c.var, c.enc x))
  norm vs := ⟨vs.1.map c.norm, (List.length_map _).trans vs.2⟩

/-- `Option<T>` -/
def option : Codec (Option α) where
  var := true
  size := 0
  valid v := ∀ x, v = some x → c.valid x
  enc
    | none => [0]
    | some x => 1 :: c.enc x
  norm := Option.map c.norm

end Codec

/-- The named parts of a struct: implementations of the traits, each following a codec. -/
inductive StructParts : Type → Type 1 where
  | nil : StructParts Unit
  | cons {α β : Type} (name : String) (T : SimpleSerialize α) (c : Codec α)
      (h : Implements T.toSerializable c) (rest : StructParts β) : StructParts (α × β)

namespace StructParts

/-- What the macro sees of the parts. -/
def impls : {α : Type} → StructParts α → FieldImpls α
  | _, nil => .nil
  | _, cons name T _ _ rest => .cons name T rest.impls

/-- Is some part variable-size? -/
def var : {α : Type} → StructParts α → Bool
  | _, nil => false
  | _, cons _ _ c _ rest => c.var || rest.var

/-- Length of the fixed part. -/
def fixedLen : {α : Type} → StructParts α → Nat
  | _, nil => 0
  | _, cons _ _ c _ rest => (if c.var then 4 else c.size) + rest.fixedLen

/-- Every part respects its bounds. -/
def valid : {α : Type} → StructParts α → α → Prop
  | _, nil, _ => True
  | _, cons _ _ c _ rest, v => c.valid v.1 ∧ rest.valid v.2

/-- Every part decodes only to values that respect its bounds. -/
def yields : {α : Type} → StructParts α → Prop
  | _, nil => True
  | _, cons _ T c _ rest => Yields T.toSerializable c.valid ∧ rest.yields

/-- The pieces of the encoding. -/
def pieces : {α : Type} → StructParts α → α → List Piece
  | _, nil, _ => []
  | _, cons _ _ c _ rest, v => (c.var, c.enc v.1) :: rest.pieces v.2

/-- The value decoded. -/
def norm : {α : Type} → StructParts α → α → α
  | _, nil, v => v
  | _, cons _ _ c _ rest, v => (c.norm v.1, rest.norm v.2)

/-- The encoding of the struct. -/
def codec {α : Type} (ps : StructParts α) : Codec α where
  var := ps.var
  size := if ps.var then 0 else ps.fixedLen
  valid := ps.valid
  enc v := assemble (ps.pieces v)
  norm := ps.norm

end StructParts

/-- The payloads of an enum without a unit variant: implementations, each following a codec. -/
inductive EnumParts : Type → Type 1 where
  | nil : EnumParts Empty
  | cons {α β : Type} (T : SimpleSerialize α) (c : Codec α)
      (h : Implements T.toSerializable c) (rest : EnumParts β) : EnumParts (α ⊕ β)

namespace EnumParts

/-- What the macro sees of the payloads. -/
def impls : {α : Type} → EnumParts α → PayloadImpls α
  | _, nil => .nil
  | _, cons T _ _ rest => .cons T rest.impls

/-- Number of variants. -/
def count : {α : Type} → EnumParts α → Nat
  | _, nil => 0
  | _, cons _ _ _ rest => rest.count + 1

/-- The payload respects its bounds. -/
def valid : {α : Type} → EnumParts α → α → Prop
  | _, nil, v => v.elim
  | _, cons _ c _ _, .inl v => c.valid v
  | _, cons _ _ _ rest, .inr v => rest.valid v

/-- Every payload decodes only to values that respect its bounds. -/
def yields : {α : Type} → EnumParts α → Prop
  | _, nil => True
  | _, cons T c _ rest => Yields T.toSerializable c.valid ∧ rest.yields

/-- The encoding of the payload. -/
def enc : {α : Type} → EnumParts α → α → Bytes
  | _, nil, v => v.elim
  | _, cons _ c _ _, .inl v => c.enc v
  | _, cons _ _ _ rest, .inr v => rest.enc v

/-- The value decoded. -/
def norm : {α : Type} → EnumParts α → α → α
  | _, nil, v => v
  | _, cons _ c _ _, .inl v => .inl (c.norm v)
  | _, cons _ _ _ rest, .inr v => .inr (rest.norm v)

/-- The position of the variant. -/
def position : {α : Type} → EnumParts α → α → Nat
  | _, nil, v => v.elim
  | _, cons _ _ _ _, .inl _ => 0
  | _, cons _ _ _ rest, .inr v => rest.position v + 1

/-- No variant accepts `b`: each answers `Err`. -/
def Reject (b : Bytes) : {α : Type} → EnumParts α → Prop
  | _, nil => True
  | _, cons T _ _ rest => (∃ e, T.deserialize b = .err e) ∧ rest.Reject b

/-- No variant declared after that of the value accepts `b`. -/
def LaterReject (b : Bytes) : {α : Type} → EnumParts α → α → Prop
  | _, nil, v => v.elim
  | _, cons _ _ _ rest, .inl _ => rest.Reject b
  | _, cons _ _ _ rest, .inr v => rest.LaterReject b v

/-- An enum encoded as a union: the position of the variant in one byte, then the payload. -/
def union {α : Type} (ps : EnumParts α) : Codec α where
  var := true
  size := 0
  valid := ps.valid
  enc v := BitVec.ofNat 8 (ps.position v) :: ps.enc v
  norm := ps.norm

/-- The same with a first variant `None`. -/
def unionNone {α : Type} (ps : EnumParts α) : Codec (Unit ⊕ α) where
  var := true
  size := 0
  valid
    | .inl _ => True
    | .inr v => ps.valid v
  enc
    | .inl _ => [0]
    | .inr v => BitVec.ofNat 8 (ps.position v + 1) :: ps.enc v
  norm
    | .inl u => .inl u
    | .inr v => .inr (ps.norm v)

/-- A transparent enum is encoded as its payload. It is always variable-size, and round trips only
when the encoding is not empty and no later variant accepts it. -/
def transparent {α : Type} (ps : EnumParts α) : Codec α where
  var := true
  size := 0
  valid v := ps.valid v ∧ ps.enc v ≠ [] ∧ ps.LaterReject (ps.enc v) v
  enc := ps.enc
  norm := ps.norm

end EnumParts

end Ssz.Spec
