import Verif.Spec.Accept
import Verif.Model.Derive

/-!
# The inputs that a type built from parts of any kind accepts

Anyone can implement `Deserialize` for a type of their own. `Format` says which inputs are meant to be read
as which values and `Reads` that an implementation does so; the definitions below say which inputs are read
as which collections, options, structs and enums of such parts.
-/

namespace Ssz.Spec

/-- The inputs of a type. -/
structure Format (α : Type) where
  /-- Is the type variable-size? -/
  var : Bool
  /-- The number of bytes of every value, for a fixed-size type. -/
  size : Nat
  /-- The bytes are read as the value. -/
  accepts : Bytes → α → Prop

/-- The implementation `T` reads the format `f`: what is accepted is accepted, and nothing else. -/
structure Reads {α : Type} (T : Serializable α) (f : Format α) : Prop where
  isVariableSize : T.isVariableSize = f.var
  sizeHint : T.sizeHint = .ok f.size
  size_lt : f.size < 2 ^ 63
  size_pos : f.var = false → 0 < f.size
  length : f.var = false → ∀ b v, b.length < 2 ^ 63 → f.accepts b v → b.length = f.size
  deserialize : ∀ b v, b.length < 2 ^ 63 → (T.deserialize b = .ok v ↔ f.accepts b v)

namespace Format

variable {α : Type} (f : Format α)

/-- `List<T, N>`, with the inputs that begin with a zero offset (see `Accepts`). -/
def list (n : Nat) : Format (List α) where
  var := true
  size := 0
  accepts b vs := vs.length ≤ n ∧ (Laid f.var f.accepts b vs ∨
    (f.var = true ∧ vs = [] ∧ ∃ rest, b = 0 :: 0 :: 0 :: 0 :: rest))

/-- `Vector<T, N>` -/
def vector (n : Nat) : Format (List α) where
  var := f.var
  size := f.size * n
  accepts b vs := vs.length = n ∧ Laid f.var f.accepts b vs

/-- `[T; N]` -/
def array (n : Nat) : Format { l : List α // l.length = n } where
  var := f.var
  size := f.size * n
  accepts b vs := Laid f.var f.accepts b vs.1

/-- `Option<T>` -/
def option : Format (Option α) where
  var := true
  size := 0
  accepts b
    | none => b = [0]
    | some x => ∃ r, b = 1 :: r ∧ f.accepts r x

/-- A struct with one unnamed field. -/
def newtype : Format α where
  var := f.var
  size := if f.var then 0 else f.size
  accepts := f.accepts

end Format

/-- The named parts of a struct: implementations, each reading a format. -/
inductive StructReads : Type → Type 1 where
  | nil : StructReads Unit
  | cons {α β : Type} (name : String) (T : SimpleSerialize α) (f : Format α)
      (h : Reads T.toSerializable f) (rest : StructReads β) : StructReads (α × β)

namespace StructReads

/-- What the macro sees of the parts. -/
def impls : {α : Type} → StructReads α → FieldImpls α
  | _, nil => .nil
  | _, cons name T _ _ rest => .cons name T rest.impls

/-- Is some part variable-size? -/
def var : {α : Type} → StructReads α → Bool
  | _, nil => false
  | _, cons _ _ f _ rest => f.var || rest.var

/-- Length of the fixed part. -/
def fixedLen : {α : Type} → StructReads α → Nat
  | _, nil => 0
  | _, cons _ _ f _ rest => (if f.var then 4 else f.size) + rest.fixedLen

/-- The pieces are read as the parts. -/
def accepts : {α : Type} → StructReads α → List Piece → α → Prop
  | _, nil, ps, _ => ps = []
  | _, cons _ _ f _ rest, ps, v =>
    ∃ p qs, ps = (f.var, p) :: qs ∧ f.accepts p v.1 ∧ rest.accepts qs v.2

/-- The inputs of the struct. -/
def format {α : Type} (ps : StructReads α) : Format α where
  var := ps.var
  size := if ps.var then 0 else ps.fixedLen
  accepts b v := ∃ qs, ps.accepts qs v ∧ Addressed qs ∧ b = assemble qs

end StructReads

/-- The payloads of an enum without a unit variant: implementations, each reading a format. -/
inductive EnumReads : Type → Type 1 where
  | nil : EnumReads Empty
  | cons {α β : Type} (T : SimpleSerialize α) (f : Format α)
      (h : Reads T.toSerializable f) (rest : EnumReads β) : EnumReads (α ⊕ β)

namespace EnumReads

/-- What the macro sees of the payloads. -/
def impls : {α : Type} → EnumReads α → PayloadImpls α
  | _, nil => .nil
  | _, cons T _ _ rest => .cons T rest.impls

/-- Number of variants. -/
def count : {α : Type} → EnumReads α → Nat
  | _, nil => 0
  | _, cons _ _ _ rest => rest.count + 1

/-- The position of the variant. -/
def position : {α : Type} → EnumReads α → α → Nat
  | _, nil, v => v.elim
  | _, cons _ _ _ _, .inl _ => 0
  | _, cons _ _ _ rest, .inr v => rest.position v + 1

/-- The bytes are read as the payload, by the variant that the value has. -/
def payload : {α : Type} → EnumReads α → Bytes → α → Prop
  | _, nil, _, v => v.elim
  | _, cons _ f _ _, b, .inl v => f.accepts b v
  | _, cons _ _ _ rest, b, .inr v => rest.payload b v

/-- No variant reads `b`: each answers `Err`. -/
def Reject (b : Bytes) : {α : Type} → EnumReads α → Prop
  | _, nil => True
  | _, cons T _ _ rest => (∃ e, T.deserialize b = .err e) ∧ rest.Reject b

/-- No variant declared after that of the value reads `b`. -/
def LaterReject (b : Bytes) : {α : Type} → EnumReads α → α → Prop
  | _, nil, v => v.elim
  | _, cons _ _ _ rest, .inl _ => rest.Reject b
  | _, cons _ _ _ rest, .inr v => rest.LaterReject b v

/-- An enum read as a union: the position of the variant in one byte, then the payload. -/
def union {α : Type} (ps : EnumReads α) : Format α where
  var := true
  size := 0
  accepts b v := ∃ r, b = BitVec.ofNat 8 (ps.position v) :: r ∧ ps.payload r v

/-- The same with a first variant `None`, after which nothing may follow. -/
def unionNone {α : Type} (ps : EnumReads α) : Format (Unit ⊕ α) where
  var := true
  size := 0
  accepts b
    | .inl _ => b = [0]
    | .inr v => ∃ r, b = BitVec.ofNat 8 (ps.position v + 1) :: r ∧ ps.payload r v

/-- A transparent enum is read as the last variant declared that reads the input, if it is not empty. -/
def transparent {α : Type} (ps : EnumReads α) : Format α where
  var := true
  size := 0
  accepts b v := b ≠ [] ∧ ps.payload b v ∧ ps.LaterReject b v

end EnumReads

end Ssz.Spec
