import Verif.Model.Derive

/-!
# The closed universe of SSZ types

Every type a user can build from the modelled implementations, as a syntax tree; `Ty.impl` assigns
to each the implementation that Rust's trait resolution picks.
-/

namespace Ssz

mutual

/-- A Rust type implementing `SimpleSerialize`. -/
inductive Ty where
  /-- `u8` .. `u128`, `usize` -/
  | uint (u : UintTy)
  /-- `U256` -/
  | u256
  /-- `bool` -/
  | bool
  /-- `Node` -/
  | node
  /-- `[T; N]` -/
  | array (t : Ty) (n : Nat)
  /-- `Vector<T, N>` -/
  | vector (t : Ty) (n : Nat)
  /-- `List<T, N>` -/
  | list (t : Ty) (n : Nat)
  /-- `Bitvector<N>` -/
  | bitvector (n : Nat)
  /-- `Bitlist<N>` -/
  | bitlist (n : Nat)
  /-- `Option<T>` -/
  | option (t : Ty)
  /-- `#[derive(SimpleSerialize)] struct Foo(T)` -/
  | newtype (t : Ty)
  /-- `#[derive(SimpleSerialize)] struct Foo { .. }` -/
  | container (fs : Fields)
  /-- `#[derive(SimpleSerialize)] enum Foo { .. }` -/
  | union (vs : Variants)

/-- Named fields, in declaration order. -/
inductive Fields where
  | nil
  | cons (name : String) (t : Ty) (rest : Fields)

/-- Enum variants, in declaration order. -/
inductive Variants where
  | nil
  | unit (rest : Variants)
  | data (t : Ty) (rest : Variants)

end

mutual

/-- The values of a type: everything safe Rust code can construct. -/
def Ty.Val : Ty → Type
  | .uint u => BitVec u.bits
  | .u256 => BitVec 256
  | .bool => Bool
  | .node => Node
  | .array t n => { l : List t.Val // l.length = n }
  | .vector t _ => List t.Val
  | .list t _ => List t.Val
  | .bitvector _ => Bits
  | .bitlist _ => Bits
  | .option t => Option t.Val
  | .newtype t => t.Val
  | .container fs => fs.Val
  | .union vs => vs.Val

/-- Values of a struct. -/
def Fields.Val : Fields → Type
  | .nil => Unit
  | .cons _ t rest => t.Val × rest.Val

/-- Values of an enum. -/
def Variants.Val : Variants → Type
  | .nil => Empty
  | .unit rest => Unit ⊕ rest.Val
  | .data t rest => t.Val ⊕ rest.Val

end

mutual

/-- The implementation of a type. -/
def Ty.impl (E : Env) : (t : Ty) → SimpleSerialize t.Val
  | .uint u => SimpleSerialize.uint u
  | .u256 => SimpleSerialize.u256
  | .bool => SimpleSerialize.bool
  | .node => SimpleSerialize.node
  | .array t n => SimpleSerialize.array E (t.impl E) n
  | .vector t n => SimpleSerialize.vector E (t.impl E) n
  | .list t n => SimpleSerialize.list E (t.impl E) n
  | .bitvector n => SimpleSerialize.bitvector E n
  | .bitlist n => SimpleSerialize.bitlist E n
  | .option t => SimpleSerialize.option E (t.impl E)
  | .newtype t => SimpleSerialize.newtype E (t.impl E)
  | .container fs => SimpleSerialize.container E (fs.impls E)
  | .union vs => SimpleSerialize.union E (vs.impls E)

/-- The implementations of the fields of a struct. -/
def Fields.impls (E : Env) : (fs : Fields) → FieldImpls fs.Val
  | .nil => .nil
  | .cons name t rest => .cons name (t.impl E) (rest.impls E)

/-- The implementations of the variants of an enum. -/
def Variants.impls (E : Env) : (vs : Variants) → VariantImpls vs.Val
  | .nil => .nil
  | .unit rest => .unit (rest.impls E)
  | .data t rest => .data (t.impl E) (rest.impls E)

end

/-- The user-facing `serialize(&value)`: /repo/ssz-rs/src/lib.rs:181-188 -/
def serialize {α : Type} (T : Serializable α) (v : α) : Res SerError Bytes :=
  match T.serialize v [] with
  | (result, .ok _) => .ok result
  | (_, .err e) => .err e
  | (_, .panic) => .panic

/-- The user-facing `deserialize(encoding)`: /repo/ssz-rs/src/lib.rs:193-198 -/
def deserialize {α : Type} (T : Serializable α) (encoding : Bytes) : Res DeError α :=
  T.deserialize encoding

end Ssz
