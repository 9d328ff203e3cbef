import Verif.Spec.Reads

/-!
# The inputs that crash a type built from parts of any kind

`Outcome` adds to `Format` the inputs on which decoding crashes.
-/

namespace Ssz.Spec

/-- The inputs of a type, and those that crash its decoder. -/
structure Outcome (α : Type) extends Format α where
  /-- Decoding the bytes crashes. -/
  crash : Bytes → Prop

/-- The implementation `T` does what `o` says: it reads the format, it crashes on the inputs given, and it
rejects all others. -/
structure Behaves {α : Type} (T : Serializable α) (o : Outcome α) : Prop extends Reads T o.toFormat where
  panic : ∀ b, b.length < 2 ^ 63 → (T.deserialize b = .panic ↔ o.crash b)

/-- Some piece crashes (`P`), and all pieces before it are read (`A`). -/
def FirstCrash (A P : Bytes → Prop) : List Bytes → Prop
  | [] => False
  | p :: ps => P p ∨ (A p ∧ FirstCrash A P ps)

/-- Reading the head of a struct from `r`, where the fields are variable-size or not and, if not, have a size:
all offsets before are in order and inside the input except perhaps the first one, and some second or later
offset is in order but outside of the input, of length `len`. `prev` is the offset read last. -/
def HeadLeaves (len : Nat) : List (Bool × Nat) → Option Nat → Bytes → Prop
  | [], _, _ => False
  | (true, _) :: rest, prev, r =>
    ∃ o r', o < 2 ^ 32 ∧ r = leBytes 4 o ++ r' ∧
      match prev with
      | none => HeadLeaves len rest (some o) r'
      | some p => p ≤ o ∧ (len < o ∨ HeadLeaves len rest (some o) r')
  | (false, size) :: rest, prev, r => size ≤ r.length ∧ HeadLeaves len rest prev (r.drop size)

/-- The pieces have the kinds and the sizes of the fields. -/
def Cut : List (Bool × Nat) → List Piece → Prop
  | [], ps => ps = []
  | (var, size) :: rest, ps => ∃ p qs, ps = (var, p) :: qs ∧ (var = false → p.length = size) ∧ Cut rest qs

namespace Outcome

variable {α : Type} (o : Outcome α)

/-- The bytes are read as some value. -/
def reads (b : Bytes) : Prop := ∃ v, o.accepts b v

/-- Decoding the parts of a collection crashes. -/
def walk (b : Bytes) : Prop :=
  if o.var = true then TableCrash o.reads o.crash b
  else ∃ ps : List Bytes, b = ps.flatten ∧ (∀ p ∈ ps, p.length = o.size) ∧ FirstCrash o.reads o.crash ps

/-- `List<T, N>`: the bound is only checked afterwards. -/
def list (n : Nat) : Outcome (List α) := { o.toFormat.list n with crash := o.walk }

/-- `Vector<T, N>`: for fixed-size parts the length of the input is checked first. -/
def vector (n : Nat) : Outcome (List α) :=
  { o.toFormat.vector n with crash := fun b => (o.var = false → b.length = o.size * n) ∧ o.walk b }

/-- `[T; N]` -/
def array (n : Nat) : Outcome { l : List α // l.length = n } :=
  { o.toFormat.array n with crash := fun b => (o.var = false → b.length = o.size * n) ∧ o.walk b }

/-- `Option<T>` -/
def option : Outcome (Option α) := { o.toFormat.option with crash := fun b => ∃ r, b = 1 :: r ∧ o.crash r }

/-- A struct with one unnamed field. -/
def newtype : Outcome α := { o.toFormat.newtype with crash := o.crash }

end Outcome

/-- The named parts of a struct. -/
inductive StructBehaves : Type → Type 1 where
  | nil : StructBehaves Unit
  | cons {α β : Type} (name : String) (T : SimpleSerialize α) (o : Outcome α)
      (h : Behaves T.toSerializable o) (rest : StructBehaves β) : StructBehaves (α × β)

namespace StructBehaves

/-- The formats of the parts. -/
def toReads : {α : Type} → StructBehaves α → StructReads α
  | _, nil => .nil
  | _, cons name T o h rest => .cons name T o.toFormat h.toReads rest.toReads

/-- The kinds and the sizes of the parts. -/
def sizes : {α : Type} → StructBehaves α → List (Bool × Nat)
  | _, nil => []
  | _, cons _ _ o _ rest => (o.var, o.size) :: rest.sizes

/-- Decoding some piece crashes, and all pieces before it are read. -/
def crashes : {α : Type} → StructBehaves α → List Piece → Prop
  | _, nil, _ => False
  | _, cons _ _ _ _ _, [] => False
  | _, cons _ _ o _ rest, p :: ps => o.crash p.2 ∨ (o.reads p.2 ∧ rest.crashes ps)

/-- No part crashes on any input. -/
def Safe : {α : Type} → StructBehaves α → Prop
  | _, nil => True
  | _, cons _ _ o _ rest => (∀ b, ¬ o.crash b) ∧ rest.Safe

/-- The struct, in a build with overflow checks if `dbg`. -/
def outcome {α : Type} (ps : StructBehaves α) (dbg : Bool) : Outcome α :=
  { ps.toReads.format with
    crash := fun b => (dbg = true ∧ HeadLeaves b.length ps.sizes none b) ∨
      ∃ qs, b = assemble qs ∧ Addressed qs ∧ Cut ps.sizes qs ∧ ps.crashes qs }

end StructBehaves

/-- The payloads of an enum without a unit variant. -/
inductive EnumBehaves : Type → Type 1 where
  | nil : EnumBehaves Empty
  | cons {α β : Type} (T : SimpleSerialize α) (o : Outcome α)
      (h : Behaves T.toSerializable o) (rest : EnumBehaves β) : EnumBehaves (α ⊕ β)

namespace EnumBehaves

/-- The formats of the payloads. -/
def toReads : {α : Type} → EnumBehaves α → EnumReads α
  | _, nil => .nil
  | _, cons T o h rest => .cons T o.toFormat h.toReads rest.toReads

/-- The payload of the variant at the position crashes on the bytes. -/
def crashAt : {α : Type} → EnumBehaves α → Nat → Bytes → Prop
  | _, nil, _, _ => False
  | _, cons _ o _ _, 0, b => o.crash b
  | _, cons _ _ _ rest, i + 1, b => rest.crashAt i b

/-- All variants reject the bytes. -/
def Refuse (b : Bytes) : {α : Type} → EnumBehaves α → Prop
  | _, nil => True
  | _, cons _ o _ rest => ¬ o.reads b ∧ ¬ o.crash b ∧ rest.Refuse b

/-- Some variant crashes on the bytes, and all declared after it reject them. -/
def lastCrash (b : Bytes) : {α : Type} → EnumBehaves α → Prop
  | _, nil => False
  | _, cons _ o _ rest => rest.lastCrash b ∨ (rest.Refuse b ∧ o.crash b)

/-- An enum read as a union. -/
def union {α : Type} (ps : EnumBehaves α) : Outcome α :=
  { ps.toReads.union with crash := fun b => ∃ i r, b = BitVec.ofNat 8 i :: r ∧ ps.crashAt i r }

/-- The same with a first variant `None`. -/
def unionNone {α : Type} (ps : EnumBehaves α) : Outcome (Unit ⊕ α) :=
  { ps.toReads.unionNone with crash := fun b => ∃ i r, b = BitVec.ofNat 8 (i + 1) :: r ∧ ps.crashAt i r }

/-- A transparent enum. -/
def transparent {α : Type} (ps : EnumBehaves α) : Outcome α :=
  { ps.toReads.transparent with crash := fun b => b ≠ [] ∧ ps.lastCrash b }

end EnumBehaves

end Ssz.Spec
