import Verif.Model.DecodeCost
import Verif.Model.Derive

/-!
# What decoding costs, for types with parts of any implementation

As `Model/DecodeCost.lean`, but with the parts (elements, fields, variants) given by any implementation
together with its `deserialize` with a counter. This covers `#[ssz(transparent)]` enums, also inside
other types and inside each other. Every step is counted as there.
-/

namespace Ssz

open Timed

/-- A type with its implementation and with its `deserialize` once more, with a counter of steps. -/
structure TimedImpl (α : Type) where
  impl : SimpleSerialize α
  de : Bytes → Timed α

/-- The fields of a struct. -/
inductive TimedFields : Type → Type 1 where
  | nil : TimedFields Unit
  | cons {α β : Type} (name : String) (T : TimedImpl α) (rest : TimedFields β) : TimedFields (α × β)

/-- The variants of an enum. -/
inductive TimedVariants : Type → Type 1 where
  | nil : TimedVariants Empty
  | unit {β : Type} (rest : TimedVariants β) : TimedVariants (Unit ⊕ β)
  | data {α β : Type} (T : TimedImpl α) (rest : TimedVariants β) : TimedVariants (α ⊕ β)

/-- The variants of an enum all of which have one unnamed field. -/
inductive TimedPayloads : Type → Type 1 where
  | nil : TimedPayloads Empty
  | cons {α β : Type} (T : TimedImpl α) (rest : TimedPayloads β) : TimedPayloads (α ⊕ β)

namespace TimedFields

/-- Without the counters. -/
def impls : {α : Type} → TimedFields α → FieldImpls α
  | _, nil => .nil
  | _, cons name T rest => .cons name T.impl rest.impls

/-- `field: T::deserialize(&encoding[spans[2*i]..spans[2*i+1]])?` per field:
/repo/ssz-rs-derive/src/lib.rs:134-142 -/
def initC (encoding : Bytes) : {α : Type} → TimedFields α → List Nat → Nat → Timed α
  | _, nil, _, _ => free (.ok ())
  | _, cons _ T rest, spans, i => do
    step
    let start ← free (index spans (2 * i))
    let stop ← free (index spans (2 * i + 1))
    let piece ← free (slice encoding start stop)
    let v ← T.de piece
    let vs ← rest.initC encoding spans (i + 1)
    free (.ok (v, vs))

end TimedFields

namespace TimedVariants

/-- Without the counters. -/
def impls : {α : Type} → TimedVariants α → VariantImpls α
  | _, nil => .nil
  | _, unit rest => .unit rest.impls
  | _, data T rest => .data T.impl rest.impls

/-- The arms of `match encoding[0]`: /repo/ssz-rs-derive/src/lib.rs:182-222 -/
def deC (b : Byte) (rest encoding : Bytes) : {α : Type} → TimedVariants α → Nat → Timed α
  | _, nil, _ => free (.err (.invalidByte b))
  | _, unit vs, i => do
    step
    if b = 0 then
      if encoding.length ≠ 1 then free (.err (.additionalInput encoding.length 1))
      else free (.ok (.inl ()))
    else do
      let v ← vs.deC b rest encoding (i + 1)
      free (.ok (.inr v))
  | _, data T vs, i => do
    step
    if b = BitVec.ofNat 8 i then do
      let v ← T.de rest
      free (.ok (.inl v))
    else do
      let v ← vs.deC b rest encoding (i + 1)
      free (.ok (.inr v))

end TimedVariants

/-- `if let Ok(value) = x { return Ok(f(value)) }` and then `y`. -/
def Timed.ifOk {α β : Type} (x : Timed α) (f : α → β) (y : Timed β) : Timed β :=
  match x.2 with
  | .ok a => (x.1, .ok (f a))
  | .panic => (x.1, .panic)
  | .err _ => (x.1 + y.1, y.2)

namespace TimedPayloads

/-- Without the counters. -/
def impls : {α : Type} → TimedPayloads α → PayloadImpls α
  | _, nil => .nil
  | _, cons T rest => .cons T.impl rest.impls

/-- The sequence of `if let Ok(value) = T::deserialize(encoding) { return .. }` in reverse order of
declaration, each one counting as a step: /repo/ssz-rs-derive/src/lib.rs:159-180 -/
def bodyC (encoding : Bytes) : {α : Type} → TimedPayloads α → Timed α
  | _, nil => free (.err .noMatchingVariant)
  | _, cons T rest =>
    (rest.bodyC encoding).ifOk .inr
      ((do step; T.de encoding : Timed _).ifOk .inl (free (.err .noMatchingVariant)))

end TimedPayloads

namespace TimedImpl

variable {α : Type}

/-- A type of the crate or a derived struct or enum, with the counter of `Model/DecodeCost.lean`. -/
def crate (E : Env) (t : Ty) : TimedImpl t.Val := ⟨t.impl E, fun b => t.deC E b⟩

/-- /repo/ssz-rs/src/array.rs:47-73 -/
def array (E : Env) (T : TimedImpl α) (n : Nat) : TimedImpl { l : List α // l.length = n } where
  impl := SimpleSerialize.array E T.impl n
  de encoding := do
    step
    if n = 0 then free (.err (.invalidType (.invalidBound n)))
    else do
      free (checkVectorLength E T.impl.toSerializable n encoding)
      let elements ← deserializeHomogeneousCompositeC E T.impl.toSerializable T.de encoding
      if h : elements.length = n then free (.ok ⟨elements, h⟩)
      else free (.err (.invalidInstance (.exact n elements.length)))

/-- /repo/ssz-rs/src/vector.rs:179-208 -/
def vector (E : Env) (T : TimedImpl α) (n : Nat) : TimedImpl (List α) where
  impl := SimpleSerialize.vector E T.impl n
  de encoding := do
    step
    if n = 0 then free (.err (.invalidType (.invalidBound n)))
    else do
      free (checkVectorLength E T.impl.toSerializable n encoding)
      let inner ← deserializeHomogeneousCompositeC E T.impl.toSerializable T.de encoding
      match SszVector.tryFromVec n inner with
      | .ok v => free (.ok v)
      | .err (_, .deserialize e) => free (.err e)
      | .err (_, .instance e) => free (.err (.invalidInstance e))
      | .err (_, .type e) => free (.err (.invalidType e))
      | .panic => free .panic

/-- /repo/ssz-rs/src/list.rs:168-193 -/
def list (E : Env) (T : TimedImpl α) (n : Nat) : TimedImpl (List α) where
  impl := SimpleSerialize.list E T.impl n
  de encoding := do
    step
    free (checkListLength E T.impl.toSerializable encoding)
    let result ← deserializeHomogeneousCompositeC E T.impl.toSerializable T.de encoding
    if result.length > n then free (.err (.invalidInstance (.bounded n result.length)))
    else
      match SszList.tryFromVec n result with
      | .ok v => free (.ok v)
      | .err (_, .instance e) => free (.err (.invalidInstance e))
      | .err _ => free .panic
      | .panic => free .panic

/-- /repo/ssz-rs/src/union.rs:47-75 -/
def option (E : Env) (T : TimedImpl α) : TimedImpl (Option α) where
  impl := SimpleSerialize.option E T.impl
  de encoding := do
    step
    match encoding with
    | [] => free (.err (.expectedFurtherInput 0 1))
    | b :: rest =>
      if b = 0 then
        if encoding.length ≠ 1 then free (.err (.additionalInput encoding.length 1))
        else free (.ok none)
      else if b = 1 then do
        let inner ← T.de rest
        free (.ok (some inner))
      else free (.err (.invalidByte b))

/-- /repo/ssz-rs-derive/src/lib.rs:109-119 -/
def newtype (E : Env) (T : TimedImpl α) : TimedImpl α where
  impl := SimpleSerialize.newtype E T.impl
  de encoding := do
    step
    let result ← T.de encoding
    free (.ok result)

/-- /repo/ssz-rs-derive/src/lib.rs:124-156 -/
def container (E : Env) (fs : TimedFields α) : TimedImpl α where
  impl := SimpleSerialize.container E fs.impls
  de encoding := do
    step
    let d ← fs.impls.parseAllC E encoding {}
    let spans ← d.finalizeC E encoding
    fs.initC encoding spans 0

/-- /repo/ssz-rs-derive/src/lib.rs:158-237 -/
def union (E : Env) (vs : TimedVariants α) : TimedImpl α where
  impl := SimpleSerialize.union E vs.impls
  de encoding := do
    step
    match encoding with
    | [] => free (.err (.expectedFurtherInput 0 1))
    | b :: rest => vs.deC b rest encoding 0

/-- An enum with `#[ssz(transparent)]`: /repo/ssz-rs-derive/src/lib.rs:159-180, 225-236 -/
def transparent (E : Env) (ps : TimedPayloads α) : TimedImpl α where
  impl := SimpleSerialize.transparent E ps.impls
  de encoding := do
    step
    if encoding.isEmpty then free (.err (.expectedFurtherInput 0 1))
    else ps.bodyC encoding

end TimedImpl

end Ssz
