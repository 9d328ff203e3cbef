import Verif.Model.Types

/-!
# The `serde` implementations

/repo/ssz-rs/src/list.rs:302-330, vector.rs:289-319, bitlist.rs:257-279, bitvector.rs:240-261.

`serde` and `alloy_primitives` are not part of /repo. Of `serde`, the part used here is its data
model: a serializer produces and a deserializer consumes a tree of values (`Text`). Of
`alloy_primitives::serde_hex`, the documented form: `0x` and two lower-case digits per byte when
writing; when reading, an optional `0x` and an even number of digits in either case.
-/

namespace Ssz.Serde

/-- A value of a data format, as far as the implementations of the crate distinguish them. -/
inductive Text where
  /-- a sequence -/
  | seq (items : List Text)
  /-- a string -/
  | str (chars : List Char)
  /-- any other value -/
  | other (n : Nat)

/-- Errors of a deserializer or serializer. -/
inductive SerdeError where
  /-- reported by the format or by another crate -/
  | format
  /-- `serde::de::Error::custom` -/
  | custom (e : Error)
  /-- `serde::ser::Error::custom` -/
  | customSer (e : SerError)

/-- `serde::Serialize` and `serde::Deserialize` of a type. -/
structure Impl (α : Type) where
  ser : α → Res SerdeError Text
  de : Text → Res SerdeError α

/-- `Deserialize for Vec<T>` over a sequence: element by element. -/
def deSeq {α : Type} (T : Impl α) : Text → Res SerdeError (List α)
  | .seq items => Res.mapList T.de items
  | .str _ => .err .format
  | .other _ => .err .format

/-- `Serialize for Vec<T>`, which `#[serde(transparent)]` selects for `List` and `Vector`. -/
def serSeq {α : Type} (T : Impl α) (v : List α) : Res SerdeError Text :=
  (Res.mapList T.ser v).map .seq

/-- `List<T, N>`: list.rs:17 and list.rs:302-330 -/
def list {α : Type} (T : Impl α) (n : Nat) : Impl (List α) where
  ser := serSeq T
  de x := do
    let data ← deSeq T x
    (SszList.tryFromVec n data).mapErr fun e => .custom e.2

/-- `Vector<T, N>`: vector.rs:19 and vector.rs:289-319 -/
def vector {α : Type} (T : Impl α) (n : Nat) : Impl (List α) where
  ser := serSeq T
  de x := do
    let data ← deSeq T x
    (SszVector.tryFromVec n data).mapErr fun e => .custom e.2

/-- Lower-case hexadecimal digits. -/
def hexDigits : List Char :=
  ['0', '1', '2', '3', '4', '5', '6', '7', '8', '9', 'a', 'b', 'c', 'd', 'e', 'f']

/-- The digit for a number below 16. -/
def hexDigit (n : Nat) : Char := hexDigits.getD n '0'

/-- `serde_hex::serialize` -/
def hexEncode (bytes : Bytes) : List Char :=
  '0' :: 'x' :: bytes.flatMap fun b => [hexDigit (b.toNat / 16), hexDigit (b.toNat % 16)]

/-- The value of a digit in either case. -/
def hexValue (c : Char) : Option Nat :=
  if '0' ≤ c ∧ c ≤ '9' then some (c.toNat - '0'.toNat)
  else if 'a' ≤ c ∧ c ≤ 'f' then some (c.toNat - 'a'.toNat + 10)
  else if 'A' ≤ c ∧ c ≤ 'F' then some (c.toNat - 'A'.toNat + 10)
  else none

/-- Pairs of digits. -/
def hexPairs : List Char → Option Bytes
  | [] => some []
  | [_] => none
  | a :: b :: rest =>
    match hexValue a, hexValue b, hexPairs rest with
    | some x, some y, some bytes => some (BitVec.ofNat 8 (16 * x + y) :: bytes)
    | _, _, _ => none

/-- The text without the prefix. -/
def stripPrefix : List Char → List Char
  | '0' :: 'x' :: rest => rest
  | s => s

/-- `serde_hex::deserialize` -/
def hexDecode : Text → Res SerdeError Bytes
  | .str s =>
    match hexPairs (stripPrefix s) with
    | some bytes => .ok bytes
    | none => .err .format
  | .seq _ => .err .format
  | .other _ => .err .format

/-- `Bitlist<N>`: bitlist.rs:257-279 (`byte_length` is evaluated for the capacity only, but it can
overflow). -/
def bitlist (E : Env) (n : Nat) : Impl Bits where
  ser v := do
    let _ ← (bitlistByteLength E v.len).lift
    match Bitlist.serializeWithLength n v true [] with
    | (buf, .ok _) => .ok (.str (hexEncode buf))
    | (_, .err e) => .err (.customSer e)
    | (_, .panic) => .panic
  de x := do
    let data ← hexDecode x
    (Bitlist.tryFromBytes E n data).mapErr .custom

/-- `Bitvector<N>`: bitvector.rs:240-261 -/
def bitvector (n : Nat) : Impl Bits where
  ser v :=
    match Bitvector.serialize n v [] with
    | (buf, .ok _) => .ok (.str (hexEncode buf))
    | (_, .err e) => .err (.customSer e)
    | (_, .panic) => .panic
  de x := do
    let data ← hexDecode x
    (Bitvector.tryFromBytes n data).mapErr .custom

/-- The implementation of a type: the collections of the crate as above, at every depth; for all other
types `leaf` gives the implementation of another crate or of the user. -/
def ofTy (E : Env) (leaf : (t : Ty) → Impl t.Val) : (t : Ty) → Impl t.Val
  | .list t n => list (ofTy E leaf t) n
  | .vector t n => vector (ofTy E leaf t) n
  | .bitlist n => bitlist E n
  | .bitvector n => bitvector n
  | t => leaf t

end Ssz.Serde
