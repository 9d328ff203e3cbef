import Verif.Model.SerDe

/-!
# `Display` for the errors, `Debug` for `List` and `Vector`

Text is a list of characters. `write!` to the formatter is taken to succeed. The formatting of the
standard library that is used is modelled here too: decimal and hexadecimal numbers, `Debug` for
`str`, `Vec` and derived enums. The alternate form `{:#?}` is not modelled.
-/

namespace Ssz

/-- Text. -/
abbrev Text := List Char

/-- A literal piece of a format string. -/
@[irreducible] def lit (s : Text) : Text := s

/-- `text "abc"` is `lit ['a', 'b', 'c']`. -/
macro "text " s:str : term => do
  let cs := s.getString.toList.map Lean.Syntax.mkCharLit
  `(lit [$(cs.toArray),*])

/-- `{n}` for an unsigned integer. -/
def decimal (n : Nat) : Text := (toString n).toList

/-- `{n:x}` for an unsigned integer. -/
def hexadecimal (n : Nat) : Text := Nat.toDigits 16 n

/-- `char::escape_debug_ext` as used by `Debug` for `str`. Which of the characters without an escape of
their own are printed as they are is a table of the standard library, here `plain`; the others are
written as `\u{..}`. -/
def escapeChar (plain : Char → Bool) (c : Char) : Text :=
  if c = '\x00' then ['\\', '0']
  else if c = '\t' then ['\\', 't']
  else if c = '\r' then ['\\', 'r']
  else if c = '\n' then ['\\', 'n']
  else if c = '\\' then ['\\', '\\']
  else if c = '"' then ['\\', '"']
  else if plain c then [c]
  else "\\u{".toList ++ hexadecimal c.toNat ++ ['}']

/-- `Debug` for `str`. -/
def debugStr (plain : Char → Bool) (s : String) : Text :=
  ['"'] ++ s.toList.flatMap (escapeChar plain) ++ ['"']

/-- The elements after the first in `Debug` for `Vec`. -/
def debugRest {α : Type} (f : α → Text) : List α → Text
  | [] => []
  | x :: xs => ", ".toList ++ f x ++ debugRest f xs

/-- `Debug` for `Vec`. -/
def debugVec {α : Type} (f : α → Text) : List α → Text
  | [] => "[]".toList
  | x :: xs => "[".toList ++ f x ++ debugRest f xs ++ "]".toList

/-- `Debug` for `PathElement`, derived: /repo/ssz-rs/src/merkleization/generalized_index.rs:8 -/
def PathElement.debug (plain : Char → Bool) : PathElement → Text
  | .index i => text "Index(" ++ decimal i ++ text ")"
  | .field s => text "Field(" ++ debugStr plain s ++ text ")"
  | .length => text "Length"
  | .selector => text "Selector"

/-- /repo/ssz-rs/src/error.rs:58-66 -/
def TypeError.display : TypeError → Text
  | .invalidBound size => text "the type for this value is invalid with bound " ++ decimal size

/-- /repo/ssz-rs/src/error.rs:80-93 -/
def InstanceError.display : InstanceError → Text
  | .exact required provided => text "required " ++ decimal required ++
      text " elements for this type but " ++ decimal provided ++ text " elements given"
  | .bounded bound provided => decimal provided ++
      text " elements given for a type with (inclusive) upper bound " ++ decimal bound

/-- /repo/ssz-rs/src/ser.rs:34-45 -/
def SerError.display : SerError → Text
  | .maximumEncodedLengthReached size => text "the encoded length is " ++ decimal size ++
      text " which meets or exceeds the maximum length " ++ decimal maximumLength
  | .invalidInstance err => text "invalid instance: " ++ err.display
  | .invalidType err => text "invalid type: " ++ err.display

/-- /repo/ssz-rs/src/de.rs:44-61. `BYTES_PER_LENGTH_OFFSET` is 4, /repo/ssz-rs/src/ser.rs:8 -/
def DeError.display : DeError → Text
  | .expectedFurtherInput provided expected => text "expected at least " ++ decimal expected ++
      text " byte(s) when decoding but provided only " ++ decimal provided ++ text " byte(s)"
  | .additionalInput provided expected => decimal provided ++
      text " byte(s) given but only expected (up to) " ++ decimal expected ++ text " byte(s)"
  | .invalidByte b => text "invalid byte " ++ hexadecimal b.toNat ++
      text " when decoding data of the expected type"
  | .invalidInstance err => text "invalid instance: " ++ err.display
  | .invalidType err => text "invalid type: " ++ err.display
  | .invalidOffsetsLength len => text "the offsets length provided " ++ decimal len ++
      text " is not a multiple of the size per length offset " ++ decimal 4 ++ text " bytes"
  | .offsetNotIncreasing start stop => text "invalid offset points to byte " ++ decimal stop ++
      text " before byte " ++ decimal start
  | .missingOffset => text "an offset was missing when deserializing a variable-sized type"
  | .noMatchingVariant => text "no corresponding variant of the requested enum was present"

/-- /repo/ssz-rs/src/merkleization/mod.rs:47-68 -/
def MerkError.display (plain : Char → Bool) : MerkError → Text
  | .serializationError err => text "failed to serialize value: " ++ err.display
  | .inputExceedsLimit size => text "data exceeds the declared limit " ++ decimal size
  | .invalidProof => text "merkle proof verification failed"
  | .invalidGeneralizedIndex => text "invalid generalized index"
  | .invalidPathElement element => text "invalid path element " ++ element.debug plain
  | .invalidPath path => text "invalid path " ++ debugVec (PathElement.debug plain) path
  | .invalidInnerIndex =>
    text "requested to compute proof for an inner element outside the bounds of what this type supports"
  | .noInnerElement =>
    text "requested to compute proof for an inner element which does not exist for this type"
  | .notChunkable => text "requested to compute chunks for a type which does not support this"

/-- `Error` with all its variants: /repo/ssz-rs/src/error.rs:4-16 -/
inductive AnyError where
  | serialize (e : SerError)
  | deserialize (e : DeError)
  | merkleization (e : MerkError)
  | instance (e : InstanceError)
  | type (e : TypeError)

/-- /repo/ssz-rs/src/error.rs:36-46 -/
def AnyError.display (plain : Char → Bool) : AnyError → Text
  | .serialize err => text "could not serialize: " ++ err.display
  | .deserialize err => text "could not deserialize: " ++ err.display
  | .merkleization err => text "merkleization error: " ++ err.display plain
  | .instance err => text "error constructing instance: " ++ err.display
  | .type err => text "type error: " ++ err.display

/-- `Debug` for `List`, for the name that `any::type_name` gives to the element type:
/repo/ssz-rs/src/list.rs:28-40 -/
def List.debugSsz {α : Type} (name : Text) (f : α → Text) (n : Nat) (data : List α) : Text :=
  text "List<" ++ name ++ text ", " ++ decimal n ++ text ">(len=" ++ decimal data.length ++
    text ")" ++ debugVec f data

/-- `Debug` for `Vector`: /repo/ssz-rs/src/vector.rs:73-85 -/
def Vector.debugSsz {α : Type} (name : Text) (f : α → Text) (n : Nat) (data : List α) : Text :=
  text "Vector<" ++ name ++ text ", " ++ decimal n ++ text ">" ++ debugVec f data

end Ssz
