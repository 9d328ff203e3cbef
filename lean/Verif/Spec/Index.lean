import Verif.Spec.Branch

/-!
# Specification of generalized indices and of the parts a path addresses

Written from the SSZ specification (consensus-specs, `ssz/merkle-proofs.md`, `get_generalized_index`),
over the natural numbers, without any bound.
-/

namespace Ssz.Spec

/-- Concatenation of generalized indices: the index, in the whole tree, of the node with index `h`
in the subtree at index `g`. -/
def gcat (g h : Nat) : Nat := g * 2 ^ Nat.log2 h + (h - 2 ^ Nat.log2 h)

/-- The integers and booleans themselves (no newtypes). -/
def prims : Ty → Bool
  | .uint _ => true
  | .u256 => true
  | .bool => true
  | _ => false

/-- Position and type of the first field with the given name. -/
def fieldAt : Fields → String → Option (Nat × Ty)
  | .nil, _ => none
  | .cons name t rest, field =>
    if field = name then some (0, t) else (fieldAt rest field).map fun p => (p.1 + 1, p.2)

/-- A variant: `some none` if it has no payload, `some (some t)` if its payload has type `t`. -/
def variantAt : Variants → Nat → Option (Option Ty)
  | .nil, _ => none
  | .unit _, 0 => some none
  | .unit rest, i + 1 => variantAt rest i
  | .data t _, 0 => some (some t)
  | .data _ rest, i + 1 => variantAt rest i

/-- The type of lengths and selectors, and of absent payloads: a type without parts. -/
abbrev number : Ty := .uint .usize

section

variable (pk : Ty → Bool)

/-- `item_length` -/
def itemLen (t : Ty) : Nat := if pk t then fixedLen t else 32

/-- `chunk_count` of a vector or list -/
def itemCount (t : Ty) (n : Nat) : Nat := (n * itemLen pk t + 31) / 32

/-- One step of a path: the generalized index of the part within the whole, and the type of the
part. -/
def stepBy : Ty → PathElement → Option (Nat × Ty)
  | .array t n, .index i =>
    if i < n then some (2 ^ depthFor (itemCount pk t n) + i * itemLen pk t / 32, t) else none
  | .vector t n, .index i =>
    if i < n then some (2 ^ depthFor (itemCount pk t n) + i * itemLen pk t / 32, t) else none
  | .list t n, .index i =>
    if i < n then some (2 * 2 ^ depthFor (itemCount pk t n) + i * itemLen pk t / 32, t) else none
  | .list _ _, .length => some (3, number)
  | .bitvector n, .index i =>
    if i < n then some (2 ^ depthFor ((n + 255) / 256) + i / 256, .bool) else none
  | .bitlist n, .index i =>
    if i < n then some (2 * 2 ^ depthFor ((n + 255) / 256) + i / 256, .bool) else none
  | .bitlist _, .length => some (3, number)
  | .option t, .index i =>
    if i = 0 then some (2, number) else if i = 1 then some (2, t) else none
  | .option _, .selector => some (3, number)
  | .newtype t, e => stepBy t e
  | .container fs, .field name =>
    (fieldAt fs name).map fun p => (2 ^ depthFor (countF fs) + p.1, p.2)
  | .union vs, .index i => (variantAt vs i).map fun o => (2, o.getD number)
  | .union _, .selector => some (3, number)
  | _, _ => none

/-- The generalized index of a path and the type it leads to; `none` if the path is not valid for
the type. -/
def walkBy : Ty → List PathElement → Option (Nat × Ty)
  | t, [] => some (1, t)
  | t, e :: path =>
    match stepBy pk t e with
    | none => none
    | some (g, u) => (walkBy u path).map fun p => (gcat g p.1, p.2)

end

/-- The type a path leads to. -/
def typeAt (t : Ty) (path : List PathElement) : Option Ty := (walkBy isBasic t path).map (·.2)

/-- The generalized index of a path in the SSZ specification. -/
def gindex (t : Ty) (path : List PathElement) : Option Nat := (walkBy isBasic t path).map (·.1)

/-- The path is valid for the type: each element names a part of the type reached so far. -/
def ValidPath (t : Ty) (path : List PathElement) : Prop := (walkBy isBasic t path).isSome

/-- The type is `Bitlist`, or a newtype of it. -/
def isBitlist : Ty → Bool
  | .bitlist _ => true
  | .newtype t => isBitlist t
  | _ => false

/-- The path takes the length of a `Bitlist`. -/
def lengthOfBits : Ty → List PathElement → Bool
  | _, [] => false
  | t, e :: path =>
    (isBitlist t && e == .length) ||
      match stepBy isBasic t e with
      | none => false
      | some (_, u) => lengthOfBits u path

/-! ## Parts of a value -/

/-- What is to be found at the position of a part. -/
inductive Found where
  /-- a subtree -/
  | tree (s : MTree)
  /-- a chunk in which the given bytes stand at the given position -/
  | bytes (pos : Nat) (b : Bytes)
  /-- a chunk in which the bit at the given position has the given value -/
  | bit (pos : Nat) (b : Bool)

/-- The subtree is what is to be found. -/
def Found.In : Found → MTree → Prop
  | .tree s, u => u = s
  | .bytes pos b, u => ∃ n, u = .leaf n ∧ pos + b.length ≤ 32 ∧ (n.1.drop pos).take b.length = b
  | .bit pos b, u => ∃ n, u = .leaf n ∧ ∃ h : pos / 8 < n.1.length, n.1[pos / 8].getLsbD (pos % 8) = b

/-- The position of the active variant of an enum value. -/
def selectorOf : (vs : Variants) → vs.Val → Nat
  | .nil, v => Empty.elim v
  | .unit _, .inl _ => 0
  | .unit rest, .inr v => selectorOf rest v + 1
  | .data _ _, .inl _ => 0
  | .data _ rest, .inr v => selectorOf rest v + 1

/-- The part at the end of a path, for a part without further parts. -/
def Found.ending (f : Found) : List PathElement → Option Found
  | [] => some f
  | _ :: _ => none

/-- The part that a path addresses in a value packed into a chunk, at the given position. -/
def bytesPart : (t : Ty) → t.Val → Nat → List PathElement → Option Found
  | .array t _, v, pos, .index i :: rest =>
    match v.1[i]? with
    | none => none
    | some x => bytesPart t x (pos + i * fixedLen t) rest
  | t, v, pos, path => (Found.bytes pos (enc t v)).ending path

section

variable (pk : Ty → Bool)

mutual

/-- The part of a value that a path addresses; `none` if there is none. -/
def partBy : (t : Ty) → t.Val → List PathElement → Option Found
  | .uint u, v, path => (Found.tree (treeBy pk (.uint u) v)).ending path
  | .u256, v, path => (Found.tree (treeBy pk .u256 v)).ending path
  | .bool, v, path => (Found.tree (treeBy pk .bool v)).ending path
  | .node, v, path => (Found.tree (treeBy pk .node v)).ending path
  | .array t n, v, path =>
    match path with
    | [] => some (.tree (treeBy pk (.array t n) v))
    | .index i :: rest =>
      match v.1[i]? with
      | none => none
      | some x =>
        if pk t then bytesPart t x (i * fixedLen t % 32) rest else partBy t x rest
    | _ => none
  | .vector t n, v, path =>
    match path with
    | [] => some (.tree (treeBy pk (.vector t n) v))
    | .index i :: rest =>
      match (show List t.Val from v)[i]? with
      | none => none
      | some x =>
        if pk t then bytesPart t x (i * fixedLen t % 32) rest else partBy t x rest
    | _ => none
  | .list t n, v, path =>
    match path with
    | [] => some (.tree (treeBy pk (.list t n) v))
    | .index i :: rest =>
      match (show List t.Val from v)[i]? with
      | none => none
      | some x =>
        if pk t then bytesPart t x (i * fixedLen t % 32) rest else partBy t x rest
    | .length :: rest => (Found.tree (numLeaf (List.length v))).ending rest
    | _ => none
  | .bitvector n, v, path =>
    match path with
    | [] => some (.tree (treeBy pk (.bitvector n) v))
    | .index i :: rest =>
      match v.live[i]? with
      | none => none
      | some b => (Found.bit (i % 256) b).ending rest
    | _ => none
  | .bitlist n, v, path =>
    match path with
    | [] => some (.tree (treeBy pk (.bitlist n) v))
    | .index i :: rest =>
      match v.live[i]? with
      | none => none
      | some b => (Found.bit (i % 256) b).ending rest
    | .length :: rest => (Found.tree (numLeaf v.live.length)).ending rest
    | _ => none
  | .option t, v, path =>
    match path with
    | [] => some (.tree (treeBy pk (.option t) v))
    | .index i :: rest =>
      match (show Option t.Val from v) with
      | none => if i = 0 then (Found.tree (.leaf zeroNode)).ending rest else none
      | some x => if i = 1 then partBy t x rest else none
    | .selector :: rest =>
      (Found.tree (numLeaf (if (show Option t.Val from v).isSome then 1 else 0))).ending rest
    | _ => none
  | .newtype t, v, path => partBy t v path
  | .container fs, v, path =>
    match path with
    | [] => some (.tree (treeBy pk (.container fs) v))
    | .field name :: rest => partByF fs v name rest
    | _ => none
  | .union vs, v, path =>
    match path with
    | [] => some (.tree (treeBy pk (.union vs) v))
    | .index i :: rest => partByV vs v i rest
    | .selector :: rest => (Found.tree (numLeaf (selectorOf vs v))).ending rest
    | _ => none

/-- The part of a struct that the name of a field and a path address. -/
def partByF : (fs : Fields) → fs.Val → String → List PathElement → Option Found
  | .nil, _, _, _ => none
  | .cons name t rest, v, field, path =>
    if field = name then partBy t v.1 path else partByF rest v.2 field path

/-- The part of an enum value that the number of the active variant and a path address. -/
def partByV : (vs : Variants) → vs.Val → Nat → List PathElement → Option Found
  | .nil, _, _, _ => none
  | .unit _, .inl _, i, path => if i = 0 then (Found.tree (.leaf zeroNode)).ending path else none
  | .unit rest, .inr v, i, path => if i = 0 then none else partByV rest v (i - 1) path
  | .data t _, .inl v, i, path => if i = 0 then partBy t v path else none
  | .data _ rest, .inr v, i, path => if i = 0 then none else partByV rest v (i - 1) path

end

end

/-- The part of a value that a path addresses, in the SSZ specification. -/
def part (t : Ty) (v : t.Val) (path : List PathElement) : Option Found := partBy isBasic t v path

mutual

/-- Wherever the path enters an `Option` or an enum value, it names the variant that the value has. -/
def Active : (t : Ty) → t.Val → List PathElement → Prop
  | .array t _, v, path =>
    match path with
    | .index i :: rest => ∀ x, v.1[i]? = some x → Active t x rest
    | _ => True
  | .vector t _, v, path =>
    match path with
    | .index i :: rest => ∀ x, (show List t.Val from v)[i]? = some x → Active t x rest
    | _ => True
  | .list t _, v, path =>
    match path with
    | .index i :: rest => ∀ x, (show List t.Val from v)[i]? = some x → Active t x rest
    | _ => True
  | .option t, v, path =>
    match path with
    | .index i :: rest =>
      match (show Option t.Val from v) with
      | none => i = 0
      | some x => i = 1 ∧ Active t x rest
    | _ => True
  | .newtype t, v, path => Active t v path
  | .container fs, v, path =>
    match path with
    | .field name :: rest => ActiveF fs v name rest
    | _ => True
  | .union vs, v, path =>
    match path with
    | .index i :: rest => ActiveV vs v i rest
    | _ => True
  | .uint _, _, _ => True
  | .u256, _, _ => True
  | .bool, _, _ => True
  | .node, _, _ => True
  | .bitvector _, _, _ => True
  | .bitlist _, _, _ => True

/-- `Active` in a struct, from the field with the given name. -/
def ActiveF : (fs : Fields) → fs.Val → String → List PathElement → Prop
  | .nil, _, _, _ => True
  | .cons name t rest, v, field, path =>
    if field = name then Active t v.1 path else ActiveF rest v.2 field path

/-- `Active` in an enum value, from the variant with the given number. -/
def ActiveV : (vs : Variants) → vs.Val → Nat → List PathElement → Prop
  | .nil, _, _, _ => True
  | .unit _, .inl _, i, _ => i = 0
  | .unit rest, .inr v, i, path => 0 < i ∧ ActiveV rest v (i - 1) path
  | .data t _, .inl v, i, path => i = 0 ∧ Active t v path
  | .data _ rest, .inr v, i, path => 0 < i ∧ ActiveV rest v (i - 1) path

end

mutual

/-- Every `List` in the value has as many elements as it can have. -/
def FullLists : (t : Ty) → t.Val → Prop
  | .uint _, _ => True
  | .u256, _ => True
  | .bool, _ => True
  | .node, _ => True
  | .array t _, v => Each (FullLists t) v.1
  | .vector t _, v => Each (FullLists t) v
  | .list t n, v => List.length v = n ∧ Each (FullLists t) v
  | .bitvector _, _ => True
  | .bitlist _, _ => True
  | .option t, v => ∀ x : t.Val, v = some x → FullLists t x
  | .newtype t, v => FullLists t v
  | .container fs, v => FullListsF fs v
  | .union vs, v => FullListsV vs v

/-- `FullLists` for the fields of a struct. -/
def FullListsF : (fs : Fields) → fs.Val → Prop
  | .nil, _ => True
  | .cons _ t rest, v => FullLists t v.1 ∧ FullListsF rest v.2

/-- `FullLists` for the payload of an enum value. -/
def FullListsV : (vs : Variants) → vs.Val → Prop
  | .nil, _ => True
  | .unit _, .inl _ => True
  | .unit rest, .inr v => FullListsV rest v
  | .data t _, .inl v => FullLists t v
  | .data _ rest, .inr v => FullListsV rest v

end

/-! ## Side conditions -/

/-- An element type that is not an array of packed elements, or is one chunk. -/
def flatElem : Ty → Bool
  | .array t n => !packs t || oneChunk (.array t n)
  | _ => true

mutual

/-- No part of the type is a collection whose elements are arrays of packed elements, except for
arrays that are one chunk. -/
def Flat : Ty → Prop
  | .uint _ => True
  | .u256 => True
  | .bool => True
  | .node => True
  | .array t _ => flatElem t = true ∧ Flat t
  | .vector t _ => flatElem t = true ∧ Flat t
  | .list t _ => flatElem t = true ∧ Flat t
  | .bitvector _ => True
  | .bitlist _ => True
  | .option t => Flat t
  | .newtype t => Flat t
  | .container fs => FlatF fs
  | .union vs => FlatV vs

/-- `Flat` for the fields of a struct. -/
def FlatF : Fields → Prop
  | .nil => True
  | .cons _ t rest => Flat t ∧ FlatF rest

/-- `Flat` for the variants of an enum. -/
def FlatV : Variants → Prop
  | .nil => True
  | .unit rest => FlatV rest
  | .data t rest => Flat t ∧ FlatV rest

end

mutual

/-- The path does not enter a collection whose elements are arrays of packed elements, except for
arrays that are one chunk. It may end at one, or enter other parts of the type. -/
def FlatOn : Ty → List PathElement → Prop
  | .array t _, path =>
    match path with
    | .index _ :: rest => flatElem t = true ∧ FlatOn t rest
    | _ => True
  | .vector t _, path =>
    match path with
    | .index _ :: rest => flatElem t = true ∧ FlatOn t rest
    | _ => True
  | .list t _, path =>
    match path with
    | .index _ :: rest => flatElem t = true ∧ FlatOn t rest
    | .length :: _ => flatElem t = true
    | _ => True
  | .option t, path =>
    match path with
    | .index _ :: rest => FlatOn t rest
    | _ => True
  | .newtype t, path => FlatOn t path
  | .container fs, path =>
    match path with
    | .field name :: rest => FlatOnF fs name rest
    | _ => True
  | .union vs, path =>
    match path with
    | .index i :: rest => FlatOnV vs i rest
    | _ => True
  | .uint _, _ => True
  | .u256, _ => True
  | .bool, _ => True
  | .node, _ => True
  | .bitvector _, _ => True
  | .bitlist _, _ => True

/-- `FlatOn` in a struct, from the field with the given name. -/
def FlatOnF : Fields → String → List PathElement → Prop
  | .nil, _, _ => True
  | .cons name t rest, field, path => if field = name then FlatOn t path else FlatOnF rest field path

/-- `FlatOn` in an enum, from the variant with the given number. -/
def FlatOnV : Variants → Nat → List PathElement → Prop
  | .nil, _, _ => True
  | .unit _, 0, _ => True
  | .unit rest, i + 1, path => FlatOnV rest i path
  | .data t _, 0, path => FlatOn t path
  | .data _ rest, i + 1, path => FlatOnV rest i path

end

/-- The numbers in the chunk count of a collection, `N * item_length + 31`, fit in 64 bits, if the
step goes to an element of one. -/
def counts : Ty → PathElement → Prop
  | .array t n, .index _ => n * itemLen prims t + 31 < 2 ^ 64
  | .vector t n, .index _ => n * itemLen prims t + 31 < 2 ^ 64
  | .list t n, .index _ => n * itemLen prims t + 31 < 2 ^ 64
  | .newtype t, e => counts t e
  | _, _ => True

/-- This holds for each collection on the path. -/
def Countable : Ty → List PathElement → Prop
  | _, [] => True
  | t, e :: path => counts t e ∧
    match stepBy prims t e with
    | some (_, u) => Countable u path
    | none => True

mutual

/-- Every part of the type has at most `2^56` chunks, so that its materialised tree has fewer than
`2^63` bytes. -/
def Shallow : Ty → Prop
  | .uint _ => True
  | .u256 => True
  | .bool => True
  | .node => True
  | .array t n => itemCount prims t n ≤ 2 ^ 56 ∧ Shallow t
  | .vector t n => itemCount prims t n ≤ 2 ^ 56 ∧ Shallow t
  | .list t n => itemCount prims t n ≤ 2 ^ 56 ∧ Shallow t
  | .bitvector n => (n + 255) / 256 ≤ 2 ^ 56
  | .bitlist n => (n + 255) / 256 ≤ 2 ^ 56
  | .option t => Shallow t
  | .newtype t => Shallow t
  | .container fs => countF fs ≤ 2 ^ 56 ∧ ShallowF fs
  | .union vs => ShallowV vs

/-- `Shallow` for the fields of a struct. -/
def ShallowF : Fields → Prop
  | .nil => True
  | .cons _ t rest => Shallow t ∧ ShallowF rest

/-- `Shallow` for the variants of an enum. -/
def ShallowV : Variants → Prop
  | .nil => True
  | .unit rest => ShallowV rest
  | .data t rest => Shallow t ∧ ShallowV rest

end

end Ssz.Spec
