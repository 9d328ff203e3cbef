import Verif.Model.Types

/-!
# Specification of the SSZ encoding

Written from the SSZ specification (consensus-specs, `ssz/simple-serialize.md`), by recursion on the
type. Only the syntax of types (`Ty`), their values (`Ty.Val`) and bytes are shared with the model.
-/

namespace Ssz.Spec

/-- `x` as `n` bytes, least significant first. -/
def leBytes (n x : Nat) : Bytes := (List.range n).map fun i => BitVec.ofNat 8 (x / 256 ^ i)

/-- Bits packed eight to a byte, least significant first; the last byte is completed by zeros. -/
def packBits (bits : List Bool) : Bytes :=
  (List.range ((bits.length + 7) / 8)).map fun j =>
    BitVec.ofNat 8 ((List.range 8).map fun i => if bits.getD (8 * j + i) false then 2 ^ i else 0).sum

/-- Part of a composite value: whether its type is variable-size, and its encoding. -/
abbrev Piece := Bool × Bytes

/-- Bytes taken by a piece in the fixed part: the encoding itself, or a four byte offset. -/
def headSize (p : Piece) : Nat := if p.1 then 4 else p.2.length

/-- Length of the fixed part. -/
def headLen (ps : List Piece) : Nat := (ps.map headSize).sum

/-- The fixed part; `off` is the position at which the next variable-size piece will be placed. -/
def heads : Nat → List Piece → Bytes
  | _, [] => []
  | off, (true, b) :: ps => leBytes 4 off ++ heads (off + b.length) ps
  | off, (false, b) :: ps => b ++ heads off ps

/-- The variable part. -/
def tails (ps : List Piece) : Bytes := ps.flatMap fun p => if p.1 then p.2 else []

/-- Encoding of a composite value from its pieces. -/
def assemble (ps : List Piece) : Bytes := heads (headLen ps) ps ++ tails ps

/-- The positions of the variable-size pieces; `off` is that of the next one. -/
def starts : Nat → List Piece → List Nat
  | _, [] => []
  | off, (true, b) :: ps => off :: starts (off + b.length) ps
  | off, (false, _) :: ps => starts off ps

/-- All offsets fit in four bytes. -/
def Addressed (ps : List Piece) : Prop := ∀ o ∈ starts (headLen ps) ps, o < 2 ^ 32

/-- Every element satisfies `P`. -/
def Each {α : Type} (P : α → Prop) (l : List α) : Prop := ∀ x ∈ l, P x

mutual

/-- Is the type variable-size? -/
def isVar : Ty → Bool
  | .uint _ => false
  | .u256 => false
  | .bool => false
  | .node => false
  | .array t _ => isVar t
  | .vector t _ => isVar t
  | .list _ _ => true
  | .bitvector _ => false
  | .bitlist _ => true
  | .option _ => true
  | .newtype t => isVar t
  | .container fs => isVarF fs
  | .union _ => true

/-- Is some field variable-size? -/
def isVarF : Fields → Bool
  | .nil => false
  | .cons _ t rest => isVar t || isVarF rest

end

mutual

/-- Length of the encodings of a fixed-size type (zero for variable-size types). -/
def fixedLen : Ty → Nat
  | .uint u => u.bits / 8
  | .u256 => 32
  | .bool => 1
  | .node => 32
  | .array t n => fixedLen t * n
  | .vector t n => fixedLen t * n
  | .list _ _ => 0
  | .bitvector n => (n + 7) / 8
  | .bitlist _ => 0
  | .option _ => 0
  | .newtype t => fixedLen t
  | .container fs => if isVarF fs then 0 else fixedLenF fs
  | .union _ => 0

/-- Length of the fixed part of a struct: four bytes for each variable-size field. -/
def fixedLenF : Fields → Nat
  | .nil => 0
  | .cons _ t rest => (if isVar t then 4 else fixedLen t) + fixedLenF rest

end

mutual

/-- The encoding of a value. -/
def enc : (t : Ty) → t.Val → Bytes
  | .uint u, v => leBytes (u.bits / 8) v.toNat
  | .u256, v => leBytes 32 v.toNat
  | .bool, v => [bif v then 1 else 0]
  | .node, v => v.1
  | .array t _, v => assemble (v.1.map fun x => (isVar t, enc t x))
  | .vector t _, v => assemble (List.map (fun x => (isVar t, enc t x)) v)
  | .list t _, v => assemble (List.map (fun x => (isVar t, enc t x)) v)
  | .bitvector _, v => packBits v.live
  | .bitlist _, v => packBits (v.live ++ [true])
  | .option t, v => match (v : Option t.Val) with
    | none => [0]
    | some x => 1 :: enc t x
  | .newtype t, v => enc t v
  | .container fs, v => assemble (piecesF fs v)
  | .union vs, v => encV vs 0 v

/-- The encoded fields of a struct. -/
def piecesF : (fs : Fields) → fs.Val → List Piece
  | .nil, _ => []
  | .cons _ t rest, v => (isVar t, enc t v.1) :: piecesF rest v.2

/-- The encoding of an enum value: the position of the variant, then the payload. -/
def encV : (vs : Variants) → Nat → vs.Val → Bytes
  | .nil, _, _ => []
  | .unit _, i, .inl _ => [BitVec.ofNat 8 i]
  | .unit rest, i, .inr v => encV rest (i + 1) v
  | .data t _, i, .inl v => BitVec.ofNat 8 i :: enc t v
  | .data _ rest, i, .inr v => encV rest (i + 1) v

end

/-- Unused storage bits, all clear. -/
def padBits (n : Nat) : List Bool := List.replicate ((8 - n % 8) % 8) false

mutual

/-- The value with all unused storage bits cleared. Rust's `v == w` is `norm v = norm w`. -/
def norm : (t : Ty) → t.Val → t.Val
  | .uint _, v => v
  | .u256, v => v
  | .bool, v => v
  | .node, v => v
  | .array t _, v => ⟨v.1.map (norm t), by rw [List.length_map]; exact v.2⟩
  | .vector t _, v => List.map (norm t) v
  | .list t _, v => List.map (norm t) v
  | .bitvector _, v => (⟨v.live, padBits v.live.length⟩ : Bits)
  | .bitlist _, v => (⟨v.live, padBits v.live.length⟩ : Bits)
  | .option t, v => Option.map (norm t) v
  | .newtype t, v => norm t v
  | .container fs, v => normF fs v
  | .union vs, v => normV vs v

/-- `norm` on the fields of a struct. -/
def normF : (fs : Fields) → fs.Val → fs.Val
  | .nil, v => v
  | .cons _ t rest, v => (norm t v.1, normF rest v.2)

/-- `norm` on the payload of an enum value. -/
def normV : (vs : Variants) → vs.Val → vs.Val
  | .nil, v => v
  | .unit _, .inl u => .inl u
  | .unit rest, .inr v => .inr (normV rest v)
  | .data t _, .inl v => .inl (norm t v)
  | .data _ rest, .inr v => .inr (normV rest v)

end

mutual

/-- The value respects the bounds of its type, at every depth; the unused storage bits of a
`Bitlist` are clear (this holds unless elements have been removed from it). -/
def Valid : (t : Ty) → t.Val → Prop
  | .uint _, _ => True
  | .u256, _ => True
  | .bool, _ => True
  | .node, _ => True
  | .array t _, v => Each (Valid t) v.1
  | .vector t n, v => List.length v = n ∧ Each (Valid t) v
  | .list t n, v => List.length v ≤ n ∧ Each (Valid t) v
  | .bitvector n, v => v.live.length = n
  | .bitlist n, v => v.live.length ≤ n ∧ v.dead = padBits v.live.length
  | .option t, v => ∀ x : t.Val, v = some x → Valid t x
  | .newtype t, v => Valid t v
  | .container fs, v => ValidF fs v
  | .union vs, v => ValidV vs v

/-- `Valid` for the fields of a struct. -/
def ValidF : (fs : Fields) → fs.Val → Prop
  | .nil, _ => True
  | .cons _ t rest, v => Valid t v.1 ∧ ValidF rest v.2

/-- `Valid` for the payload of an enum value. -/
def ValidV : (vs : Variants) → vs.Val → Prop
  | .nil, _ => True
  | .unit _, .inl _ => True
  | .unit rest, .inr v => ValidV rest v
  | .data t _, .inl v => Valid t v
  | .data _ rest, .inr v => ValidV rest v

end

/-- Number of variants. -/
def countV : Variants → Nat
  | .nil => 0
  | .unit rest => countV rest + 1
  | .data _ rest => countV rest + 1

/-- Only payload variants. -/
def noUnitV : Variants → Bool
  | .nil => true
  | .unit _ => false
  | .data _ rest => noUnitV rest

/-- The shape SSZ demands of a union: 1 to 127 variants, of which only the first may be `None`, and
not alone. -/
def unionShape : Variants → Prop
  | .nil => False
  | .unit rest => noUnitV rest = true ∧ 1 ≤ countV rest ∧ countV rest + 1 ≤ 127
  | .data _ rest => noUnitV rest = true ∧ countV rest + 1 ≤ 127

/-- Names of the fields. -/
def namesF : Fields → List String
  | .nil => []
  | .cons name _ rest => name :: namesF rest

mutual

/-- Types that SSZ allows: no empty vectors or containers, well-shaped unions. -/
def Legal : Ty → Prop
  | .uint _ => True
  | .u256 => True
  | .bool => True
  | .node => True
  | .array t n => 0 < n ∧ Legal t
  | .vector t n => 0 < n ∧ Legal t
  | .list t _ => Legal t
  | .bitvector n => 0 < n
  | .bitlist _ => True
  | .option t => Legal t
  | .newtype t => Legal t
  | .container fs => namesF fs ≠ [] ∧ (namesF fs).Nodup ∧ LegalF fs
  | .union vs => unionShape vs ∧ LegalV vs

/-- `Legal` for the fields of a struct. -/
def LegalF : Fields → Prop
  | .nil => True
  | .cons _ t rest => Legal t ∧ LegalF rest

/-- `Legal` for the variants of an enum. -/
def LegalV : Variants → Prop
  | .nil => True
  | .unit rest => LegalV rest
  | .data t rest => Legal t ∧ LegalV rest

end

mutual

/-- The sizes of all parts of the type are below `2^63`, the bound of Rust on the size of a value or
allocation. -/
def Fits : Ty → Prop
  | .uint _ => True
  | .u256 => True
  | .bool => True
  | .node => True
  | .array t n => Fits t ∧ fixedLen t * n < 2 ^ 63
  | .vector t n => Fits t ∧ fixedLen t * n < 2 ^ 63
  | .list t _ => Fits t
  | .bitvector n => n < 2 ^ 64
  | .bitlist n => n + 8 < 2 ^ 64
  | .option t => Fits t
  | .newtype t => Fits t
  | .container fs => FitsF fs ∧ fixedLenF fs < 2 ^ 63
  | .union vs => FitsV vs

/-- `Fits` for the fields of a struct. -/
def FitsF : Fields → Prop
  | .nil => True
  | .cons _ t rest => Fits t ∧ FitsF rest

/-- `Fits` for the variants of an enum. -/
def FitsV : Variants → Prop
  | .nil => True
  | .unit rest => FitsV rest
  | .data t rest => Fits t ∧ FitsV rest

end

/-- `2^32`: encodings of composite values must be shorter. -/
def maxLen : Nat := 2 ^ 32

mutual

/-- The encoding of the value, and of every composite inside it, is shorter than `2^32` bytes. -/
def Small : (t : Ty) → t.Val → Prop
  | .uint _, _ => True
  | .u256, _ => True
  | .bool, _ => True
  | .node, _ => True
  | .array t n, v => (enc (.array t n) v).length < maxLen ∧ Each (Small t) v.1
  | .vector t n, v => (enc (.vector t n) v).length < maxLen ∧ Each (Small t) v
  | .list t n, v => (enc (.list t n) v).length < maxLen ∧ Each (Small t) v
  | .bitvector _, _ => True
  | .bitlist _, _ => True
  | .option t, v => ∀ x : t.Val, v = some x → Small t x
  | .newtype t, v => Small t v
  | .container fs, v => (enc (.container fs) v).length < maxLen ∧ SmallF fs v
  | .union vs, v => SmallV vs v

/-- `Small` for the fields of a struct. -/
def SmallF : (fs : Fields) → fs.Val → Prop
  | .nil, _ => True
  | .cons _ t rest, v => Small t v.1 ∧ SmallF rest v.2

/-- `Small` for the payload of an enum value. -/
def SmallV : (vs : Variants) → vs.Val → Prop
  | .nil, _ => True
  | .unit _, .inl _ => True
  | .unit rest, .inr v => SmallV rest v
  | .data t _, .inl v => Small t v
  | .data _ rest, .inr v => SmallV rest v

end

mutual

/-- No list of variable-size elements inside the value is empty. -/
def NoEmptyVarList : (t : Ty) → t.Val → Prop
  | .uint _, _ => True
  | .u256, _ => True
  | .bool, _ => True
  | .node, _ => True
  | .array t _, v => Each (NoEmptyVarList t) v.1
  | .vector t _, v => Each (NoEmptyVarList t) v
  | .list t _, v => (isVar t = true → v ≠ ([] : List t.Val)) ∧ Each (NoEmptyVarList t) v
  | .bitvector _, _ => True
  | .bitlist _, _ => True
  | .option t, v => ∀ x : t.Val, v = some x → NoEmptyVarList t x
  | .newtype t, v => NoEmptyVarList t v
  | .container fs, v => NoEmptyVarListF fs v
  | .union vs, v => NoEmptyVarListV vs v

/-- `NoEmptyVarList` for the fields of a struct. -/
def NoEmptyVarListF : (fs : Fields) → fs.Val → Prop
  | .nil, _ => True
  | .cons _ t rest, v => NoEmptyVarList t v.1 ∧ NoEmptyVarListF rest v.2

/-- `NoEmptyVarList` for the payload of an enum value. -/
def NoEmptyVarListV : (vs : Variants) → vs.Val → Prop
  | .nil, _ => True
  | .unit _, .inl _ => True
  | .unit rest, .inr v => NoEmptyVarListV rest v
  | .data t _, .inl v => NoEmptyVarList t v
  | .data _ rest, .inr v => NoEmptyVarListV rest v

end

mutual

/-- The type contains no array, vector or list of variable-size elements. -/
def NoVarElems : Ty → Prop
  | .uint _ => True
  | .u256 => True
  | .bool => True
  | .node => True
  | .array t _ => isVar t = false ∧ NoVarElems t
  | .vector t _ => isVar t = false ∧ NoVarElems t
  | .list t _ => isVar t = false ∧ NoVarElems t
  | .bitvector _ => True
  | .bitlist _ => True
  | .option t => NoVarElems t
  | .newtype t => NoVarElems t
  | .container fs => NoVarElemsF fs
  | .union vs => NoVarElemsV vs

/-- `NoVarElems` for the fields of a struct. -/
def NoVarElemsF : Fields → Prop
  | .nil => True
  | .cons _ t rest => NoVarElems t ∧ NoVarElemsF rest

/-- `NoVarElems` for the variants of an enum. -/
def NoVarElemsV : Variants → Prop
  | .nil => True
  | .unit rest => NoVarElemsV rest
  | .data t rest => NoVarElems t ∧ NoVarElemsV rest

end

/-- Number of variable-size fields. -/
def countVarF : Fields → Nat
  | .nil => 0
  | .cons _ t rest => (if isVar t then 1 else 0) + countVarF rest

mutual

/-- Every struct inside the type has at most one variable-size field. -/
def OneVarField : Ty → Prop
  | .uint _ => True
  | .u256 => True
  | .bool => True
  | .node => True
  | .array t _ => OneVarField t
  | .vector t _ => OneVarField t
  | .list t _ => OneVarField t
  | .bitvector _ => True
  | .bitlist _ => True
  | .option t => OneVarField t
  | .newtype t => OneVarField t
  | .container fs => countVarF fs ≤ 1 ∧ OneVarFieldF fs
  | .union vs => OneVarFieldV vs

/-- `OneVarField` for the fields of a struct. -/
def OneVarFieldF : Fields → Prop
  | .nil => True
  | .cons _ t rest => OneVarField t ∧ OneVarFieldF rest

/-- `OneVarField` for the variants of an enum. -/
def OneVarFieldV : Variants → Prop
  | .nil => True
  | .unit rest => OneVarFieldV rest
  | .data t rest => OneVarField t ∧ OneVarFieldV rest

end

mutual

/-- Every `List` and `Bitlist` inside the value respects its bound. -/
def InBounds : (t : Ty) → t.Val → Prop
  | .uint _, _ => True
  | .u256, _ => True
  | .bool, _ => True
  | .node, _ => True
  | .array t _, v => Each (InBounds t) v.1
  | .vector t _, v => Each (InBounds t) v
  | .list t n, v => List.length v ≤ n ∧ Each (InBounds t) v
  | .bitvector _, _ => True
  | .bitlist n, v => v.live.length ≤ n
  | .option t, v => ∀ x : t.Val, v = some x → InBounds t x
  | .newtype t, v => InBounds t v
  | .container fs, v => InBoundsF fs v
  | .union vs, v => InBoundsV vs v

/-- `InBounds` for the fields of a struct. -/
def InBoundsF : (fs : Fields) → fs.Val → Prop
  | .nil, _ => True
  | .cons _ t rest, v => InBounds t v.1 ∧ InBoundsF rest v.2

/-- `InBounds` for the payload of an enum value. -/
def InBoundsV : (vs : Variants) → vs.Val → Prop
  | .nil, _ => True
  | .unit _, .inl _ => True
  | .unit rest, .inr v => InBoundsV rest v
  | .data t _, .inl v => InBounds t v
  | .data _ rest, .inr v => InBoundsV rest v

end

mutual

/-- The `Bitlist`s inside the value are stored in whole bytes: the unused bits, whatever their
values, complete the last byte. Every `BitVec` in memory is like this. (Nothing is asked of a
`Bitvector`: no operation looks at its unused bits.) -/
def Stored : (t : Ty) → t.Val → Prop
  | .uint _, _ => True
  | .u256, _ => True
  | .bool, _ => True
  | .node, _ => True
  | .array t _, v => Each (Stored t) v.1
  | .vector t _, v => Each (Stored t) v
  | .list t _, v => Each (Stored t) v
  | .bitvector _, _ => True
  | .bitlist _, v => v.dead.length = (padBits v.live.length).length
  | .option t, v => ∀ x : t.Val, v = some x → Stored t x
  | .newtype t, v => Stored t v
  | .container fs, v => StoredF fs v
  | .union vs, v => StoredV vs v

/-- `Stored` for the fields of a struct. -/
def StoredF : (fs : Fields) → fs.Val → Prop
  | .nil, _ => True
  | .cons _ t rest, v => Stored t v.1 ∧ StoredF rest v.2

/-- `Stored` for the payload of an enum value. -/
def StoredV : (vs : Variants) → vs.Val → Prop
  | .nil, _ => True
  | .unit _, .inl _ => True
  | .unit rest, .inr v => StoredV rest v
  | .data t _, .inl v => Stored t v
  | .data _ rest, .inr v => StoredV rest v

end

mutual

/-- The unused storage bits of every `Bitlist` inside the value are clear. -/
def Clean : (t : Ty) → t.Val → Prop
  | .uint _, _ => True
  | .u256, _ => True
  | .bool, _ => True
  | .node, _ => True
  | .array t _, v => Each (Clean t) v.1
  | .vector t _, v => Each (Clean t) v
  | .list t _, v => Each (Clean t) v
  | .bitvector _, _ => True
  | .bitlist _, v => v.dead = padBits v.live.length
  | .option t, v => ∀ x : t.Val, v = some x → Clean t x
  | .newtype t, v => Clean t v
  | .container fs, v => CleanF fs v
  | .union vs, v => CleanV vs v

/-- `Clean` for the fields of a struct. -/
def CleanF : (fs : Fields) → fs.Val → Prop
  | .nil, _ => True
  | .cons _ t rest, v => Clean t v.1 ∧ CleanF rest v.2

/-- `Clean` for the payload of an enum value. -/
def CleanV : (vs : Variants) → vs.Val → Prop
  | .nil, _ => True
  | .unit _, .inl _ => True
  | .unit rest, .inr v => CleanV rest v
  | .data t _, .inl v => Clean t v
  | .data _ rest, .inr v => CleanV rest v

end

mutual

/-- The type contains no `List` of variable-size elements. -/
def NoVarList : Ty → Prop
  | .uint _ => True
  | .u256 => True
  | .bool => True
  | .node => True
  | .array t _ => NoVarList t
  | .vector t _ => NoVarList t
  | .list t _ => isVar t = false ∧ NoVarList t
  | .bitvector _ => True
  | .bitlist _ => True
  | .option t => NoVarList t
  | .newtype t => NoVarList t
  | .container fs => NoVarListF fs
  | .union vs => NoVarListV vs

/-- `NoVarList` for the fields of a struct. -/
def NoVarListF : Fields → Prop
  | .nil => True
  | .cons _ t rest => NoVarList t ∧ NoVarListF rest

/-- `NoVarList` for the variants of an enum. -/
def NoVarListV : Variants → Prop
  | .nil => True
  | .unit rest => NoVarListV rest
  | .data t rest => NoVarList t ∧ NoVarListV rest

end

/-- Position of the variant of an enum value. -/
def posV : (vs : Variants) → vs.Val → Nat
  | .nil, _ => 0
  | .unit _, .inl _ => 0
  | .unit rest, .inr v => posV rest v + 1
  | .data _ _, .inl _ => 0
  | .data _ rest, .inr v => posV rest v + 1

/-- Neither an `Option` nor an enum, also behind newtypes. -/
def noSelector : Ty → Prop
  | .option _ => False
  | .union _ => False
  | .newtype t => noSelector t
  | _ => True

mutual

/-- The selector bytes at the front of an encoding: that of the value, if it is an enum value, then
those of its payload. -/
def selectors : (t : Ty) → t.Val → Bytes
  | .option t, v => match (v : Option t.Val) with
    | none => [0]
    | some x => 1 :: selectors t x
  | .newtype t, v => selectors t v
  | .union vs, v => selectorsV vs 0 v
  | .uint _, _ => []
  | .u256, _ => []
  | .bool, _ => []
  | .node, _ => []
  | .array _ _, _ => []
  | .vector _ _, _ => []
  | .list _ _, _ => []
  | .bitvector _, _ => []
  | .bitlist _, _ => []
  | .container _, _ => []

/-- `selectors` for an enum value. -/
def selectorsV : (vs : Variants) → Nat → vs.Val → Bytes
  | .nil, _, _ => []
  | .unit _, i, .inl _ => [BitVec.ofNat 8 i]
  | .unit rest, i, .inr v => selectorsV rest (i + 1) v
  | .data t _, i, .inl v => BitVec.ofNat 8 i :: selectors t v
  | .data _ rest, i, .inr v => selectorsV rest (i + 1) v

end

end Ssz.Spec
