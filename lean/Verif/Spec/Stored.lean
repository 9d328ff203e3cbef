import Verif.Spec.Index

/-!
# Values whose `Bitlist`s have any unused storage bits

`push` and `pop` leave the removed bits of a `Bitlist` behind in its storage. They are not part of
the list, and `==` does not look at them, but they are written and hashed. Here is what is written
and hashed for a value of any type, read off from the storage of its `Bitlist`s.
-/

namespace Ssz.Spec

mutual

/-- The value respects the bounds of its type, at every depth; the unused storage bits of a
`Bitlist`, whatever their values, complete the last byte. -/
def Proper : (t : Ty) → t.Val → Prop
  | .uint _, _ => True
  | .u256, _ => True
  | .bool, _ => True
  | .node, _ => True
  | .array t _, v => Each (Proper t) v.1
  | .vector t n, v => List.length v = n ∧ Each (Proper t) v
  | .list t n, v => List.length v ≤ n ∧ Each (Proper t) v
  | .bitvector n, v => v.live.length = n
  | .bitlist n, v => v.live.length ≤ n ∧ v.dead.length = (padBits v.live.length).length
  | .option t, v => ∀ x : t.Val, v = some x → Proper t x
  | .newtype t, v => Proper t v
  | .container fs, v => ProperF fs v
  | .union vs, v => ProperV vs v

/-- `Proper` for the fields of a struct. -/
def ProperF : (fs : Fields) → fs.Val → Prop
  | .nil, _ => True
  | .cons _ t rest, v => Proper t v.1 ∧ ProperF rest v.2

/-- `Proper` for the payload of an enum value. -/
def ProperV : (vs : Variants) → vs.Val → Prop
  | .nil, _ => True
  | .unit _, .inl _ => True
  | .unit rest, .inr v => ProperV rest v
  | .data t _, .inl v => Proper t v
  | .data _ rest, .inr v => ProperV rest v

end

mutual

/-- What is written for a value: like the encoding, but the bit that marks the end of a `Bitlist`
takes the place of the first unused bit, and the other unused bits follow. -/
def rawEnc : (t : Ty) → t.Val → Bytes
  | .uint u, v => leBytes (u.bits / 8) v.toNat
  | .u256, v => leBytes 32 v.toNat
  | .bool, v => [bif v then 1 else 0]
  | .node, v => v.1
  | .array t _, v => assemble (v.1.map fun x => (isVar t, rawEnc t x))
  | .vector t _, v => assemble (List.map (fun x => (isVar t, rawEnc t x)) v)
  | .list t _, v => assemble (List.map (fun x => (isVar t, rawEnc t x)) v)
  | .bitvector _, v => packBits v.live
  | .bitlist _, v => packBits (v.live ++ true :: v.dead.tail)
  | .option t, v => match (v : Option t.Val) with
    | none => [0]
    | some x => 1 :: rawEnc t x
  | .newtype t, v => rawEnc t v
  | .container fs, v => assemble (rawPiecesF fs v)
  | .union vs, v => rawEncV vs 0 v

/-- What is written for the fields of a struct. -/
def rawPiecesF : (fs : Fields) → fs.Val → List Piece
  | .nil, _ => []
  | .cons _ t rest, v => (isVar t, rawEnc t v.1) :: rawPiecesF rest v.2

/-- What is written for an enum value: the position of the variant, then the payload. -/
def rawEncV : (vs : Variants) → Nat → vs.Val → Bytes
  | .nil, _, _ => []
  | .unit _, i, .inl _ => [BitVec.ofNat 8 i]
  | .unit rest, i, .inr v => rawEncV rest (i + 1) v
  | .data t _, i, .inl v => BitVec.ofNat 8 i :: rawEnc t v
  | .data _ rest, i, .inr v => rawEncV rest (i + 1) v

end

mutual

/-- The tree that is hashed for a value: the chunks of a `Bitlist` hold the unused bits behind the
bits. -/
def rawTree : (t : Ty) → t.Val → MTree
  | .uint u, v => .leaf (pad32 (enc (.uint u) v))
  | .u256, v => .leaf (pad32 (enc .u256 v))
  | .bool, v => .leaf (pad32 (enc .bool v))
  | .node, v => .leaf v
  | .array t n, v => full (depthFor (chunkCountBy packs t n))
      (if packs t then leaves (v.1.flatMap (enc t)) else v.1.map (rawTree t))
  | .vector t n, v => full (depthFor (chunkCountBy packs t n))
      (if packs t then leaves (List.flatMap (enc t) v) else List.map (rawTree t) v)
  | .list t n, v => .node
      (full (depthFor (chunkCountBy packs t n))
        (if packs t then leaves (List.flatMap (enc t) v) else List.map (rawTree t) v))
      (numLeaf (List.length v))
  | .bitvector n, v => full (depthFor ((n + 255) / 256)) (leaves (packBits v.live))
  | .bitlist n, v => .node (full (depthFor ((n + 255) / 256)) (leaves (packBits (v.live ++ v.dead))))
      (numLeaf v.live.length)
  | .option t, v => match (v : Option t.Val) with
    | none => .node (.leaf zeroNode) (numLeaf 0)
    | some x => .node (rawTree t x) (numLeaf 1)
  | .newtype t, v => rawTree t v
  | .container fs, v => full (depthFor (countF fs)) (rawTreesF fs v)
  | .union vs, v => rawTreeV vs 0 v

/-- `rawTree` for the fields of a struct. -/
def rawTreesF : (fs : Fields) → fs.Val → List MTree
  | .nil, _ => []
  | .cons _ t rest, v => rawTree t v.1 :: rawTreesF rest v.2

/-- `rawTree` for an enum value: the tree of the payload next to the position of the variant. -/
def rawTreeV : (vs : Variants) → Nat → vs.Val → MTree
  | .nil, _, v => Empty.elim v
  | .unit _, i, .inl _ => .node (.leaf zeroNode) (numLeaf i)
  | .unit rest, i, .inr v => rawTreeV rest (i + 1) v
  | .data t _, i, .inl v => .node (rawTree t v) (numLeaf i)
  | .data _ rest, i, .inr v => rawTreeV rest (i + 1) v

end

mutual

/-- The value with the unused bits of its `Bitvector`s cleared, which no operation looks at. -/
def tidy : (t : Ty) → t.Val → t.Val
  | .uint _, v => v
  | .u256, v => v
  | .bool, v => v
  | .node, v => v
  | .array t _, v => ⟨v.1.map (tidy t), by rw [List.length_map]; exact v.2⟩
  | .vector t _, v => List.map (tidy t) v
  | .list t _, v => List.map (tidy t) v
  | .bitvector _, v => (⟨v.live, padBits v.live.length⟩ : Bits)
  | .bitlist _, v => v
  | .option t, v => Option.map (tidy t) v
  | .newtype t, v => tidy t v
  | .container fs, v => tidyF fs v
  | .union vs, v => tidyV vs v

/-- `tidy` on the fields of a struct. -/
def tidyF : (fs : Fields) → fs.Val → fs.Val
  | .nil, v => v
  | .cons _ t rest, v => (tidy t v.1, tidyF rest v.2)

/-- `tidy` on the payload of an enum value. -/
def tidyV : (vs : Variants) → vs.Val → vs.Val
  | .nil, v => v
  | .unit _, .inl u => .inl u
  | .unit rest, .inr v => .inr (tidyV rest v)
  | .data t _, .inl v => .inl (tidy t v)
  | .data _ rest, .inr v => .inr (tidyV rest v)

end

mutual

/-- The value with the unused bits of its `Bitvector`s and the first unused bit of every `Bitlist`
cleared. -/
def trim : (t : Ty) → t.Val → t.Val
  | .uint _, v => v
  | .u256, v => v
  | .bool, v => v
  | .node, v => v
  | .array t _, v => ⟨v.1.map (trim t), by rw [List.length_map]; exact v.2⟩
  | .vector t _, v => List.map (trim t) v
  | .list t _, v => List.map (trim t) v
  | .bitvector _, v => (⟨v.live, padBits v.live.length⟩ : Bits)
  | .bitlist _, v => (⟨v.live, List.replicate (min v.dead.length 1) false ++ v.dead.tail⟩ : Bits)
  | .option t, v => Option.map (trim t) v
  | .newtype t, v => trim t v
  | .container fs, v => trimF fs v
  | .union vs, v => trimV vs v

/-- `trim` on the fields of a struct. -/
def trimF : (fs : Fields) → fs.Val → fs.Val
  | .nil, v => v
  | .cons _ t rest, v => (trim t v.1, trimF rest v.2)

/-- `trim` on the payload of an enum value. -/
def trimV : (vs : Variants) → vs.Val → vs.Val
  | .nil, v => v
  | .unit _, .inl u => .inl u
  | .unit rest, .inr v => .inr (trimV rest v)
  | .data t _, .inl v => .inl (trim t v)
  | .data _ rest, .inr v => .inr (trimV rest v)

end

mutual

/-- The part of a value that a path addresses, in the tree that is hashed; `none` if there is none. -/
def rawPart : (t : Ty) → t.Val → List PathElement → Option Found
  | .uint u, v, path => (Found.tree (rawTree (.uint u) v)).ending path
  | .u256, v, path => (Found.tree (rawTree .u256 v)).ending path
  | .bool, v, path => (Found.tree (rawTree .bool v)).ending path
  | .node, v, path => (Found.tree (rawTree .node v)).ending path
  | .array t n, v, path =>
    match path with
    | [] => some (.tree (rawTree (.array t n) v))
    | .index i :: rest =>
      match v.1[i]? with
      | none => none
      | some x =>
        if packs t then bytesPart t x (i * fixedLen t % 32) rest else rawPart t x rest
    | _ => none
  | .vector t n, v, path =>
    match path with
    | [] => some (.tree (rawTree (.vector t n) v))
    | .index i :: rest =>
      match (show List t.Val from v)[i]? with
      | none => none
      | some x =>
        if packs t then bytesPart t x (i * fixedLen t % 32) rest else rawPart t x rest
    | _ => none
  | .list t n, v, path =>
    match path with
    | [] => some (.tree (rawTree (.list t n) v))
    | .index i :: rest =>
      match (show List t.Val from v)[i]? with
      | none => none
      | some x =>
        if packs t then bytesPart t x (i * fixedLen t % 32) rest else rawPart t x rest
    | .length :: rest => (Found.tree (numLeaf (List.length v))).ending rest
    | _ => none
  | .bitvector n, v, path =>
    match path with
    | [] => some (.tree (rawTree (.bitvector n) v))
    | .index i :: rest =>
      match v.live[i]? with
      | none => none
      | some b => (Found.bit (i % 256) b).ending rest
    | _ => none
  | .bitlist n, v, path =>
    match path with
    | [] => some (.tree (rawTree (.bitlist n) v))
    | .index i :: rest =>
      match v.live[i]? with
      | none => none
      | some b => (Found.bit (i % 256) b).ending rest
    | .length :: rest => (Found.tree (numLeaf v.live.length)).ending rest
    | _ => none
  | .option t, v, path =>
    match path with
    | [] => some (.tree (rawTree (.option t) v))
    | .index i :: rest =>
      match (show Option t.Val from v) with
      | none => if i = 0 then (Found.tree (.leaf zeroNode)).ending rest else none
      | some x => if i = 1 then rawPart t x rest else none
    | .selector :: rest =>
      (Found.tree (numLeaf (if (show Option t.Val from v).isSome then 1 else 0))).ending rest
    | _ => none
  | .newtype t, v, path => rawPart t v path
  | .container fs, v, path =>
    match path with
    | [] => some (.tree (rawTree (.container fs) v))
    | .field name :: rest => rawPartF fs v name rest
    | _ => none
  | .union vs, v, path =>
    match path with
    | [] => some (.tree (rawTree (.union vs) v))
    | .index i :: rest => rawPartV vs v i rest
    | .selector :: rest => (Found.tree (numLeaf (selectorOf vs v))).ending rest
    | _ => none

/-- `rawPart` in a struct, from the field with the given name. -/
def rawPartF : (fs : Fields) → fs.Val → String → List PathElement → Option Found
  | .nil, _, _, _ => none
  | .cons name t rest, v, field, path =>
    if field = name then rawPart t v.1 path else rawPartF rest v.2 field path

/-- `rawPart` in an enum value, from the variant with the given number. -/
def rawPartV : (vs : Variants) → vs.Val → Nat → List PathElement → Option Found
  | .nil, _, _, _ => none
  | .unit _, .inl _, i, path => if i = 0 then (Found.tree (.leaf zeroNode)).ending path else none
  | .unit rest, .inr v, i, path => if i = 0 then none else rawPartV rest v (i - 1) path
  | .data t _, .inl v, i, path => if i = 0 then rawPart t v path else none
  | .data _ rest, .inr v, i, path => if i = 0 then none else rawPartV rest v (i - 1) path

end

end Ssz.Spec
