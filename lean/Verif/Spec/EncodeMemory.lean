import Verif.Spec.Cost

/-!
# The parts that an encoding is put together from
-/

namespace Ssz
namespace Spec

/-- The bytes of a part that has an offset. -/
def offsetBytes (p : Piece) : Nat := if p.1 then p.2.length else 0

mutual

/-- The elements or fields of the value, or of the value that it is a wrapper of, as far as its encoding is
put together from theirs. -/
def pieces : (t : Ty) → t.Val → List Piece
  | .uint _, _ => []
  | .u256, _ => []
  | .bool, _ => []
  | .node, _ => []
  | .array t _, v => v.1.map fun x => (isVar t, enc t x)
  | .vector t _, v => List.map (fun x => (isVar t, enc t x)) v
  | .list t _, v => List.map (fun x => (isVar t, enc t x)) v
  | .bitvector _, _ => []
  | .bitlist _, _ => []
  | .option t, v => match (v : Option t.Val) with
    | none => []
    | some x => pieces t x
  | .newtype t, v => pieces t v
  | .container fs, v => piecesF fs v
  | .union vs, v => piecesV vs v

/-- The same for the payload of an enum. -/
def piecesV : (vs : Variants) → vs.Val → List Piece
  | .nil, v => Empty.elim v
  | .unit _, .inl _ => []
  | .unit rest, .inr v => piecesV rest v
  | .data t _, .inl v => pieces t v
  | .data _ rest, .inr v => piecesV rest v

end

end Spec
end Ssz
