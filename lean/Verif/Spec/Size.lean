import Verif.Spec.Encoding

/-!
# The amount of data a value holds
-/

namespace Ssz.Spec

mutual

/-- The number of bytes of data in a value: those of its basic values and selectors and the storage of
its bits. Each element of a collection counts for at least one byte, also if it is an empty list. -/
def dataBytes : (t : Ty) → t.Val → Nat
  | .uint u, _ => u.bits / 8
  | .u256, _ => 32
  | .bool, _ => 1
  | .node, _ => 32
  | .array t _, v => (v.1.map fun x => max 1 (dataBytes t x)).sum
  | .vector t _, v => (List.map (fun x => max 1 (dataBytes t x)) v).sum
  | .list t _, v => (List.map (fun x => max 1 (dataBytes t x)) v).sum
  | .bitvector _, v => (v.live.length + v.dead.length) / 8
  | .bitlist _, v => (v.live.length + v.dead.length) / 8
  | .option t, v => match (v : Option t.Val) with
    | none => 1
    | some x => 1 + dataBytes t x
  | .newtype t, v => dataBytes t v
  | .container fs, v => dataBytesF fs v
  | .union vs, v => dataBytesV vs v

/-- `dataBytes` of the fields of a struct. -/
def dataBytesF : (fs : Fields) → fs.Val → Nat
  | .nil, _ => 0
  | .cons _ t rest, v => dataBytes t v.1 + dataBytesF rest v.2

/-- `dataBytes` of an enum value. -/
def dataBytesV : (vs : Variants) → vs.Val → Nat
  | .nil, _ => 0
  | .unit _, .inl _ => 1
  | .unit rest, .inr v => dataBytesV rest v
  | .data t _, .inl v => 1 + dataBytes t v
  | .data _ rest, .inr v => dataBytesV rest v

end

end Ssz.Spec
