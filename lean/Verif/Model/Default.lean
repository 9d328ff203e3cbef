import Verif.Model.Types

/-!
# `Default`

The crate implements `Default` for `List`, `Vector`, `Bitlist` and `Bitvector`; the standard library
for integers, `bool`, `Option` and arrays (of at most 32 elements), `alloy_primitives` for `U256` and
`Node`. For structs the default is that of `#[derive(Default)]`. For an enum it is that of the first
variant, as written by hand or marked with `#[default]`.
-/

namespace Ssz

/-- `Default` for `List`: /repo/ssz-rs/src/list.rs:41-52 -/
def SszList.default {α : Type} (n : Nat) : Calc (List α) :=
  match SszList.tryFromVec n ([] : List α) with
  | .ok v => .ok v
  | .err _ => .panic
  | .panic => .panic

/-- `Default` for `Bitlist`: /repo/ssz-rs/src/bitlist.rs:49-53 -/
def Bitlist.default : Bits := Bits.new

mutual

/-- `T::default()` for the types of the universe. -/
def Ty.default : (t : Ty) → Calc t.Val
  | .uint u => .ok (0 : BitVec u.bits)
  | .u256 => .ok (0 : BitVec 256)
  | .bool => .ok false
  | .node => .ok zeroNode
  | .array t n =>
    if h : n = 0 then .ok ⟨[], by simp [h]⟩
    else t.default >>= fun d => .ok ⟨List.replicate n d, List.length_replicate⟩
  | .vector t n => if n = 0 then .panic else t.default >>= fun d => SszVector.default n d
  | .list t n => (SszList.default n : Calc (List t.Val))
  | .bitvector n => Bitvector.default n
  | .bitlist _ => .ok Bitlist.default
  | .option t => .ok (none : Option t.Val)
  | .newtype t => t.default
  | .container fs => fs.default
  | .union vs => vs.default

/-- The default of a struct, field by field. -/
def Fields.default : (fs : Fields) → Calc fs.Val
  | .nil => .ok ()
  | .cons _ t rest => t.default >>= fun a => rest.default >>= fun b => .ok (a, b)

/-- The default of an enum. -/
def Variants.default : (vs : Variants) → Calc vs.Val
  | .nil => .panic
  | .unit _ => .ok (.inl ())
  | .data t _ => t.default >>= fun a => .ok (.inl a)

end

end Ssz
