import Verif.Model.Types

/-!
# Comparisons

`==` and `cmp` on values. The crate implements `PartialEq` for `List` and `Vector` by hand and
derives it for the bit collections, and derives `PartialOrd` and `Ord` for all four. User structs and
enums derive all of these; `derive` compares field by field, for enums the positions of the variants
first.
-/

namespace Ssz

/-- `==` of two slices (standard library): same length, equal elements. -/
def eqSlice {α : Type} (eq : α → α → Bool) : List α → List α → Bool
  | [], [] => true
  | x :: xs, y :: ys => eq x y && eqSlice eq xs ys
  | _, _ => false

/-- `cmp` of two slices (standard library): the first elements that differ decide, then the
lengths. -/
def cmpSlice {α : Type} (cmp : α → α → Ordering) : List α → List α → Ordering
  | [], [] => .eq
  | [], _ :: _ => .lt
  | _ :: _, [] => .gt
  | x :: xs, y :: ys => match cmp x y with
    | .eq => cmpSlice cmp xs ys
    | o => o

/-- `cmp` of two `bool`s. -/
def cmpBool : Bool → Bool → Ordering
  | false, true => .lt
  | true, false => .gt
  | _, _ => .eq

mutual

/-- `v == w`.
/repo/ssz-rs/src/list.rs:54-63, /repo/ssz-rs/src/vector.rs:30-36, /repo/ssz-rs/src/bitlist.rs:27,
/repo/ssz-rs/src/bitvector.rs:36; `bitvec` compares the live bits. -/
def Ty.eq : (t : Ty) → t.Val → t.Val → Bool
  | .uint u, v, w => BEq.beq (α := BitVec u.bits) v w
  | .u256, v, w => BEq.beq (α := BitVec 256) v w
  | .bool, v, w => BEq.beq (α := Bool) v w
  | .node, v, w => eqSlice (· == ·) v.1 w.1
  | .array t _, v, w => eqSlice t.eq v.1 w.1
  | .vector t _, v, w => eqSlice t.eq v w
  | .list t _, v, w => eqSlice t.eq v w
  | .bitvector _, v, w => eqSlice (· == ·) v.live w.live
  | .bitlist _, v, w => eqSlice (· == ·) v.live w.live
  | .option t, v, w => match (v : Option t.Val), (w : Option t.Val) with
    | none, none => true
    | some x, some y => t.eq x y
    | _, _ => false
  | .newtype t, v, w => t.eq v w
  | .container fs, v, w => fs.eq v w
  | .union vs, v, w => vs.eq v w

/-- Derived `==` of structs. -/
def Fields.eq : (fs : Fields) → fs.Val → fs.Val → Bool
  | .nil, _, _ => true
  | .cons _ t rest, v, w => t.eq v.1 w.1 && rest.eq v.2 w.2

/-- Derived `==` of enums. -/
def Variants.eq : (vs : Variants) → vs.Val → vs.Val → Bool
  | .nil, _, _ => true
  | .unit _, .inl _, .inl _ => true
  | .unit rest, .inr v, .inr w => rest.eq v w
  | .data t _, .inl v, .inl w => t.eq v w
  | .data _ rest, .inr v, .inr w => rest.eq v w
  | .unit _, .inl _, .inr _ => false
  | .unit _, .inr _, .inl _ => false
  | .data _ _, .inl _, .inr _ => false
  | .data _ _, .inr _, .inl _ => false

end

mutual

/-- `v.cmp(&w)`.
/repo/ssz-rs/src/list.rs:16, /repo/ssz-rs/src/vector.rs:18, /repo/ssz-rs/src/bitlist.rs:27,
/repo/ssz-rs/src/bitvector.rs:36; `bitvec` compares bit by bit, then the lengths. -/
def Ty.cmp : (t : Ty) → t.Val → t.Val → Ordering
  | .uint u, v, w => compare (BitVec.toNat (w := u.bits) v) (BitVec.toNat (w := u.bits) w)
  | .u256, v, w => compare (BitVec.toNat (w := 256) v) (BitVec.toNat (w := 256) w)
  | .bool, v, w => cmpBool v w
  | .node, v, w => cmpSlice (fun x y : Byte => compare x.toNat y.toNat) v.1 w.1
  | .array t _, v, w => cmpSlice t.cmp v.1 w.1
  | .vector t _, v, w => cmpSlice t.cmp v w
  | .list t _, v, w => cmpSlice t.cmp v w
  | .bitvector _, v, w => cmpSlice cmpBool v.live w.live
  | .bitlist _, v, w => cmpSlice cmpBool v.live w.live
  | .option t, v, w => match (v : Option t.Val), (w : Option t.Val) with
    | none, none => .eq
    | none, some _ => .lt
    | some _, none => .gt
    | some x, some y => t.cmp x y
  | .newtype t, v, w => t.cmp v w
  | .container fs, v, w => fs.cmp v w
  | .union vs, v, w => vs.cmp v w

/-- Derived `cmp` of structs: field by field. -/
def Fields.cmp : (fs : Fields) → fs.Val → fs.Val → Ordering
  | .nil, _, _ => .eq
  | .cons _ t rest, v, w => match t.cmp v.1 w.1 with
    | .eq => rest.cmp v.2 w.2
    | o => o

/-- Derived `cmp` of enums: the position of the variant, then the payload. -/
def Variants.cmp : (vs : Variants) → vs.Val → vs.Val → Ordering
  | .nil, _, _ => .eq
  | .unit _, .inl _, .inl _ => .eq
  | .unit rest, .inr v, .inr w => rest.cmp v w
  | .data t _, .inl v, .inl w => t.cmp v w
  | .data _ rest, .inr v, .inr w => rest.cmp v w
  | .unit _, .inl _, .inr _ => .lt
  | .unit _, .inr _, .inl _ => .gt
  | .data _ _, .inl _, .inr _ => .lt
  | .data _ _, .inr _, .inl _ => .gt

end

end Ssz
