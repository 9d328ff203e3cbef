import Verif.Model.Bits

/-!
# `Debug` for `Bitlist` and `Bitvector`

Text is a list of characters. `write!` to the formatter is taken to succeed.
-/

namespace Ssz

/-- `write!(f, "{value}")` for `value = i32::from(bit)`. -/
def debugBit (bit : Bool) : List Char := if bit then ['1'] else ['0']

/-- The loop over the bits, with `index` (of `enumerate`) and `bits_written` as they are before the
iteration: /repo/ssz-rs/src/bitlist.rs:35-43, /repo/ssz-rs/src/bitvector.rs:44-52 -/
def debugLoop (len : Nat) (index written : Nat) (f : List Char) : List Bool → List Char
  | [] => f
  | bit :: rest =>
    let f := f ++ debugBit bit
    let written := written + 1
    let f := if written % 4 = 0 ∧ index ≠ len - 1 then f ++ ['_'] else f
    debugLoop len (index + 1) written f rest

/-- `Debug` for `Bitlist`: /repo/ssz-rs/src/bitlist.rs:30-47 -/
def Bitlist.debug (n : Nat) (b : Bits) : List Char :=
  let f := "Bitlist<len=".toList ++ (toString b.live.length).toList ++ ", cap=".toList ++
    (toString n).toList ++ ">[".toList
  debugLoop b.live.length 0 0 f b.live ++ [']']

/-- `Debug` for `Bitvector`: /repo/ssz-rs/src/bitvector.rs:39-56 -/
def Bitvector.debug (n : Nat) (b : Bits) : List Char :=
  let f := "Bitvector<".toList ++ (toString n).toList ++ ">[".toList
  debugLoop b.live.length 0 0 f b.live ++ [']']

end Ssz
