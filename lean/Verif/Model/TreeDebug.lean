import Verif.Model.Serde
import Verif.Model.Merkleize

/-!
# `Debug` for `Tree` (feature `serde`)

Only the nodes that are handed to the formatter are modelled, not the text made of them.
-/

namespace Ssz

/-- `slice::chunks(n)` for `n > 0`: pieces of `n` bytes, the last one may be shorter. -/
def byteChunks (n : Nat) (b : Bytes) : List Bytes :=
  if _h : b = [] ∨ n = 0 then [] else b.take n :: byteChunks n (b.drop n)
termination_by b.length
decreasing_by
  have : 0 < b.length := List.length_pos_iff.mpr fun h => _h (.inl h)
  have : n ≠ 0 := fun h => _h (.inr h)
  simp only [List.length_drop]; omega

/-- `Node::from_hex(text)` for text given as bytes (`alloy_primitives::hex::FromHex` for
`FixedBytes<32>`): 64 hexadecimal digits, with or without the prefix. -/
def Node.fromHex (text : Bytes) : Option Node :=
  match Serde.hexPairs (Serde.stripPrefix (text.map fun b => Char.ofNat b.toNat)) with
  | some bytes => if h : bytes.length = 32 then some ⟨bytes, h⟩ else none
  | none => none

/-- `Option::unwrap` on each item of an iterator, in order. -/
def unwrapAll {α : Type} : List (Option α) → Calc (List α)
  | [] => .ok []
  | some a :: rest => do
    let tail ← unwrapAll rest
    .ok (a :: tail)
  | none :: _ => .panic

/-- `Tree::nodes`, collected: /repo/ssz-rs/src/merkleization/merkleize.rs:255-258 -/
def Tree.nodes (tree : Tree) : Calc (List Node) :=
  unwrapAll ((byteChunks 32 tree).map Node.fromHex)

/-- The entries that `Debug` for `Tree` prints:
/repo/ssz-rs/src/merkleization/merkleize.rs:279-284 -/
def Tree.debugEntries (tree : Tree) : Calc (List Node) := Tree.nodes tree

end Ssz
