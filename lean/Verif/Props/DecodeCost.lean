import Verif.Proofs.DecodeCost
import Verif.Props.Cost

/-!
# C77: decoding takes steps linear in the input

`Verif.Model.DecodeCost` has the functions of decoding with a counter of calls of `deserialize` and of
loop iterations.
-/

namespace Ssz

open Spec

/-- C77: the functions with counters return what those without return, for every input. -/
theorem C77_same (E : Env) (t : Ty) (b : Bytes) : (t.deC E b).2 = (t.impl E).deserialize b :=
  deC_res E t b

/-- C77: `deserialize` of any input, also of one that it rejects or panics on, for any type, also one
outside the supported range: fewer than four steps for each input byte and each type in the type. No
offset in the input can make it take more. -/
theorem C77_linear (E : Env) (t : Ty) (b : Bytes) :
    (t.deC E b).1 < 4 * (typeSize t * max 1 b.length) := by
  have h1 : (t.deC E b).1 ≤ _ := deC_takes E t b
  have h2 : 1 ≤ typeSize t * max 1 b.length := Nat.mul_pos (typeSize_pos t) (by omega)
  omega

/-- C77: decoding and then hashing: the number of steps is linear in the length of the input, whatever
the bounds in the type. -/
theorem C77_hashed (E : Env) (t : Ty) (b : Bytes) (v : t.Val) (hl : Legal t) (hf : Fits t)
    (hb : Bounded t) (hlen : b.length < 2 ^ 63)
    (h : deserialize (t.impl E).toSerializable b = .ok v) :
    (t.deC E b).1 + (t.rootC E v).1.steps + (t.rootC E v).1.hashes <
      263 * (typeSize t * max 1 b.length) := by
  have h1 := C77_linear E t b
  obtain ⟨h2, h3⟩ := C76_decoded E t b v hl hf hb hlen h
  omega

/-- C77: the elements of a list of variable-size elements share the bytes: with `k` offsets, which is what
the first offset says, the elements have the bytes behind the offsets, and no two of them read the same
one. So if an element costs `c` for each byte and `d` besides, the list costs `c` for each byte that is
not of an offset and `d + 2` for each offset. -/
theorem C77_elements {α : Type} (f : Bytes → Timed α) (c d : Nat)
    (h : ∀ b, (f b).1 ≤ c * b.length + d) (b : Bytes) :
    ∃ k, 4 * k ≤ b.length ∧
      (deserializeVariableHomogeneousCompositeC f b).1 ≤ c * (b.length - 4 * k) + (d + 2) * k :=
  variableC_share h b

/-- A first offset of 8, then one of 2^32 - 1. -/
def farOffset : Bytes := [8, 0, 0, 0, 0xff, 0xff, 0xff, 0xff]

/-- Two empty lists. -/
def twoEmpty : Bytes := [8, 0, 0, 0, 8, 0, 0, 0]

example (E : Env) : (hugeTy.deC E farOffset).1 < 96 := C77_linear E hugeTy farOffset

/-- The counts: a list, two offsets, two elements, each a list; with the far offset, the code panics
at the first element. -/
example : (hugeTy.deC ⟨true, fun _ => zeroNode⟩ twoEmpty).1 = 7 ∧
    (match (hugeTy.deC ⟨true, fun _ => zeroNode⟩ twoEmpty).2 with
      | .ok v => (show List (List (BitVec 64)) from v) == [[], []]
      | _ => false) = true ∧
    (hugeTy.deC ⟨true, fun _ => zeroNode⟩ farOffset).1 = 4 :=
  ⟨by decide +kernel, by decide +kernel, by decide +kernel⟩

end Ssz
