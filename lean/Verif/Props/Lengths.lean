import Verif.Proofs.Lengths
import Verif.Props.Encoding

/-!
# Property C94: inputs of the wrong length

`wrongLength t len` is the error for an input of `len` bytes for a type of fixed size: the input is
longer, or the first field that is not there as a whole is named.
-/

namespace Ssz

open Spec

/-- C94: an input longer than the type is rejected, with both lengths. -/
theorem C94_long (E : Env) (t : Ty) (b : Bytes) (hv : isVar t = false) (hl : Legal t) (hf : Fits t)
    (hb : b.length < 2 ^ 63) (h : fixedLen t < b.length) :
    deserialize (t.impl E).toSerializable b = .err (.additionalInput b.length (fixedLen t)) := by
  refine (de_wrong E t b hv hl hf hb (by omega)).trans ?_
  rw [wrongLength, if_pos h]

/-- C94: an input shorter than the type is rejected, with the lengths for the whole or, in structs, for
the first field that is not there as a whole. -/
theorem C94_short (E : Env) (t : Ty) (b : Bytes) (hv : isVar t = false) (hl : Legal t) (hf : Fits t)
    (hb : b.length < 2 ^ 63) (h : b.length < fixedLen t) :
    deserialize (t.impl E).toSerializable b = .err (tooShort t b.length) := by
  refine (de_wrong E t b hv hl hf hb (by omega)).trans ?_
  rw [wrongLength, if_neg (by omega)]

/-- C94: an input of the right length is decoded, or rejected for one of its bytes. -/
theorem C94_right (E : Env) (t : Ty) (b : Bytes) (hv : isVar t = false) (hl : Legal t) (hf : Fits t)
    (hb : b.length < 2 ^ 63) (h : b.length = fixedLen t) :
    (∃ v, deserialize (t.impl E).toSerializable b = .ok v) ∨
      ∃ x ∈ b, deserialize (t.impl E).toSerializable b = .err (.invalidByte x) := by
  have := de_clean E t b hv hl hf hb h
  unfold deserialize
  cases hr : (t.impl E).deserialize b with
  | ok v => exact .inl ⟨v, rfl⟩
  | err e =>
    rw [hr] at this
    obtain ⟨x, hx, rfl⟩ := this
    exact .inr ⟨x, hx, rfl⟩
  | panic => rw [hr] at this; exact this.elim

/-- C94: an input is said to be too long exactly if it is, and too short exactly if it is. -/
theorem C94_exactly (E : Env) (t : Ty) (b : Bytes) (hv : isVar t = false) (hl : Legal t) (hf : Fits t)
    (hb : b.length < 2 ^ 63) :
    ((∃ p q, deserialize (t.impl E).toSerializable b = .err (.additionalInput p q)) ↔
      fixedLen t < b.length) ∧
    ((∃ p q, deserialize (t.impl E).toSerializable b = .err (.expectedFurtherInput p q)) ↔
      b.length < fixedLen t) := by
  obtain ⟨p', q', hs⟩ := tooShort_form t b.length
  rcases Nat.lt_trichotomy b.length (fixedLen t) with h1 | h1 | h1
  · rw [C94_short E t b hv hl hf hb h1, hs]
    exact ⟨⟨fun ⟨_, _, h⟩ => (by cases h), fun h => by omega⟩, ⟨fun _ => h1, fun _ => ⟨_, _, rfl⟩⟩⟩
  · rcases C94_right E t b hv hl hf hb h1 with ⟨v, h2⟩ | ⟨x, -, h2⟩ <;> rw [h2]
    · exact ⟨⟨fun ⟨_, _, h⟩ => (by cases h), fun h => by omega⟩,
        ⟨fun ⟨_, _, h⟩ => (by cases h), fun h => by omega⟩⟩
    · exact ⟨⟨fun ⟨_, _, h⟩ => (by cases h), fun h => by omega⟩,
        ⟨fun ⟨_, _, h⟩ => (by cases h), fun h => by omega⟩⟩
  · rw [C94_long E t b hv hl hf hb h1]
    exact ⟨⟨fun _ => h1, fun _ => ⟨_, _, rfl⟩⟩, ⟨fun ⟨_, _, h⟩ => (by cases h), fun h => by omega⟩⟩

/-- C94 for lists of elements of fixed size: an input that is no whole number of elements is rejected,
with its length and that of the whole elements in it. -/
theorem C94_list (E : Env) (t : Ty) (n : Nat) (b : Bytes) (hv : isVar t = false) (hl : Legal t)
    (hf : Fits t) (hb : b.length < 2 ^ 63) (h : b.length % fixedLen t ≠ 0) :
    deserialize ((Ty.list t n).impl E).toSerializable b =
      .err (.additionalInput b.length (b.length - b.length % fixedLen t)) :=
  (list_lengths E t n b hv hl hf hb).1 h

/-- C94 for lists of elements of fixed size: whole elements are rejected for one of their bytes, or
decoded if they are not too many, or rejected with the bound and their number. -/
theorem C94_list_whole (E : Env) (t : Ty) (n : Nat) (b : Bytes) (hv : isVar t = false) (hl : Legal t)
    (hf : Fits t) (hb : b.length < 2 ^ 63) (h : b.length % fixedLen t = 0) :
    (∃ x ∈ b, deserialize ((Ty.list t n).impl E).toSerializable b = .err (.invalidByte x)) ∨
      (b.length ≤ n * fixedLen t ∧ ∃ v, deserialize ((Ty.list t n).impl E).toSerializable b = .ok v) ∨
      (n * fixedLen t < b.length ∧ deserialize ((Ty.list t n).impl E).toSerializable b =
        .err (.invalidInstance (.bounded n (b.length / fixedLen t)))) :=
  (list_lengths E t n b hv hl hf hb).2 h

/-- A struct of a `u16` and a `u32`. -/
def smallStruct : Ty := .container (.cons "a" (.uint .u16) (.cons "b" (.uint .u32) .nil))

/-- Of five bytes, three are left for the second field, which has four. -/
example (E : Env) : deserialize (smallStruct.impl E).toSerializable [1, 2, 3, 4, 5] =
    .err (.expectedFurtherInput 3 4) :=
  C94_short E smallStruct _ rfl ⟨by decide, by decide, trivial, trivial, trivial⟩
    ⟨⟨trivial, trivial, trivial⟩, by decide⟩ (by decide) (by decide)

/-- Seven bytes are one too many. -/
example (E : Env) : deserialize (smallStruct.impl E).toSerializable [1, 2, 3, 4, 5, 6, 7] =
    .err (.additionalInput 7 6) :=
  C94_long E smallStruct _ rfl ⟨by decide, by decide, trivial, trivial, trivial⟩
    ⟨⟨trivial, trivial, trivial⟩, by decide⟩ (by decide) (by decide)

/-- Five bytes are two elements of two bytes, and one byte. -/
example (E : Env) : deserialize ((Ty.list (.uint .u16) 1).impl E).toSerializable [1, 2, 3, 4, 5] =
    .err (.additionalInput 5 4) :=
  C94_list E (.uint .u16) 1 _ rfl trivial trivial (by decide) (by decide)

/-- Two bytes for two `bool`s are of the right length. -/
example (E : Env) : (∃ v, deserialize ((Ty.vector .bool 2).impl E).toSerializable [1, 7] = .ok v) ∨
    ∃ x ∈ ([1, 7] : Bytes), deserialize ((Ty.vector .bool 2).impl E).toSerializable [1, 7] =
      .err (.invalidByte x) :=
  C94_right E (.vector .bool 2) _ rfl ⟨by decide, trivial⟩ ⟨trivial, by decide⟩ (by decide) rfl

/-- Four bytes are two elements of two bytes, of which there is room for one. -/
example (E : Env) (v : List (BitVec 16)) :
    deserialize ((Ty.list (.uint .u16) 1).impl E).toSerializable [1, 2, 3, 4] ≠ .ok v := by
  rcases C94_list_whole E (.uint .u16) 1 [1, 2, 3, 4] rfl trivial trivial (by decide) (by decide) with
    ⟨x, -, h⟩ | ⟨h, -⟩ | ⟨-, h⟩
  · exact fun h' => nomatch h.symm.trans h'
  · exact absurd h (by decide)
  · exact fun h' => nomatch h.symm.trans h'

/-- Three bits take one byte, and no byte is too short. -/
example (E : Env) :
    ∃ p q, deserialize ((Ty.bitvector 3).impl E).toSerializable [] = .err (.expectedFurtherInput p q) :=
  (C94_exactly E (.bitvector 3) [] rfl (by decide : 0 < 3) (by decide : 3 < 2 ^ 64)
    (by decide)).2.mpr (by decide)

end Ssz
