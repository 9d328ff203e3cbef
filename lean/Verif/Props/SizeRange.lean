import Verif.Proofs.SizeRange
import Verif.Props.Encoding
import Verif.Props.Size

/-!
# Property C71: the sizes of the encodings of a type

`minSize` and `maxSize` are computed from the type alone. They are what a reader of a stream would
use to size its buffers and to reject messages that are too short or too long.
-/

namespace Ssz

open Spec

/-- C71: what `serialize` writes for a value of the type has a length between the two bounds. -/
theorem C71_written (E : Env) (t : Ty) (v : t.Val) (b : Bytes) (hl : Legal t) (hf : Fits t)
    (hv : Valid t v) (h : serialize (t.impl E).toSerializable v = .ok b) :
    minSize t ≤ b.length ∧ b.length ≤ maxSize t := by
  rw [(serialize_ok_enc E t v hl hf hv h).1]
  exact enc_range t v hv

/-- C71: if the greatest length is below 4 GiB, every value of the type can be written. -/
theorem C71_all_written (E : Env) (t : Ty) (v : t.Val) (hl : Legal t) (hf : Fits t)
    (hv : Valid t v) (hm : maxSize t < 2 ^ 32) :
    ∃ b, serialize (t.impl E).toSerializable v = .ok b ∧ minSize t ≤ b.length ∧
      b.length ≤ maxSize t := by
  have hr := enc_range t v hv
  exact ⟨enc t v, serialize_enc E t v hl hf hv (small_of_length t v (Nat.lt_of_le_of_lt hr.2 hm)), hr⟩

/-- C71: the lower bound is attained: some value is written with exactly `minSize` bytes, and
these are read again. -/
theorem C71_least (E : Env) (t : Ty) (hl : Legal t) (hf : Fits t) (hm : minSize t < 2 ^ 32) :
    ∃ v b w, Valid t v ∧ serialize (t.impl E).toSerializable v = .ok b ∧ b.length = minSize t ∧
      deserialize (t.impl E).toSerializable b = .ok w ∧ norm t w = norm t v := by
  obtain ⟨v, hv, he⟩ := min_attained t hl
  have hs := small_of_length t v (by rw [he]; exact hm)
  exact ⟨v, enc t v, norm t v, hv, serialize_enc E t v hl hf hv hs, he, de_enc E t v hl hf hv hs,
    norm_norm t v⟩

/-- C71: the upper bound is attained: some value is written with exactly `maxSize` bytes, and
these are read again. -/
theorem C71_greatest (E : Env) (t : Ty) (hl : Legal t) (hf : Fits t) (hm : maxSize t < 2 ^ 32) :
    ∃ v b w, Valid t v ∧ serialize (t.impl E).toSerializable v = .ok b ∧ b.length = maxSize t ∧
      deserialize (t.impl E).toSerializable b = .ok w ∧ norm t w = norm t v := by
  obtain ⟨v, hv, he⟩ := max_attained t hl
  have hs := small_of_length t v (by rw [he]; exact hm)
  exact ⟨v, enc t v, norm t v, hv, serialize_enc E t v hl hf hv hs, he, de_enc E t v hl hf hv hs,
    norm_norm t v⟩

/-- C71: if the greatest length is not below 4 GiB, some value of a struct
cannot be written. -/
theorem C71_unwritten (E : Env) (fs : Fields) (hl : Legal (.container fs))
    (hf : Fits (.container fs)) (hm : 2 ^ 32 ≤ maxSize (.container fs)) :
    ∃ v : fs.Val, Valid (.container fs) v ∧
      ∀ b, serialize ((Ty.container fs).impl E).toSerializable v ≠ .ok b := by
  obtain ⟨v, hv, he⟩ := max_attained (.container fs) hl
  refine ⟨v, hv, fun b h => ?_⟩
  have hs : Small (.container fs) v := (serialize_ok_enc E (.container fs) v hl hf hv h).2
  have : (enc (.container fs) v).length < 2 ^ 32 := hs.1
  omega

/-- C71: no input shorter than the lower bound is accepted. -/
theorem C71_short (E : Env) (t : Ty) (b : Bytes) (v : t.Val) (hl : Legal t) (hf : Fits t)
    (hb : b.length < 2 ^ 63) (h : deserialize (t.impl E).toSerializable b = .ok v) :
    minSize t ≤ b.length := by
  obtain ⟨hv, _, _⟩ := de_sound E t b v hl hf (by omega) h
  exact Nat.le_trans (enc_range t v hv).1
    (accepts_enc_length t b v ((de_iff E t b v hl hf hb).1 h))

/-- C71 for types without lists of variable-size elements: no input longer than the upper bound is
accepted. -/
theorem C71_long_partial (E : Env) (t : Ty) (b : Bytes) (v : t.Val) (hl : Legal t) (hf : Fits t)
    (ht : NoVarList t) (hb : b.length < 2 ^ 63)
    (h : deserialize (t.impl E).toSerializable b = .ok v) : b.length ≤ maxSize t := by
  obtain ⟨hv, _, he⟩ := de_sound E t b v hl hf hb h
  rw [← he (noEmptyVarList_of_noVarList t v ht)]
  exact (enc_range t v hv).2

/-- C71: with lists of variable-size elements this fails. An encoding of a `List<List<u8, 9>, n>`
has at most `13 * n` bytes; inputs of any length from four bytes on are accepted. -/
theorem C71_long_refuted (E : Env) (n : Nat) (rest : Bytes) (hr : rest.length < 2 ^ 62) :
    maxSize (.list (.list (.uint .u8) 9) n) = n * 13 ∧
    deserialize ((Ty.list (.list (.uint .u8) 9) n).impl E).toSerializable (0 :: 0 :: 0 :: 0 :: rest) =
      .ok ([] : List (List (BitVec 8))) := by
  refine ⟨by simp [maxSize, slot, isVar, UintTy.bits], ?_⟩
  exact (de_iff E (.list (.list (.uint .u8) 9) n) _ ([] : List (List (BitVec 8))) trivial trivial
    (by simp only [List.length_cons]; omega)).2 ⟨Nat.zero_le _, .inr ⟨rfl, rfl, rest, rfl⟩⟩

/-- A struct with a `u64`, a `List<u16, 100>` and a union of nothing, a `u32` and a `Bitlist<20>`:
between 17 and 221 bytes. -/
example : Legal (.container (.cons "a" (.uint .u64) (.cons "b" (.list (.uint .u16) 100)
      (.cons "c" (.union (.unit (.data (.uint .u32) (.data (.bitlist 20) .nil)))) .nil)))) ∧
    Fits (.container (.cons "a" (.uint .u64) (.cons "b" (.list (.uint .u16) 100)
      (.cons "c" (.union (.unit (.data (.uint .u32) (.data (.bitlist 20) .nil)))) .nil)))) ∧
    NoVarList (.container (.cons "a" (.uint .u64) (.cons "b" (.list (.uint .u16) 100)
      (.cons "c" (.union (.unit (.data (.uint .u32) (.data (.bitlist 20) .nil)))) .nil)))) ∧
    minSize (.container (.cons "a" (.uint .u64) (.cons "b" (.list (.uint .u16) 100)
      (.cons "c" (.union (.unit (.data (.uint .u32) (.data (.bitlist 20) .nil)))) .nil)))) = 17 ∧
    maxSize (.container (.cons "a" (.uint .u64) (.cons "b" (.list (.uint .u16) 100)
      (.cons "c" (.union (.unit (.data (.uint .u32) (.data (.bitlist 20) .nil)))) .nil)))) = 221 := by
  refine ⟨?_, ?_, ?_, by decide, by decide⟩
  · simp [Legal, LegalF, LegalV, unionShape, namesF, noUnitV, countV]
  · simp [Fits, FitsF, FitsV, fixedLenF, fixedLen, isVar, UintTy.bits]
  · simp [NoVarList, NoVarListF, NoVarListV, isVar]

/-- A struct whose encodings reach 4 GiB. -/
example : 2 ^ 32 ≤ maxSize (.container (.cons "a" (.list (.uint .u64) (2 ^ 40)) .nil)) := by
  decide

end Ssz
