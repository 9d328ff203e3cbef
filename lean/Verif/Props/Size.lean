import Verif.Proofs.Size

/-!
# Property C53: decoding does not amplify
-/

namespace Ssz

open Spec

/-- C53: a decoded value holds no more bytes of data than the input had, where each element of a
collection counts for at least one. -/
theorem C53_data (E : Env) (t : Ty) (b : Bytes) (v : t.Val) (hl : Legal t) (hf : Fits t)
    (hb : b.length < 2 ^ 63) (h : deserialize (t.impl E).toSerializable b = .ok v) :
    dataBytes t v ≤ b.length := by
  obtain ⟨h1, h2, _⟩ := de_sound E t b v hl hf (by omega) h
  exact Nat.le_trans (dataBytes_le t v hl h1 h2)
    (accepts_enc_length t b v ((de_iff E t b v hl hf hb).1 h))

/-- C53, in particular for lists: there are no more elements than input bytes, whatever the bound. -/
theorem C53_elements (E : Env) (t : Ty) (n : Nat) (b : Bytes) (v : List t.Val) (hl : Legal t)
    (hf : Fits t) (hb : b.length < 2 ^ 63)
    (h : deserialize ((Ty.list t n).impl E).toSerializable b = .ok v) : v.length ≤ b.length := by
  refine Nat.le_trans ?_ (C53_data E (.list t n) b v hl hf hb h)
  show v.length ≤ (v.map fun x => max 1 (dataBytes t x)).sum
  clear h
  induction v with
  | nil => exact Nat.zero_le _
  | cons x v ih =>
    rw [List.map_cons, List.sum_cons, List.length_cons]
    omega

/-- C53: encoding a decoded value again gives at most as many bytes as were decoded. -/
theorem C53_again (E : Env) (t : Ty) (b : Bytes) (v : t.Val) (hl : Legal t) (hf : Fits t)
    (hb : b.length < 2 ^ 32) (h : deserialize (t.impl E).toSerializable b = .ok v) :
    ∃ b', serialize (t.impl E).toSerializable v = .ok b' ∧ b'.length ≤ b.length := by
  obtain ⟨h1, _, _⟩ := de_sound E t b v hl hf (by omega) h
  have h2 := accepts_enc_length t b v ((de_iff E t b v hl hf (by omega)).1 h)
  exact ⟨enc t v, serialize_enc E t v hl hf h1 (small_of_length t v (Nat.lt_of_le_of_lt h2 hb)), h2⟩

/-- C53 for longer inputs, where encoding again may fail (C02): nothing longer is written. -/
theorem C53_again_long (E : Env) (t : Ty) (b b' : Bytes) (v : t.Val) (hl : Legal t) (hf : Fits t)
    (hb : b.length < 2 ^ 63) (h : deserialize (t.impl E).toSerializable b = .ok v)
    (h' : serialize (t.impl E).toSerializable v = .ok b') : b'.length ≤ b.length := by
  obtain ⟨h1, _, _⟩ := de_sound E t b v hl hf hb h
  rw [(serialize_ok_enc E t v hl hf h1 h').1]
  exact accepts_enc_length t b v ((de_iff E t b v hl hf hb).1 h)

/-- A `List<List<u8, 9>, 9>` with two empty elements: eight bytes of input, two bytes counted. A list
read from a zero offset: five bytes of input, none written again. -/
example (E : Env) :
    deserialize ((Ty.list (.list (.uint .u8) 9) 9).impl E).toSerializable [8, 0, 0, 0, 8, 0, 0, 0] =
      .ok ([[], []] : List (List (BitVec 8))) ∧
    dataBytes (.list (.list (.uint .u8) 9) 9) ([[], []] : List (List (BitVec 8))) = 2 ∧
    deserialize ((Ty.list (.list (.uint .u8) 9) 9).impl E).toSerializable [0, 0, 0, 0, 7] =
      .ok ([] : List (List (BitVec 8))) ∧
    serialize ((Ty.list (.list (.uint .u8) 9) 9).impl E).toSerializable
      ([] : List (List (BitVec 8))) = .ok [] := by
  refine ⟨?_, by decide, ?_, ?_⟩
  · exact (de_iff E (.list (.list (.uint .u8) 9) 9) _ ([[], []] : List (List (BitVec 8))) trivial
      trivial (by decide)).2 ⟨by decide, .inl ⟨[[], []],
        .cons ⟨by decide, .inl ⟨[], .nil, fun _ h => (nomatch h), rfl⟩⟩ (.cons ⟨by decide, .inl ⟨[], .nil, fun _ h => (nomatch h), rfl⟩⟩ .nil),
        addressed_of_length (by decide), by decide⟩⟩
  · exact (de_iff E (.list (.list (.uint .u8) 9) 9) _ ([] : List (List (BitVec 8))) trivial
      trivial (by decide)).2 ⟨by decide, .inr ⟨rfl, rfl, _, rfl⟩⟩
  · exact serialize_enc E (.list (.list (.uint .u8) 9) 9) ([] : List (List (BitVec 8))) trivial trivial
      ⟨by decide, fun _ h => nomatch h⟩ ⟨by decide, fun _ h => nomatch h⟩

end Ssz
