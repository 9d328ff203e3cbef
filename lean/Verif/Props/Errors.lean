import Verif.Proofs.Errors
import Verif.Proofs.Builds
import Verif.Props.Encoding

/-!
# Properties C60 to C62: what the errors say

`Truthful b e` says that the statement the error `e` makes about the input `b` is true.
-/

namespace Ssz

open Spec

/-! ## C60 -/

/-- C60 for decoding with overflow checks, and without them for the types whose structs have at most
one variable-size field: what an error says about the input is true. -/
theorem C60_decode_partial (E : Env) (t : Ty) (b : Bytes) (e : DeError) (hl : Legal t) (hf : Fits t)
    (hb : b.length < 2 ^ 63) (hE : E.debug = true ∨ OneVarField t)
    (h : deserialize (t.impl E).toSerializable b = .err e) : Truthful b e :=
  de_errs E t b hl hf hb hE e h

/-- The only untruthful errors of the build without overflow checks are those that replace a panic of
the build with them. -/
theorem C60_decode_release_partial (H : Bytes → Node) (t : Ty) (b : Bytes) (e : DeError)
    (hl : Legal t) (hf : Fits t) (hb : b.length < 2 ^ 63)
    (hp : deserialize (t.impl ⟨true, H⟩).toSerializable b ≠ .panic)
    (h : deserialize (t.impl ⟨false, H⟩).toSerializable b = .err e) : Truthful b e :=
  de_errs ⟨true, H⟩ t b hl hf hb (.inl rfl) e ((((refines H t).deserialize b).eq hp).symm.trans h)

/-- C60 is false without overflow checks: for eight bytes whose second offset is 100, the error says
that `2^64 - 92` bytes are provided where 92 are expected. -/
theorem C60_decode_refuted : ∃ (t : Ty) (b : Bytes), Legal t ∧ Fits t ∧ b.length = 8 ∧
    ∀ E, E.debug = false → deserialize (t.impl E).toSerializable b =
      .err (.expectedFurtherInput (2 ^ 64 - 92) 92) ∧
      ¬ Truthful b (.expectedFurtherInput (2 ^ 64 - 92) 92) := by
  refine ⟨twoLists, [8, 0, 0, 0, 100, 0, 0, 0], ⟨by decide, by decide, trivial, trivial, trivial⟩,
    ⟨⟨trivial, trivial, trivial⟩, by decide⟩, rfl, fun E hE => ⟨?_, fun h => ?_⟩⟩
  · show ((twoLists.impl E).deserialize _) = _
    have hT : ∀ r, ({} : ContainerDeserializer).parse E
        (Serializable.list E (Serializable.uint .u8) 4) (8 :: 0 :: 0 :: 0 :: r) =
        .ok ⟨[.offset], [8], 4⟩ := by
      intro r
      have h0 : deserializeU32 [8#8, 0#8, 0#8, 0#8] = .ok 8 := rfl
      simp [ContainerDeserializer.parse, Serializable.list, Env.sub, getRange, h0, checkOffset]
    have hT2 : (⟨[.offset], [8], 4⟩ : ContainerDeserializer).parse E
        (Serializable.list E (Serializable.uint .u8) 4) [8, 0, 0, 0, 100, 0, 0, 0] =
        .err (.expectedFurtherInput (2 ^ 64 - 92) 92) := by
      have h0 : deserializeU32 [100#8, 0#8, 0#8, 0#8] = .ok 100 := rfl
      simp [ContainerDeserializer.parse, Serializable.list, Env.sub, getRange, h0, checkOffset, hE,
        usizeMod]
    show (((({} : ContainerDeserializer).parse E (Serializable.list E (Serializable.uint .u8) 4)
      [8, 0, 0, 0, 100, 0, 0, 0]) >>= fun d => d.parse E
        (Serializable.list E (Serializable.uint .u8) 4) [8, 0, 0, 0, 100, 0, 0, 0] >>= fun d => .ok d)
      >>= fun d => _) = _
    rw [hT]
    simp only [Res.ok_bind, hT2, Res.err_bind]
    rfl
  · have h : 2 ^ 64 - 92 ≤ 8 ∧ _ := h
    omega

/-- One byte for a `u16`: the error says so. -/
example (E : Env) : deserialize ((Ty.uint .u16).impl E).toSerializable [7] =
    .err (.expectedFurtherInput 1 2) ∧ Legal (.uint .u16) ∧ Fits (.uint .u16) ∧
    OneVarField (.uint .u16) := ⟨rfl, trivial, trivial, trivial⟩

/-- `true` is the byte 1, and `2` is not a `bool`. -/
example (E : Env) : deserialize (Ty.bool.impl E).toSerializable [2] = .err (.invalidByte 2) ∧
    Truthful [2] (.invalidByte 2) := ⟨rfl, C60_decode_partial E .bool [2] _ trivial trivial
      (by decide) (.inr trivial) rfl⟩

/-! ## C61 -/

/-- C61. What a serialization error says is true, and it never blames the type. -/
theorem C61_serialize (E : Env) (t : Ty) (v : t.Val) (e : SerError) (hl : Legal t)
    (h : serialize (t.impl E).toSerializable v = .err e) : TruthfulSer e := by
  unfold serialize at h
  split at h
  · cases h
  · rename_i h'
    injection h with h
    subst h
    exact ser_errs E t v hl [] _ (by rw [h'])
  · cases h

example (E : Env) : Legal (.list (.uint .u8) 1) ∧
    serialize ((Ty.list (.uint .u8) 1).impl E).toSerializable ([5, 6] : List (BitVec 8)) =
      .err (.invalidInstance (.bounded 1 2)) := ⟨trivial, rfl⟩

/-! ## C62 -/

/-- C62. An error of `generalized_index` names an element of the path, or a nonempty end of it. -/
theorem C62_path_error (E : Env) (t : Ty) (path : List PathElement) (e : MerkError)
    (h : generalizedIndex (t.impl E) path = .err e) : TruthfulPath path e :=
  gi_errs E t 1 path e h

/-- There is no `x` in a struct with the fields `a` and `b`. -/
example (E : Env) : generalizedIndex (twoLists.impl E) [.field "x", .length] =
    .err (.invalidPathElement (.field "x")) := by
  show (FieldImpls.generalizedIndexByField E 2 1 [.length] "x" (.cons "a" _ (.cons "b" _ .nil)) 0) = _
  simp [FieldImpls.generalizedIndexByField]

/-- Nothing lies below an unsigned integer. -/
example (E : Env) : generalizedIndex ((Ty.uint .u8).impl E) [.index 1] =
    .err (.invalidPath [.index 1]) := rfl

end Ssz
