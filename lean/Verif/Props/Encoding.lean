import Verif.Proofs.Facts
import Verif.Props.Demo

/-!
# Properties C01 to C14: serialization and decoding

`E` ranges over both build modes and all hash functions. `Legal t` says that `t` is a type SSZ
allows, `Fits t` that its sizes are below `2^63` bytes. `Valid t v` says that `v` respects the bounds of
`t` at every depth. `norm t v = norm t w` is Rust's `v == w`.
-/

namespace Ssz

open Spec

/-! ## C01 -/

/-- C01. In-bounds values below `2^32` bytes round trip to an equal value. -/
theorem C01_round_trip (E : Env) (t : Ty) (v : t.Val) (hl : Legal t) (hf : Fits t)
    (hv : Valid t v) (hs : (enc t v).length < 2 ^ 32) :
    ∃ b w, serialize (t.impl E).toSerializable v = .ok b ∧
      deserialize (t.impl E).toSerializable b = .ok w ∧ norm t w = norm t v := by
  have hsm := small_of_length t v hs
  exact ⟨enc t v, norm t v, serialize_enc E t v hl hf hv hsm, de_enc E t v hl hf hv hsm,
    norm_norm t v⟩

/-- C01, whatever the size: what is written for an in-bounds value is read as an equal value. (A
`Bitlist`, or an enum with one as payload, is written even if it takes `2^32` bytes or more.) -/
theorem C01_written (E : Env) (t : Ty) (v : t.Val) (b : Bytes) (hl : Legal t) (hf : Fits t)
    (hv : Valid t v) (h : serialize (t.impl E).toSerializable v = .ok b) :
    ∃ w, deserialize (t.impl E).toSerializable b = .ok w ∧ norm t w = norm t v := by
  obtain ⟨rfl, hs⟩ := serialize_ok_enc E t v hl hf hv h
  exact ⟨norm t v, de_enc E t v hl hf hv hs, norm_norm t v⟩

example : Legal Demo.ty ∧ Fits Demo.ty ∧ Valid Demo.ty Demo.val ∧
    (enc Demo.ty Demo.val).length < 2 ^ 32 :=
  ⟨Demo.ty_legal, Demo.ty_fits, Demo.val_valid, Demo.val_length⟩

/-! ## C02 -/

/-- `List<List<u8, 4>, 4>` -/
def listOfLists : Ty := .list (.list (.uint .u8) 4) 4

/-- C02 is false: a list of variable-size elements accepts a first offset of zero, whatever follows,
and returns the empty list, whose encoding is the empty string. -/
theorem C02_canonical_refuted : ∃ (t : Ty) (b : Bytes) (v : t.Val), Legal t ∧ Fits t ∧
    b.length < 2 ^ 32 ∧ ∀ E, deserialize (t.impl E).toSerializable b = .ok v ∧
      serialize (t.impl E).toSerializable v ≠ .ok b := by
  refine ⟨listOfLists, [0, 0, 0, 0, 1, 2, 3], ([] : List (List (BitVec 8))), trivial, trivial,
    by decide, fun E => ⟨?_, ?_⟩⟩
  · show (Serializable.list E (Serializable.list E (Serializable.uint .u8) 4) 4).deserialize _ = _
    have h : deserializeHomogeneousComposite E (Serializable.list E (Serializable.uint .u8) 4)
        [0, 0, 0, 0, 1, 2, 3] = .ok [] := by
      rw [deserializeHomogeneousComposite, if_pos (by rfl)]
      have h0 : deserializeU32 [0#8, 0#8, 0#8, 0#8] = .ok 0 := rfl
      have hc : chunksExact 4 ([] : Bytes) = [] := by decide +kernel
      simp [deserializeVariableHomogeneousComposite, getRange, h0, slice, hc,
        Res.mapList, deserializeSpans]
    exact list_deserialize_ok rfl h (by decide)
  · intro h
    have h' := serialize_enc E listOfLists ([] : List (List (BitVec 8))) trivial trivial
      ⟨by decide, fun _ hx => nomatch hx⟩ ⟨by decide, fun _ hx => nomatch hx⟩
    have h2 := h'.symm.trans h
    revert h2
    decide

/-- C02 where it holds: if no list of variable-size elements inside the decoded value is empty, the
accepted input is the encoding of the value. -/
theorem C02_canonical_partial (E : Env) (t : Ty) (b : Bytes) (v : t.Val) (hl : Legal t)
    (hf : Fits t) (hb : b.length < 2 ^ 32)
    (h : deserialize (t.impl E).toSerializable b = .ok v) (hne : NoEmptyVarList t v) :
    serialize (t.impl E).toSerializable v = .ok b := by
  obtain ⟨hv, _, he⟩ := de_sound E t b v hl hf (by omega) h
  have he := he hne
  rw [← he] at hb ⊢
  exact serialize_enc E t v hl hf hv (small_of_length t v hb)

/-- C02 for inputs of any length: such a value has no second accepted input, and if it is written at
all, it is written as this input. -/
theorem C02_only_input_partial (E : Env) (t : Ty) (b : Bytes) (v : t.Val) (hl : Legal t)
    (hf : Fits t) (hb : b.length < 2 ^ 63)
    (h : deserialize (t.impl E).toSerializable b = .ok v) (hne : NoEmptyVarList t v) :
    (∀ b', b'.length < 2 ^ 63 → deserialize (t.impl E).toSerializable b' = .ok v → b' = b) ∧
      ∀ b', serialize (t.impl E).toSerializable v = .ok b' → b' = b := by
  obtain ⟨hv, _, he⟩ := de_sound E t b v hl hf hb h
  refine ⟨fun b' hb' h' => ?_, fun b' h' => ?_⟩
  · exact ((de_sound E t b' v hl hf hb' h').2.2 hne).symm.trans (he hne)
  · exact (serialize_ok_enc E t v hl hf hv h').1.trans (he hne)

/-- C02 for all types without lists of variable-size elements: decoding is canonical, and no value
has two accepted encodings. -/
theorem C02_canonical_types_partial (E : Env) (t : Ty) (hl : Legal t) (hf : Fits t)
    (ht : NoVarList t) (b : Bytes) (v : t.Val) (hb : b.length < 2 ^ 32)
    (h : deserialize (t.impl E).toSerializable b = .ok v) :
    serialize (t.impl E).toSerializable v = .ok b ∧
      ∀ b', b'.length < 2 ^ 63 → deserialize (t.impl E).toSerializable b' = .ok v → b' = b :=
  ⟨C02_canonical_partial E t b v hl hf hb h (noEmptyVarList_of_noVarList t v ht),
    (C02_only_input_partial E t b v hl hf (by omega) h (noEmptyVarList_of_noVarList t v ht)).1⟩

example : NoVarList (.container (.cons "a" (.list (.uint .u16) 9)
    (.cons "b" (.vector (.bitlist 7) 3) .nil))) := by
  simp [NoVarList, NoVarListF, isVar]

example : NoEmptyVarList Demo.ty Demo.val :=
  ⟨trivial, ⟨fun h => by simp [isVar] at h, fun _ _ => trivial⟩, trivial,
    fun _ _ _ _ => trivial, ⟨fun _ => List.cons_ne_nil _ _, fun _ _ => ⟨fun h => by simp [isVar] at h,
      fun _ _ => trivial⟩⟩, fun _ _ => trivial, trivial, trivial, trivial, trivial⟩

/-! ## C03 -/

/-- C03 is false in every build: an offset beyond the end of the input makes the decoder of a list
of variable-size elements slice out of range. -/
theorem C03_decode_panics : ∃ (t : Ty) (b : Bytes), Legal t ∧ Fits t ∧
    ∀ E, deserialize (t.impl E).toSerializable b = .panic := by
  refine ⟨listOfLists, [8, 0, 0, 0, 100, 0, 0, 0], trivial, trivial, fun E => ?_⟩
  have h : deserializeHomogeneousComposite E (Serializable.list E (Serializable.uint .u8) 4)
      [8, 0, 0, 0, 100, 0, 0, 0] = .panic := by
    rw [deserializeHomogeneousComposite, if_pos (by rfl)]
    have h0 : deserializeU32 [8#8, 0#8, 0#8, 0#8] = .ok 8 := rfl
    have h1 : deserializeU32 [100#8, 0#8, 0#8, 0#8] = .ok 100 := rfl
    have hc : chunksExact 4 [8#8, 0#8, 0#8, 0#8, 100#8, 0#8, 0#8, 0#8] =
        [[8#8, 0#8, 0#8, 0#8], [100#8, 0#8, 0#8, 0#8]] := by decide +kernel
    simp [deserializeVariableHomogeneousComposite, getRange, h0, h1, slice, hc,
      Res.mapList, deserializeSpans]
  show (checkListLength E (Serializable.list E (Serializable.uint .u8) 4) _ >>= fun _ =>
    deserializeHomogeneousComposite E (Serializable.list E (Serializable.uint .u8) 4) _ >>= _) = _
  rw [h]
  rfl

/-- `struct { a: List<u8, 4>, b: List<u8, 4> }` -/
def twoLists : Ty :=
  .container (.cons "a" (.list (.uint .u8) 4) (.cons "b" (.list (.uint .u8) 4) .nil))

/-- C03 is false with overflow checks for a struct with two variable-size fields: the error path for
an offset beyond the input subtracts with underflow. -/
theorem C03_decode_panics_debug : ∃ (t : Ty) (b : Bytes), Legal t ∧ Fits t ∧ NoVarElems t ∧
    ∀ E, E.debug = true → deserialize (t.impl E).toSerializable b = .panic := by
  refine ⟨twoLists, [8, 0, 0, 0, 100, 0, 0, 0], ⟨by decide, by decide, trivial, trivial, trivial⟩,
    ⟨⟨trivial, trivial, trivial⟩, by decide⟩, by simp [twoLists, NoVarElems, NoVarElemsF, isVar],
    fun E hE => ?_⟩
  show ((twoLists.impl E).deserialize _) = _
  have hT : ∀ r, ({} : ContainerDeserializer).parse E
      (Serializable.list E (Serializable.uint .u8) 4) (8 :: 0 :: 0 :: 0 :: r) =
      .ok ⟨[.offset], [8], 4⟩ := by
    intro r
    have h0 : deserializeU32 [8#8, 0#8, 0#8, 0#8] = .ok 8 := rfl
    simp [ContainerDeserializer.parse, Serializable.list, Env.sub, getRange, h0, checkOffset]
  have hT2 : (⟨[.offset], [8], 4⟩ : ContainerDeserializer).parse E
      (Serializable.list E (Serializable.uint .u8) 4) [8, 0, 0, 0, 100, 0, 0, 0] = .panic := by
    have h0 : deserializeU32 [100#8, 0#8, 0#8, 0#8] = .ok 100 := rfl
    simp [ContainerDeserializer.parse, Serializable.list, Env.sub, getRange, h0, checkOffset, hE]
  show (((({} : ContainerDeserializer).parse E (Serializable.list E (Serializable.uint .u8) 4)
    [8, 0, 0, 0, 100, 0, 0, 0]) >>= fun d => d.parse E
      (Serializable.list E (Serializable.uint .u8) 4) [8, 0, 0, 0, 100, 0, 0, 0] >>= fun d => .ok d)
    >>= fun d => _) = _
  rw [hT]
  simp only [Res.ok_bind, hT2, Res.panic_bind]
  rfl

/-- C03 for the types without arrays, vectors or lists of variable-size elements: the release build
never panics, and neither does the debug build if no struct has two variable-size fields. (The
length of a Rust slice is below `2^63`.) -/
theorem C03_decode_no_panic_partial (E : Env) (t : Ty) (b : Bytes) (hl : Legal t) (hf : Fits t)
    (hb : b.length < 2 ^ 63) (ht : NoVarElems t) (hE : E.debug = false ∨ OneVarField t) :
    deserialize (t.impl E).toSerializable b ≠ .panic :=
  de_ne_panic E t b hl hf hb ht hE

/-- C03 for every fixed-size type, in both builds. -/
theorem C03_decode_no_panic_fixed_partial (E : Env) (t : Ty) (b : Bytes) (hl : Legal t)
    (hf : Fits t) (hb : b.length < 2 ^ 63) (ht : isVar t = false) :
    deserialize (t.impl E).toSerializable b ≠ .panic :=
  de_ne_panic E t b hl hf hb (fixed_facts t ht).2.1 (Or.inr (fixed_facts t ht).2.2)

example : Legal twoLists ∧ Fits twoLists ∧ NoVarElems twoLists ∧ isVar twoLists = true :=
  ⟨⟨by decide, by decide, trivial, trivial, trivial⟩, ⟨⟨trivial, trivial, trivial⟩, by decide⟩,
    by simp [twoLists, NoVarElems, NoVarElemsF, isVar], by simp [twoLists, isVar, isVarF]⟩

/-! ## C04 -/

/-- C04. A decoded value respects the bounds of its type, at every depth. -/
theorem C04_decoded_valid (E : Env) (t : Ty) (b : Bytes) (v : t.Val) (hl : Legal t) (hf : Fits t)
    (hb : b.length < 2 ^ 63) (h : deserialize (t.impl E).toSerializable b = .ok v) : Valid t v :=
  (de_sound E t b v hl hf hb h).1

example (E : Env) : ∃ v, deserialize (Demo.ty.impl E).toSerializable (enc Demo.ty Demo.val) = .ok v :=
  ⟨_, de_enc E Demo.ty Demo.val Demo.ty_legal Demo.ty_fits Demo.val_valid
    (small_of_length _ _ Demo.val_length)⟩

/-! ## C05 -/

/-- C05. `serialize` of an in-bounds value below `2^32` bytes is the encoding of the SSZ
specification. -/
theorem C05_conforms (E : Env) (t : Ty) (v : t.Val) (hl : Legal t) (hf : Fits t) (hv : Valid t v)
    (hs : (enc t v).length < 2 ^ 32) :
    serialize (t.impl E).toSerializable v = .ok (enc t v) :=
  serialize_enc E t v hl hf hv (small_of_length t v hs)

/-- C05, whatever the size: nothing but the specified encoding is ever written. -/
theorem C05_written (E : Env) (t : Ty) (v : t.Val) (b : Bytes) (hl : Legal t) (hf : Fits t)
    (hv : Valid t v) (h : serialize (t.impl E).toSerializable v = .ok b) : b = enc t v :=
  (serialize_ok_enc E t v hl hf hv h).1

/-- C05, decoding side: `deserialize` accepts the specified encoding and yields the value. -/
theorem C05_decode_conforms (E : Env) (t : Ty) (v : t.Val) (hl : Legal t) (hf : Fits t)
    (hv : Valid t v) (hs : (enc t v).length < 2 ^ 32) :
    deserialize (t.impl E).toSerializable (enc t v) = .ok (norm t v) :=
  de_enc E t v hl hf hv (small_of_length t v hs)

/-! ## C06 -/

/-- C06. A successful `serialize` of an in-bounds value appends the bytes that `serialize` to an
empty buffer gives, keeps what was there, and returns their number. -/
theorem C06_appends (E : Env) (t : Ty) (v : t.Val) (hl : Legal t) (hf : Fits t) (hv : Valid t v)
    (buf buf' : Bytes) (n : Nat) (h : (t.impl E).serialize v buf = (buf', .ok n)) :
    ∃ b, serialize (t.impl E).toSerializable v = .ok b ∧ buf' = buf ++ b ∧ n = b.length := by
  rcases impl_total E t v hl hf (stored_of_valid t v hv) with ⟨hp, _⟩ | ⟨_, e, junk, he⟩
  · rw [impl_serialize E t v hl hf hv hp.2 buf] at h
    simp only [Prod.mk.injEq, Res.ok.injEq] at h
    exact ⟨enc t v, serialize_enc E t v hl hf hv hp.2, h.1.symm, h.2.symm⟩
  · rw [he buf] at h
    simp at h

example (E : Env) : ∃ buf' n, (Demo.ty.impl E).serialize Demo.val [1, 2, 3] = (buf', .ok n) :=
  ⟨_, _, impl_serialize E Demo.ty Demo.val Demo.ty_legal Demo.ty_fits Demo.val_valid
    (small_of_length _ _ Demo.val_length) _⟩

/-! ## C07 -/

/-- C07. The encodings of a fixed-size type all have `size_hint` bytes. -/
theorem C07_fixed_size (E : Env) (t : Ty) (v : t.Val) (b : Bytes) (hl : Legal t) (hf : Fits t)
    (hv : Valid t v) (ht : (t.impl E).isVariableSize = false)
    (h : serialize (t.impl E).toSerializable v = .ok b) : (t.impl E).sizeHint = .ok b.length := by
  obtain ⟨rfl, _⟩ := serialize_ok_enc E t v hl hf hv h
  rw [impl_isVar] at ht
  rw [impl_sizeHint E t hf, enc_length t v ht hv]

/-- A struct of fixed size. -/
def fixedStruct : Ty :=
  .container (.cons "a" (.uint .u16) (.cons "b" (.vector (.bitvector 9) 3) .nil))

example (E : Env) : (fixedStruct.impl E).isVariableSize = false ∧ Legal fixedStruct ∧
    Fits fixedStruct := by
  refine ⟨by rw [impl_isVar]; rfl, ⟨by decide, by decide, trivial, ⟨by decide, show 0 < 9 by decide⟩, trivial⟩,
    ⟨⟨trivial, ⟨show 9 < 2 ^ 64 by decide, by decide⟩, trivial⟩, by decide⟩⟩

/-! ## C08 -/

/-- C08. In-bounds values with the same encoding are equal. -/
theorem C08_injective (E : Env) (t : Ty) (v w : t.Val) (b : Bytes) (hl : Legal t) (hf : Fits t)
    (hv : Valid t v) (hw : Valid t w) (h1 : serialize (t.impl E).toSerializable v = .ok b)
    (h2 : serialize (t.impl E).toSerializable w = .ok b) : norm t v = norm t w := by
  obtain ⟨rfl, s1⟩ := serialize_ok_enc E t v hl hf hv h1
  obtain ⟨h3, s2⟩ := serialize_ok_enc E t w hl hf hw h2
  have d1 := de_enc E t v hl hf hv s1
  have d2 := de_enc E t w hl hf hw s2
  rw [h3, d2] at d1
  injection d1 with d1
  exact d1.symm

/-! ## C09 -/

/-- C09. `serialize` returns `Ok` exactly when every `List` and `Bitlist` in the value respects its
bound and every composite in it encodes to less than `2^32` bytes; otherwise it returns `Err`. It
never panics. (`Stored` holds of every value in memory, see its definition.) -/
theorem C09_serialize_total (E : Env) (t : Ty) (v : t.Val) (hl : Legal t) (hf : Fits t)
    (hst : Stored t v) :
    ((∃ b, serialize (t.impl E).toSerializable v = .ok b) ↔ InBounds t v ∧ Small t v) ∧
    ((∃ e, serialize (t.impl E).toSerializable v = .err e) ↔ ¬ (InBounds t v ∧ Small t v)) ∧
    serialize (t.impl E).toSerializable v ≠ .panic := by
  rcases serialize_total E t v hl hf hst with ⟨hp, b, h, _⟩ | ⟨hp, e, h⟩
  · rw [h]; simp [hp]
  · rw [h]; simp [hp]

/-- C09 for an in-bounds value: `Ok` exactly if no composite inside reaches `2^32` bytes; this is
the case whenever the whole encoding is below `2^32` bytes. -/
theorem C09_serialize_valid (E : Env) (t : Ty) (v : t.Val) (hl : Legal t) (hf : Fits t)
    (hv : Valid t v) :
    ((∃ b, serialize (t.impl E).toSerializable v = .ok b) ↔ Small t v) ∧
    ((enc t v).length < 2 ^ 32 → ∃ b, serialize (t.impl E).toSerializable v = .ok b) := by
  have h := (C09_serialize_total E t v hl hf (stored_of_valid t v hv)).1
  have hi := inBounds_of_valid t v hv
  exact ⟨⟨fun hb => (h.mp hb).2, fun hs => h.mpr ⟨hi, hs⟩⟩,
    fun hs => h.mpr ⟨hi, small_of_length t v hs⟩⟩

/-- C09 for an over-long `List`: the error names the bound and the length. -/
theorem C09_overlong_list (E : Env) (t : Ty) (n : Nat) (v : List t.Val) (h : n < v.length) :
    serialize ((Ty.list t n).impl E).toSerializable v =
      .err (.invalidInstance (.bounded n v.length)) := by
  unfold serialize
  show (match (Serializable.list E (t.impl E).toSerializable n).serialize v [] with
    | (result, .ok _) => Res.ok result
    | (_, .err e) => .err e
    | (_, .panic) => .panic) = _
  simp [Serializable.list, h]

/-- C09 for an over-long `Bitlist`. -/
theorem C09_overlong_bitlist (E : Env) (n : Nat) (v : Bits) (h : n < v.live.length) :
    serialize ((Ty.bitlist n).impl E).toSerializable v =
      .err (.invalidInstance (.bounded n v.live.length)) := by
  unfold serialize
  show (match Bitlist.serializeWithLength n v true [] with
    | (result, .ok _) => Res.ok result
    | (_, .err e) => .err e
    | (_, .panic) => .panic) = _
  simp [Bitlist.serializeWithLength, Bits.len, h]

example : Stored Demo.ty Demo.val ∧ InBounds Demo.ty Demo.val ∧ Small Demo.ty Demo.val :=
  ⟨stored_of_valid _ _ Demo.val_valid, inBounds_of_valid _ _ Demo.val_valid,
    small_of_length _ _ Demo.val_length⟩

example : Stored (.list (.uint .u8) 1) ([1, 2] : List (BitVec 8)) ∧
    ¬ InBounds (.list (.uint .u8) 1) ([1, 2] : List (BitVec 8)) :=
  ⟨fun _ _ => trivial, fun h => absurd h.1 (by decide)⟩

/-! ## C10 -/

/-- C10 is false: `Option` and derived enums leave the selector byte behind when the payload fails
to serialize. -/
theorem C10_buffer_refuted : ∃ (t : Ty) (v : t.Val) (buf buf' : Bytes), Legal t ∧ Fits t ∧
    buf' ≠ buf ∧ ∀ E, ∃ e, (t.impl E).serialize v buf = (buf', .err e) := by
  refine ⟨.option (.list (.uint .u8) 0), some ([7] : List (BitVec 8)), [], [1], trivial, trivial,
    by decide, fun E => ⟨.invalidInstance (.bounded 0 1), ?_⟩⟩
  show serializeWithSelector (Serializable.list E (Serializable.uint .u8) 0) 1 [7] [] = _
  simp only [serializeWithSelector]
  rw [BufM.bind_ok (uint_serialize .u8 _ _)]
  rw [BufM.bind_err (e := .invalidInstance (.bounded 0 1)) (buf' := [1])]
  rfl

/-- C10 for every type that is not an `Option` or an enum (behind newtypes): the buffer is left
alone by a failing `serialize`, whatever the value. -/
theorem C10_buffer_partial (E : Env) : ∀ (t : Ty) (v : t.Val), noSelector t →
    ∀ (buf buf' : Bytes) (e : SerError), (t.impl E).serialize v buf = (buf', .err e) → buf' = buf
  | .uint u, v, _, buf, buf', e, h => by
    have h : (Serializable.uint u).serialize v buf = (buf', .err e) := h
    rw [uint_serialize u v buf] at h
    simp at h
  | .u256, v, _, buf, buf', e, h => by
    have h : SimpleSerialize.u256.serialize v buf = (buf', .err e) := h
    simp only [SimpleSerialize.u256] at h
    rw [BufM.bind_ok (BufM.append_apply _ _)] at h
    simp at h
  | .bool, v, _, buf, buf', e, h => by
    have h : SimpleSerialize.bool.serialize v buf = (buf', .err e) := h
    simp only [SimpleSerialize.bool] at h
    rw [BufM.bind_ok (BufM.append_apply _ _)] at h
    simp at h
  | .node, v, _, buf, buf', e, h => by
    have h : SimpleSerialize.node.serialize v buf = (buf', .err e) := h
    simp only [SimpleSerialize.node] at h
    rw [BufM.bind_ok (BufM.append_apply _ _)] at h
    simp at h
  | .array _ _, _, _, _, _, _, h =>
    if_err (fun h => by simp at h; exact h.1.symm) finish_err h
  | .vector _ _, _, _, _, _, _, h =>
    if_err (fun h => by simp at h; exact h.1.symm) finish_err h
  | .list _ _, _, _, _, _, _, h =>
    if_err (fun h => by simp at h; exact h.1.symm) finish_err h
  | .bitvector n, v, _, buf, buf', e, h => by
    have h : Bitvector.serialize n v buf = (buf', .err e) := h
    refine if_err (fun h => by simp at h; exact h.1.symm) (fun h => ?_) h
    rw [BufM.bind_ok (BufM.append_apply _ _)] at h
    simp at h
  | .bitlist n, v, _, buf, buf', e, h => by
    have h : Bitlist.serializeWithLength n v true buf = (buf', .err e) := h
    simp only [Bitlist.serializeWithLength] at h
    split at h
    · simp at h; exact h.1.symm
    · simp only [if_true] at h
      split at h
      · simp at h
      · split at h <;> simp at h
  | .newtype t, v, hn, buf, buf', e, h => C10_buffer_partial E t v hn buf buf' e h
  | .container _, _, _, _, _, _, h => finish_err h

example (E : Env) : noSelector (.vector (.option (.list (.uint .u8) 0)) 1) ∧
    ∃ buf e, ((Ty.vector (.option (.list (.uint .u8) 0)) 1).impl E).serialize
      ([some ([7] : List (BitVec 8))] : List (Option (List (BitVec 8)))) [5] = (buf, .err e) := by
  refine ⟨trivial, ?_⟩
  rcases impl_total E (Ty.vector (.option (.list (.uint .u8) 0)) 1)
    ([some ([7] : List (BitVec 8))] : List (Option (List (BitVec 8))))
    ⟨by decide, trivial⟩ ⟨trivial, by decide⟩ (fun x _ y _ z _ => trivial) with ⟨hp, _⟩ | ⟨_, e, j, h⟩
  · exact absurd (hp.1 _ (List.mem_singleton.mpr rfl) _ rfl).1 (by decide)
  · exact ⟨_, e, h [5]⟩

theorem selector_err {α : Type} {T : Serializable α} {i : Nat} {v : α} {buf buf' : Bytes}
    {e : SerError} (h : serializeWithSelector T i v buf = (buf', .err e)) :
    T.serialize v (buf ++ [BitVec.ofNat 8 i]) = (buf', .err e) := by
  have h1 : leBytes 1 (BitVec.ofNat 8 i).toNat = [BitVec.ofNat 8 i] := by
    rw [leBytes_succ]; simp [ofNat_mod_256]
  simp only [serializeWithSelector] at h
  rw [BufM.bind_ok (uint_serialize .u8 _ _)] at h
  simp only [UintTy.bits, Nat.reduceDiv, h1] at h
  rcases hT : T.serialize v (buf ++ [BitVec.ofNat 8 i]) with ⟨b, n | e' | _⟩
  · rw [BufM.bind_ok hT] at h
    simp at h
  · rw [BufM.bind_err hT] at h
    exact h
  · rw [BufM.bind_panic hT] at h
    simp at h

theorem noSelector_selectors : ∀ (t : Ty) (v : t.Val), noSelector t → selectors t v = []
  | .uint _, _, _ => rfl
  | .u256, _, _ => rfl
  | .bool, _, _ => rfl
  | .node, _, _ => rfl
  | .array _ _, _, _ => rfl
  | .vector _ _, _, _ => rfl
  | .list _ _, _, _ => rfl
  | .bitvector _, _, _ => rfl
  | .bitlist _, _, _ => rfl
  | .newtype t, v, h => noSelector_selectors t v h
  | .container _, _, _ => rfl

theorem left_of_noSelector (E : Env) {t : Ty} {v : t.Val} (hn : noSelector t) {buf buf' : Bytes}
    {e : SerError} (h : (t.impl E).serialize v buf = (buf', .err e)) :
    buf' = buf ++ selectors t v := by
  rw [noSelector_selectors t v hn, List.append_nil]
  exact C10_buffer_partial E t v hn buf buf' e h

mutual

/-- C10, for every type and value: exactly the selector bytes of the value and of the payloads
directly inside it are left behind by a failing `serialize`. -/
theorem C10_left_partial (E : Env) : ∀ (t : Ty) (v : t.Val) (buf buf' : Bytes) (e : SerError),
    (t.impl E).serialize v buf = (buf', .err e) → buf' = buf ++ selectors t v
  | .option t, v, buf, buf', e, h => by
    match v with
    | none =>
      have h : (Serializable.uint .u8).serialize (0 : BitVec 8) buf = (buf', .err e) := h
      rw [uint_serialize] at h
      simp at h
    | some x =>
      have := C10_left_partial E t x _ _ _ (selector_err (T := (t.impl E).toSerializable) h)
      rw [this, List.append_assoc]
      rfl
  | .newtype t, v, buf, buf', e, h => C10_left_partial E t v buf buf' e h
  | .union vs, v, buf, buf', e, h => C10_left_variant E vs 0 v buf buf' e h
  | .uint _, _, _, _, _, h => left_of_noSelector E (t := .uint _) trivial h
  | .u256, _, _, _, _, h => left_of_noSelector E (t := .u256) trivial h
  | .bool, _, _, _, _, h => left_of_noSelector E (t := .bool) trivial h
  | .node, _, _, _, _, h => left_of_noSelector E (t := .node) trivial h
  | .array _ _, _, _, _, _, h => left_of_noSelector E (t := .array _ _) trivial h
  | .vector _ _, _, _, _, _, h => left_of_noSelector E (t := .vector _ _) trivial h
  | .list _ _, _, _, _, _, h => left_of_noSelector E (t := .list _ _) trivial h
  | .bitvector _, _, _, _, _, h => left_of_noSelector E (t := .bitvector _) trivial h
  | .bitlist _, _, _, _, _, h => left_of_noSelector E (t := .bitlist _) trivial h
  | .container _, _, _, _, _, h => left_of_noSelector E (t := .container _) trivial h

theorem C10_left_variant (E : Env) : ∀ (vs : Variants) (i : Nat) (v : vs.Val) (buf buf' : Bytes)
    (e : SerError), (vs.impls E).serialize i v buf = (buf', .err e) →
    buf' = buf ++ selectorsV vs i v
  | .nil, _, v, _, _, _, _ => Empty.elim v
  | .unit _, i, .inl _, buf, buf', e, h => by
    have h : (Serializable.uint .u8).serialize (0 : BitVec 8) buf = (buf', .err e) := h
    rw [uint_serialize] at h
    simp at h
  | .unit rest, i, .inr v, buf, buf', e, h => C10_left_variant E rest (i + 1) v buf buf' e h
  | .data t _, i, .inl v, buf, buf', e, h => by
    have := C10_left_partial E t v _ _ _ (selector_err (T := (t.impl E).toSerializable) h)
    rw [this, List.append_assoc]
    rfl
  | .data _ rest, i, .inr v, buf, buf', e, h => C10_left_variant E rest (i + 1) v buf buf' e h

end

/-- Two nested `Option`s around an over-long list leave two bytes. -/
example (E : Env) : ∃ e, ((Ty.option (.option (.list (.uint .u8) 0))).impl E).serialize
      (some (some ([7] : List (BitVec 8)))) [5] = ([5, 1, 1], .err e) := by
  rcases impl_total E (Ty.option (.option (.list (.uint .u8) 0)))
    (some (some ([7] : List (BitVec 8))) : Option (Option (List (BitVec 8))))
    trivial trivial (fun x _ y _ z _ => trivial) with ⟨hp, _⟩ | ⟨_, e, j, h⟩
  · exact absurd (hp.1 _ rfl _ rfl).1 (by decide)
  · have h5 := h [5]
    have := C10_left_partial E (Ty.option (.option (.list (.uint .u8) 0)))
      (some (some ([7] : List (BitVec 8))) : Option (Option (List (BitVec 8)))) [5] _ e h5
    exact ⟨e, by rw [this] at h5; exact h5⟩

/-! ## C11 -/

/-- C11. A fixed-size type returns `Err` on every input that does not have `size_hint` bytes. -/
theorem C11_exact_length (E : Env) (t : Ty) (b : Bytes) (s : Nat) (hl : Legal t) (hf : Fits t)
    (hb : b.length < 2 ^ 63) (ht : (t.impl E).isVariableSize = false)
    (hs : (t.impl E).sizeHint = .ok s) (hne : b.length ≠ s) :
    ∃ e, deserialize (t.impl E).toSerializable b = .err e := by
  rw [impl_isVar] at ht
  rcases hd : deserialize (t.impl E).toSerializable b with v | e | _
  · exfalso
    obtain ⟨hv, _, he⟩ := de_sound E t b v hl hf hb hd
    have he := he (noEmptyVarList_of_noVarList t v (fixed_facts t ht).1)
    rw [impl_sizeHint E t hf] at hs
    injection hs with hs
    have := enc_length t v ht hv
    rw [he] at this
    omega
  · exact ⟨e, rfl⟩
  · exact absurd hd (C03_decode_no_panic_fixed_partial E t b hl hf hb ht)

example (E : Env) : (fixedStruct.impl E).sizeHint = .ok 8 := by
  rw [impl_sizeHint]
  · rfl
  · exact ⟨⟨trivial, ⟨show 9 < 2 ^ 64 by decide, by decide⟩, trivial⟩, by decide⟩

/-! ## C12 -/

theorem posV_lt : ∀ (vs : Variants) (v : vs.Val), posV vs v < countV vs
  | .nil, v => Empty.elim v
  | .unit _, .inl _ => Nat.succ_pos _
  | .unit rest, .inr v => Nat.succ_lt_succ (posV_lt rest v)
  | .data _ _, .inl _ => Nat.succ_pos _
  | .data _ rest, .inr v => Nat.succ_lt_succ (posV_lt rest v)

theorem encV_pos : ∀ (vs : Variants) (i : Nat) (v : vs.Val),
    ∃ rest, encV vs i v = BitVec.ofNat 8 (i + posV vs v) :: rest
  | .nil, _, v => Empty.elim v
  | .unit _, i, .inl _ => ⟨[], rfl⟩
  | .unit rest, i, .inr v => by
    obtain ⟨r, h⟩ := encV_pos rest (i + 1) v
    exact ⟨r, by rw [encV, h, posV, Nat.add_assoc, Nat.add_comm 1]⟩
  | .data t _, i, .inl v => ⟨enc t v, rfl⟩
  | .data t rest, i, .inr v => by
    obtain ⟨r, h⟩ := encV_pos rest (i + 1) v
    exact ⟨r, by rw [encV, h, posV, Nat.add_assoc, Nat.add_comm 1]⟩

theorem deserializeV_pos (E : Env) (x : Byte) (r enc : Bytes) : ∀ (vs : Variants) (i : Nat)
    (v : vs.Val), UnitOk i vs → (vs.impls E).deserialize x r enc i = .ok v →
    x = BitVec.ofNat 8 (i + posV vs v)
  | .nil, _, v, _, _ => Empty.elim v
  | .unit rest, i, v, hu, h => by
    obtain ⟨rfl, hu⟩ := hu
    simp only [Variants.impls, VariantImpls.deserialize] at h
    split at h
    · rename_i hx
      split at h
      · exact nomatch h
      · injection h with h
        subst h
        exact hx
    · obtain ⟨w, hw, rfl⟩ := Res.map_eq_ok.mp h
      have := deserializeV_pos E x r enc rest (0 + 1) w (unitOk_of_noUnit hu) hw
      rw [this, posV, Nat.add_assoc, Nat.add_comm 1]
  | .data t rest, i, v, hu, h => by
    simp only [Variants.impls, VariantImpls.deserialize] at h
    split at h
    · rename_i hx
      obtain ⟨w, hw, rfl⟩ := Res.map_eq_ok.mp h
      exact hx
    · obtain ⟨w, hw, rfl⟩ := Res.map_eq_ok.mp h
      have := deserializeV_pos E x r enc rest (i + 1) w (unitOk_of_noUnit hu) hw
      rw [this, posV, Nat.add_assoc, Nat.add_comm 1]

/-- C12, encoding: the encoding of an enum value starts with the position of its variant. -/
theorem C12_encode_selector (E : Env) (vs : Variants) (v : vs.Val) (b : Bytes)
    (hl : Legal (.union vs)) (hf : Fits (.union vs)) (hv : Valid (.union vs) v)
    (h : serialize ((Ty.union vs).impl E).toSerializable v = .ok b) :
    ∃ x rest, b = x :: rest ∧ x.toNat = posV vs v := by
  obtain ⟨rfl, _⟩ := serialize_ok_enc E (.union vs) v hl hf hv h
  obtain ⟨rest, hr⟩ := encV_pos vs 0 v
  refine ⟨_, rest, hr, ?_⟩
  have h1 := posV_lt vs v
  have h2 := countV_of_shape hl.1
  simp only [Nat.zero_add, BitVec.toNat_ofNat]
  omega

/-- C12, decoding: an accepted input starts with the position of a declared variant, and the value
has that variant. -/
theorem C12_decode_selector (E : Env) (vs : Variants) (v : vs.Val) (b : Bytes)
    (hs : unionShape vs)
    (h : deserialize ((Ty.union vs).impl E).toSerializable b = .ok v) :
    ∃ x rest, b = x :: rest ∧ x.toNat < countV vs ∧ posV vs v = x.toNat := by
  cases b with
  | nil => exact nomatch h
  | cons x rest =>
    have h' : (vs.impls E).deserialize x rest (x :: rest) 0 = .ok v := h
    have hx := deserializeV_pos E x rest _ vs 0 v (unitOk_of_shape hs) h'
    have h1 := posV_lt vs v
    have h2 := countV_of_shape hs
    refine ⟨x, rest, rfl, ?_⟩
    have : x.toNat = posV vs v := by
      rw [hx]
      simp only [Nat.zero_add, BitVec.toNat_ofNat]
      omega
    omega

theorem deserializeV_reject (E : Env) (x : Byte) (r enc : Bytes) : ∀ (vs : Variants) (i : Nat),
    UnitOk i vs → i + countV vs ≤ x.toNat →
    (vs.impls E).deserialize x r enc i = .err (.invalidByte x)
  | .nil, _, _, _ => rfl
  | .unit rest, i, hu, hx => by
    simp only [countV] at hx
    have h0 : x ≠ 0 := by
      rintro rfl
      simp at hx
    simp only [Variants.impls, VariantImpls.deserialize]
    rw [if_neg h0, deserializeV_reject E x r enc rest (i + 1) (unitOk_of_noUnit hu.2) (by omega)]
    rfl
  | .data t rest, i, hu, hx => by
    simp only [countV] at hx
    have h0 : x ≠ BitVec.ofNat 8 i := by
      rintro rfl
      simp only [BitVec.toNat_ofNat] at hx
      have := Nat.mod_le i (2 ^ 8)
      omega
    simp only [Variants.impls, VariantImpls.deserialize]
    rw [if_neg h0, deserializeV_reject E x r enc rest (i + 1) (unitOk_of_noUnit hu) (by omega)]
    rfl

/-- C12, rejection: an input that starts with a byte that is no position of a variant, or with
nothing, is an error. -/
theorem C12_reject (E : Env) (vs : Variants) (hs : unionShape vs) :
    (∃ e, deserialize ((Ty.union vs).impl E).toSerializable [] = .err e) ∧
    ∀ (x : Byte) (rest : Bytes), countV vs ≤ x.toNat →
      deserialize ((Ty.union vs).impl E).toSerializable (x :: rest) = .err (.invalidByte x) :=
  ⟨⟨_, rfl⟩, fun x rest hx => deserializeV_reject E x rest _ vs 0 (unitOk_of_shape hs) (by omega)⟩

example : Legal Demo.unionTy ∧ Fits Demo.unionTy :=
  ⟨⟨⟨rfl, by decide, by decide⟩, trivial, trivial, trivial⟩, trivial, trivial, trivial⟩

/-! ## C13 -/

theorem homogeneous_length_le (E : Env) (t : Ty) (hl : Legal t) (hf : Fits t) {b : Bytes}
    {vs : List t.Val} (hmod : isVar t = false → b.length % fixedLen t = 0)
    (h : deserializeHomogeneousComposite E (t.impl E).toSerializable b = .ok vs) :
    vs.length * (if isVar t then 4 else fixedLen t) ≤ b.length := by
  rcases homogeneous_sound E (impl_isVar E t) (impl_sizeHint E t hf) hmod h with ⟨_, h2⟩ | h1
  · subst h2; simp
  · cases hv : isVar t with
    | true =>
      rw [hv] at h1
      obtain ⟨ps, hps, -, hall⟩ := h1
      rw [← hall.length_eq, hps, assemble_length]
      have : headLen (ps.map fun p => (true, p)) = ps.length * 4 := by
        clear hps hall
        induction ps with
        | nil => rfl
        | cons p ps ih =>
          simp only [headLen, List.map_cons, List.sum_cons, headSize, if_true, List.length_cons] at ih ⊢
          omega
      rw [this]
      simp
    | false =>
      have hpos := fixedLen_pos t hl hv
      unfold deserializeHomogeneousComposite at h
      rw [impl_isVar, hv] at h
      simp only [Bool.false_eq_true, if_false, deserializeFixedHomogeneousComposite,
        impl_sizeHint E t hf, Res.lift_ok, Res.ok_bind] at h
      rw [if_neg (by omega)] at h
      obtain ⟨_, _, h3⟩ := Res.bind_eq_ok.mp h
      have h4 := Res.mapList_length h3
      obtain ⟨c1, c2⟩ := chunksExact_spec (s := fixedLen t) (by omega) b (hmod hv)
      have h5 := flatten_length_const (chunksExact (fixedLen t) b) (fixedLen t) c2
      rw [c1] at h5
      rw [h4, h5]
      simp [Nat.mul_comm]

/-- C13 for `List`: at most as many elements as input bytes (a quarter of them if the elements are
variable-size, `1 / size` of them if they have a fixed size). -/
theorem C13_list_length (E : Env) (t : Ty) (n : Nat) (b : Bytes) (v : List t.Val) (hl : Legal t)
    (hf : Fits t) (h : deserialize ((Ty.list t n).impl E).toSerializable b = .ok v) :
    v.length ≤ b.length ∧ v.length * (if isVar t then 4 else fixedLen t) ≤ b.length := by
  have h' : (Serializable.list E (t.impl E).toSerializable n).deserialize b = .ok v := h
  obtain ⟨h1, h2, _⟩ := list_deserialize_sound h'
  have hk := homogeneous_length_le E t hl hf (fun hv => checkListLength_sound
    ((impl_isVar E t).trans hv) (impl_sizeHint E t hf) h1 rfl) h2
  refine ⟨Nat.le_trans (Nat.le_mul_of_pos_right _ ?_) hk, hk⟩
  cases hv : isVar t with
  | true => simp
  | false => simpa using fixedLen_pos t hl hv

/-- C13 for `Vector`. -/
theorem C13_vector_length (E : Env) (t : Ty) (n : Nat) (b : Bytes) (v : List t.Val) (hl : Legal t)
    (hf : Fits (.vector t n)) (h : deserialize ((Ty.vector t n).impl E).toSerializable b = .ok v) :
    v.length ≤ b.length ∧ v.length * (if isVar t then 4 else fixedLen t) ≤ b.length := by
  have h' : (Serializable.vector E (t.impl E).toSerializable n).deserialize b = .ok v := h
  obtain ⟨_, h1, h2, _⟩ := vector_deserialize_sound h'
  have hk := homogeneous_length_le E t hl hf.1 (fun hv => by
    have := checkVectorLength_sound ((impl_isVar E t).trans hv) (impl_sizeHint E t hf.1) (by
      rw [Nat.mul_comm]; exact Nat.lt_trans hf.2 (by decide)) h1 rfl
    rw [this]; simp) h2
  refine ⟨Nat.le_trans (Nat.le_mul_of_pos_right _ ?_) hk, hk⟩
  cases hv : isVar t with
  | true => simp
  | false => simpa using fixedLen_pos t hl hv

/-! ## C14 -/

/-- Each field of the struct value is what its type decodes from the corresponding piece. -/
def FieldsFrom (E : Env) : (fs : Fields) → fs.Val → List Piece → Prop
  | .nil, _, ps => ps = []
  | .cons _ t rest, v, ps => ∃ bytes ps', ps = (isVar t, bytes) :: ps' ∧
      deserialize (t.impl E).toSerializable bytes = .ok v.1 ∧
      (isVar t = false → bytes.length = fixedLen t) ∧ FieldsFrom E rest v.2 ps'

theorem fieldsFrom_of (E : Env) : ∀ (fs : Fields) (ps : List Piece) (v : fs.Val),
    HasShape ps (shapeF fs) → decodePieces E fs ps = .ok v → FieldsFrom E fs v ps
  | .nil, [], _, _, _ => rfl
  | .nil, _ :: _, _, h, _ => h.elim
  | .cons _ _ _, [], _, h, _ => h.elim
  | .cons _ t rest, (pv, pb) :: ps, v, hs, h => by
    simp only [decodePieces, Res.bind_eq_ok] at h
    obtain ⟨x, h1, y, h2, h3⟩ := h
    injection h3 with h3
    subst h3
    exact ⟨pb, ps, by rw [hs.1], h1, fun hv => hs.2.1 (hs.1.trans hv),
      fieldsFrom_of E rest ps y hs.2.2 h2⟩

/-- C14. An accepted encoding of a struct is made of the offsets and fixed-size fields in order,
then the variable-size fields in order, each field being decoded from its piece: every input byte
belongs to exactly one offset word or one field. -/
theorem C14_fields_tile (E : Env) (fs : Fields) (b : Bytes) (v : fs.Val)
    (hf : Fits (.container fs)) (hb : b.length < 2 ^ 63)
    (h : deserialize ((Ty.container fs).impl E).toSerializable b = .ok v) :
    ∃ ps : List Piece, FieldsFrom E fs v ps ∧ b = heads (headLen ps) ps ++ tails ps := by
  obtain ⟨ps, h1, h2, h3, -⟩ := container_decode_sound E fs hf.1 (Nat.lt_trans hf.2 (by decide)) hb h
  exact ⟨ps, fieldsFrom_of E fs ps v h1 h3, h2⟩

end Ssz
