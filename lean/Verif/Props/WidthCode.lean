import Verif.Proofs.WidthCode
import Verif.Props.Accept

/-!
# C87: encodings on targets with a smaller `usize`
-/

namespace Ssz

open Spec

/-- C87, writing: a value of a type for a target with `b` bits has the same encoding there, and if it
cannot be written the error is the same, as with 64 bits. -/
theorem C87_serialize_partial (b : Nat) (E : Env) (t : Ty) (v : t.Val) (hb : 32 ≤ b) (hb' : b ≤ 64)
    (hf : FitsW b t) :
    serialize (t.codeW b E) v = serialize (t.impl E).toSerializable v := by
  unfold serialize
  rw [(codeW_agrees E hb hb' t hf).ser]

/-- C87, writing: that is the encoding of the specification. -/
theorem C87_encoding_partial (b : Nat) (E : Env) (t : Ty) (v : t.Val) (hb : 32 ≤ b) (hb' : b ≤ 64)
    (hl : Legal t) (hf : FitsW b t) (hv : Valid t v) (hs : (enc t v).length < 2 ^ 32) :
    serialize (t.codeW b E) v = .ok (enc t v) := by
  rw [C87_serialize_partial b E t v hb hb' hf]
  exact serialize_enc E t v hl (fits_of_fitsW hb hb' t hf) hv (small_of_length t v hs)

/-- C87, reading: for an input that fits in memory the result is that of a target with 64 bits; the
numbers in an error are reduced modulo `2^b`. -/
theorem C87_deserialize_partial (b : Nat) (E : Env) (t : Ty) (x : Bytes) (hb : 32 ≤ b) (hb' : b ≤ 64)
    (hf : FitsW b t) (hx : x.length < 2 ^ (b - 1)) :
    deserialize (t.codeW b E) x = (deserialize (t.impl E).toSerializable x).mapErr (reduceError b) :=
  (codeW_agrees E hb hb' t hf).de x hx

/-- C87, reading: the inputs that are accepted are those of the specification. -/
theorem C87_accepts_partial (b : Nat) (E : Env) (t : Ty) (x : Bytes) (v : t.Val) (hb : 32 ≤ b)
    (hb' : b ≤ 64) (hl : Legal t) (hf : FitsW b t) (hx : x.length < 2 ^ (b - 1)) :
    deserialize (t.codeW b E) x = .ok v ↔ Accepts t x v := by
  have h63 : 2 ^ (b - 1) ≤ 2 ^ 63 := Nat.pow_le_pow_right (by decide) (by omega)
  rw [C87_deserialize_partial b E t x hb hb' hf hx,
    ← de_iff E t x v hl (fits_of_fitsW hb hb' t hf) (by omega)]
  unfold deserialize
  cases (t.impl E).deserialize x with
  | ok w => rfl
  | err e => exact ⟨(fun h => by cases h), (fun h => by cases h)⟩
  | panic => exact ⟨(fun h => by cases h), (fun h => by cases h)⟩

/-- C87, reading: the inputs on which decoding panics are those of C03. -/
theorem C87_panics_partial (b : Nat) (E : Env) (t : Ty) (x : Bytes) (hb : 32 ≤ b) (hb' : b ≤ 64)
    (hl : Legal t) (hf : FitsW b t) (hx : x.length < 2 ^ (b - 1)) :
    deserialize (t.codeW b E) x = .panic ↔ Crashes E.debug t x := by
  have h63 : 2 ^ (b - 1) ≤ 2 ^ 63 := Nat.pow_le_pow_right (by decide) (by omega)
  rw [C87_deserialize_partial b E t x hb hb' hf hx,
    ← panic_iff E t x hl (fits_of_fitsW hb hb' t hf) (by omega)]
  unfold deserialize
  cases (t.impl E).deserialize x with
  | ok w => exact ⟨(fun h => by cases h), (fun h => by cases h)⟩
  | err e => exact ⟨(fun h => by cases h), (fun h => by cases h)⟩
  | panic => exact ⟨fun _ => rfl, fun _ => rfl⟩

/-- C87, between targets: what is written on a target with `b` bits is read as an equal value on a target
with `c` bits. -/
theorem C87_portable_partial (b c : Nat) (E E' : Env) (t : Ty) (v : t.Val) (hb : 32 ≤ b) (hb' : b ≤ 64)
    (hc : 32 ≤ c) (hc' : c ≤ 64) (hl : Legal t) (hf : FitsW b t) (hf' : FitsW c t) (hv : Valid t v)
    (hs : (enc t v).length < 2 ^ 31) :
    ∃ x w, serialize (t.codeW b E) v = .ok x ∧ deserialize (t.codeW c E') x = .ok w ∧
      norm t w = norm t v := by
  have hc31 : 2 ^ 31 ≤ 2 ^ (c - 1) := Nat.pow_le_pow_right (by decide) (by omega)
  refine ⟨enc t v, norm t v, C87_encoding_partial b E t v hb hb' hl hf hv (by omega), ?_,
    norm_norm t v⟩
  rw [C87_deserialize_partial c E' t _ hc hc' hf' (by omega), deserialize,
    de_enc E' t v hl (fits_of_fitsW hc hc' t hf') hv (small_of_length t v (by unfold maxLen; omega))]
  rfl

theorem demo_fitsW : FitsW 32 Demo.ty := by
  refine ⟨?_, ?_⟩
  · simp [FitsWF, FitsW, FitsWV, Demo.unionTy, fixedLen]
  · simp [fixedLenF, Demo.unionTy, isVar, fixedLen, UintTy.bits]

example : Legal Demo.ty ∧ FitsW 32 Demo.ty ∧ Valid Demo.ty Demo.val ∧
    (enc Demo.ty Demo.val).length < 2 ^ 31 :=
  ⟨Demo.ty_legal, demo_fitsW, Demo.val_valid, by decide +kernel⟩

theorem twoLists_fitsW (b : Nat) (hb : 32 ≤ b) : FitsW b twoLists := by
  have h1 : 2 ^ 31 ≤ 2 ^ (b - 1) := Nat.pow_le_pow_right (by decide) (by omega)
  have h2 : 2 ^ 32 ≤ 2 ^ b := Nat.pow_le_pow_right (by decide) hb
  refine ⟨⟨⟨UintTy.noConfusion, by omega⟩, ⟨UintTy.noConfusion, by omega⟩, trivial⟩, ?_⟩
  simp only [fixedLenF, isVar, if_true]
  omega

/-- C87 is false of the numbers in errors in a build without overflow checks: for an offset beyond the
input, `provided` is a difference that wraps. -/
theorem C87_errors_refuted (E : Env) (hE : E.debug = false) :
    FitsW 32 twoLists ∧
    deserialize (twoLists.impl E).toSerializable [8, 0, 0, 0, 100, 0, 0, 0] =
      .err (.expectedFurtherInput (2 ^ 64 - 92) 92) ∧
    deserialize (twoLists.codeW 32 E) [8, 0, 0, 0, 100, 0, 0, 0] =
      .err (.expectedFurtherInput (2 ^ 32 - 92) 92) := by
  have h : deserialize (twoLists.impl E).toSerializable [8, 0, 0, 0, 100, 0, 0, 0] =
      .err (.expectedFurtherInput (2 ^ 64 - 92) 92) := by
    have hT : ∀ r, ({} : ContainerDeserializer).parse E
        (Serializable.list E (Serializable.uint .u8) 4) (8 :: 0 :: 0 :: 0 :: r) =
        .ok ⟨[.offset], [8], 4⟩ := by
      intro r
      have h0 : deserializeU32 [8#8, 0#8, 0#8, 0#8] = .ok 8 := rfl
      simp [ContainerDeserializer.parse, Serializable.list, Env.sub, getRange, h0, checkOffset]
    have hT2 : (⟨[.offset], [8], 4⟩ : ContainerDeserializer).parse E
        (Serializable.list E (Serializable.uint .u8) 4) [8, 0, 0, 0, 100, 0, 0, 0] =
        .err (.expectedFurtherInput (2 ^ 64 - 92) 92) := by
      have h0 : deserializeU32 [100#8, 0#8, 0#8, 0#8] = .ok 100 := rfl
      simp [ContainerDeserializer.parse, Serializable.list, Env.sub, getRange, h0, checkOffset, hE, usizeMod]
    show (((({} : ContainerDeserializer).parse E (Serializable.list E (Serializable.uint .u8) 4)
      [8, 0, 0, 0, 100, 0, 0, 0]) >>= fun d => d.parse E
        (Serializable.list E (Serializable.uint .u8) 4) [8, 0, 0, 0, 100, 0, 0, 0] >>= fun d => .ok d)
      >>= fun d => _) = _
    rw [hT]
    simp only [Res.ok_bind, hT2]
    rfl
  refine ⟨twoLists_fitsW 32 (by decide), h, ?_⟩
  rw [C87_deserialize_partial 32 E _ _ (by decide) (by decide) (twoLists_fitsW 32 (by decide)) (by decide), h]
  rfl

/-- C87 is false of `usize`: what is written for one on a target with `b` bits is refused with 64. -/
theorem C87_usize_refuted (b : Nat) (hb : b < 64) (v : BitVec b) : ∃ x : Bytes,
    serialize (Serializable.usizeW b) v = .ok x ∧
    deserialize (Serializable.usizeW 64) x = .err (.expectedFurtherInput (b / 8) 8) := by
  refine ⟨leBytes (b / 8) v.toNat, ?_, ?_⟩
  · show Res.ok ([] ++ toLeBytes (b / 8) v.toNat) = _
    rw [toLeBytes_eq, List.nil_append]
  · unfold deserialize Serializable.usizeW
    have h : bitsToBytes 64 = 8 := rfl
    simp only [leBytes_length, h]
    rw [if_pos (by omega)]

theorem fromLeBytes_append : ∀ x y : Bytes,
    fromLeBytes (x ++ y) = fromLeBytes x + 256 ^ x.length * fromLeBytes y
  | [], y => by simp [fromLeBytes]
  | a :: x, y => by
    rw [List.cons_append, fromLeBytes, fromLeBytes_append x y, fromLeBytes, List.length_cons, Nat.pow_succ, Nat.mul_add,
      ← Nat.mul_assoc, Nat.mul_comm (256 ^ x.length) 256, Nat.add_assoc]

theorem u32_pair {n : Nat} (v w : BitVec 32) :
    enc (.list (.uint .u32) n) ([v, w] : List (BitVec 32)) = leBytes 4 v.toNat ++ leBytes 4 w.toNat := by
  show assemble ([leBytes 4 v.toNat, leBytes 4 w.toNat].map fun p => (false, p)) = _
  rw [assemble_map_false]
  simp

theorem u64_pair {n : Nat} (v w : BitVec 32) :
    enc (.list (.uint .u64) n) ([BitVec.ofNat 64 (v.toNat + 2 ^ 32 * w.toNat)] : List (BitVec 64)) =
      leBytes 4 v.toNat ++ leBytes 4 w.toNat := by
  have h := leBytes_fromLeBytes (leBytes 4 v.toNat ++ leBytes 4 w.toNat)
  have hv := v.isLt
  have hw := w.isLt
  rw [fromLeBytes_append, fromLeBytes_leBytes, fromLeBytes_leBytes, List.length_append, leBytes_length,
    leBytes_length, Nat.mod_eq_of_lt (by omega), Nat.mod_eq_of_lt (by omega)] at h
  show assemble ([leBytes 8 (BitVec.ofNat 64 (v.toNat + 2 ^ 32 * w.toNat)).toNat].map fun p => (false, p)) = _
  rw [assemble_map_false, BitVec.toNat_ofNat, Nat.mod_eq_of_lt (by omega)]
  simpa using h

/-- C87 is false of collections of `usize`: two elements written on a target with 32 bits are read as
one element with 64. -/
theorem C87_usize_list_refuted (E : Env) (n : Nat) (hn : 2 ≤ n) (hn' : n < 2 ^ 32) (v w : BitVec 32) :
    ∃ x : Bytes,
      serialize (Serializable.listW 32 E (Serializable.usizeW 32) n) [v, w] = .ok x ∧
      deserialize (Serializable.listW 64 E (Serializable.usizeW 64) n) x =
        .ok [BitVec.ofNat 64 (v.toNat + 2 ^ 32 * w.toNat)] := by
  have hs : (leBytes 4 v.toNat ++ leBytes 4 w.toNat).length = 8 := by simp [leBytes_length]
  refine ⟨leBytes 4 v.toNat ++ leBytes 4 w.toNat, ?_, ?_⟩
  · rw [← u32_pair (n := n)] at hs ⊢
    exact C87_encoding_partial 32 E (.list (.uint .u32) n) [v, w] (by decide) (by decide) trivial
      ⟨UintTy.noConfusion, hn'⟩ ⟨hn, fun _ _ => trivial⟩ (Nat.lt_of_le_of_lt (Nat.le_of_eq hs) (by decide))
  · rw [← u64_pair (n := n)] at hs ⊢
    have hf : FitsW 64 (.list (.uint .u64) n) := ⟨UintTy.noConfusion, by omega⟩
    have h1 := (codeW_agrees E (by decide) (by decide) (.list (.uint .u64) n) hf).de
      (enc (.list (.uint .u64) n) ([BitVec.ofNat 64 (v.toNat + 2 ^ 32 * w.toNat)] : List (BitVec 64))) (by omega)
    have h2 := de_enc E (.list (.uint .u64) n)
      ([BitVec.ofNat 64 (v.toNat + 2 ^ 32 * w.toNat)] : List (BitVec 64)) trivial
      (fits_of_fitsW (by decide) (by decide) _ hf) ⟨(show 1 ≤ n by omega), fun _ _ => trivial⟩
      (small_of_length _ _ (Nat.lt_of_le_of_lt (Nat.le_of_eq hs) (by decide)))
    exact h1.trans (congrArg (red 64) h2)

/-- C87 is false of a list of vectors of `2^b` bytes (`List<Vector<u64, 2^(b-3)>, n>`): on a target with `b`
bits decoding panics on all inputs, also on the encoding of the empty list. -/
theorem C87_size_refuted (b : Nat) (hb : 32 ≤ b) (hb' : b ≤ 62) (E : Env) (n : Nat) :
    Legal (.list (.vector (.uint .u64) (2 ^ (b - 3))) n) ∧
    Fits (.list (.vector (.uint .u64) (2 ^ (b - 3))) n) ∧
    deserialize ((Ty.list (.vector (.uint .u64) (2 ^ (b - 3))) n).impl E).toSerializable [] =
      .ok ([] : List (List (BitVec 64))) ∧
    ∀ x : Bytes, deserialize ((Ty.list (.vector (.uint .u64) (2 ^ (b - 3))) n).codeW b E) x = .panic := by
  have h8 : 8 * 2 ^ (b - 3) = 2 ^ b := (pows hb (by omega)).2.1.symm
  have h62 : 2 ^ b ≤ 2 ^ 62 := Nat.pow_le_pow_right (by decide) hb'
  have hl : Legal (.list (.vector (.uint .u64) (2 ^ (b - 3))) n) := by
    exact ⟨Nat.two_pow_pos _, trivial⟩
  have hf : Fits (.list (.vector (.uint .u64) (2 ^ (b - 3))) n) := by
    refine ⟨trivial, ?_⟩
    show 8 * 2 ^ (b - 3) < 2 ^ 63
    omega
  refine ⟨hl, hf, ?_, fun x => ?_⟩
  · exact de_enc E (.list (.vector (.uint .u64) (2 ^ (b - 3))) n) ([] : List (List (BitVec 64))) hl hf
      ⟨Nat.zero_le _, fun _ h => by cases h⟩ (small_of_length _ _ (show ([] : Bytes).length < _ by decide))
  · show (checkListLengthW b E (Serializable.vectorW b E (Serializable.uint .u64) (2 ^ (b - 3))) x >>= _) = _
    have hs : (Serializable.vectorW b E (Serializable.uint .u64) (2 ^ (b - 3))).sizeHint =
        if E.debug then .panic else .ok 0 := by
      show (E.on b).mul 8 (2 ^ (b - 3)) = _
      unfold Target.mul
      rw [h8, if_neg (Nat.lt_irrefl _), Nat.mod_self]
    unfold checkListLengthW
    rw [if_neg (by rintro ⟨⟩), hs]
    split <;> rfl

/-- C87 is false of a `Bitlist` of more than `usize::MAX / 8` bits: decoding panics on the encoding of a
list that is longer. -/
theorem C87_bitlist_refuted (b : Nat) (hb : 32 ≤ b) (hb' : b ≤ 63) (E : Env) (n : Nat)
    (hn : 2 ^ (b - 3) + 8 ≤ n) (hn' : n + 8 < 2 ^ b) :
    ∃ (x : Bytes) (v : Bits), x.length = 2 ^ (b - 6) + 2 ∧
      deserialize ((Ty.bitlist n).impl E).toSerializable x = .ok v ∧
      deserialize ((Ty.bitlist n).codeW b E) x = .panic := by
  obtain ⟨p1, p3, p6, p4, p2⟩ := pows hb (by omega : b ≤ 64)
  have hl : (List.replicate (2 ^ (b - 6) + 1) (0 : Byte) ++ [1]).length = 2 ^ (b - 6) + 2 := by simp
  have h1 : bitlistByteLengthW b E n = .ok ((n + 8) / 8) := by
    unfold bitlistByteLengthW
    rw [addW_ok (by omega), Res.ok_bind, subW_ok (by omega), Res.ok_bind, addW_ok (by omega), Res.ok_bind]
    congr 2
  have h2 : bitlistByteLength E n = .ok ((n + 8) / 8) := by
    unfold bitlistByteLength
    rw [Env.add_eq_ok (by rw [← pow64]; omega), Res.ok_bind, Env.sub_eq_ok (by omega), Res.ok_bind,
      Env.add_eq_ok (by rw [← pow64]; omega), Res.ok_bind]
    congr 2
  have ht : (Bits.fromBytes [1]).trailingZeros = 7 := by decide +kernel
  refine ⟨List.replicate (2 ^ (b - 6) + 1) 0 ++ [1],
    (Bits.fromBytes (List.replicate (2 ^ (b - 6) + 1) 0)).extend [], hl, ?_, ?_⟩
  · show Bitlist.deserialize E n (List.replicate (2 ^ (b - 6) + 1) 0 ++ [1]) = _
    unfold Bitlist.deserialize
    rw [List.getLast?_concat, hl, List.dropLast_concat]
    dsimp only
    rw [h2]
    simp only [Res.lift_ok, Res.ok_bind, ht]
    rw [if_neg (by omega), if_neg (by decide), Env.sub_eq_ok (by decide)]
    simp only [Res.lift_ok, Res.ok_bind]
    rw [Env.sub_eq_ok (by decide)]
    simp only [Res.lift_ok, Res.ok_bind]
    rw [bits_fromBytes_len, List.length_replicate, if_neg (by omega)]
    rfl
  · show Bitlist.deserializeW b E n (List.replicate (2 ^ (b - 6) + 1) 0 ++ [1]) = _
    unfold Bitlist.deserializeW
    rw [List.getLast?_concat, hl, List.dropLast_concat]
    dsimp only
    rw [h1]
    simp only [Res.lift_ok, Res.ok_bind]
    rw [if_neg (by omega), if_neg (by decide), bitsFromSliceW, if_neg (by simp)]
    rfl

end Ssz
