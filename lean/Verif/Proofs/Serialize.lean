import Verif.Proofs.Bits

/-!
# `serialize` yields the specified encoding
-/

namespace Ssz

open Spec

/-! ## Sizes -/

mutual

theorem impl_isVar (E : Env) : ∀ t : Ty, (t.impl E).isVariableSize = isVar t
  | .uint _ => rfl
  | .u256 => rfl
  | .bool => rfl
  | .node => rfl
  | .array t _ => impl_isVar E t
  | .vector t _ => impl_isVar E t
  | .list _ _ => rfl
  | .bitvector _ => rfl
  | .bitlist _ => rfl
  | .option _ => rfl
  | .newtype t => impl_isVar E t
  | .container fs => impls_isVar E fs
  | .union _ => rfl

theorem impls_isVar (E : Env) : ∀ fs : Fields, (fs.impls E).isVariableSize = isVarF fs
  | .nil => rfl
  | .cons _ t rest => by
    show ((t.impl E).isVariableSize || (rest.impls E).isVariableSize) = _
    rw [impl_isVar E t, impls_isVar E rest]; rfl

end

theorem fixedLen_of_isVar : ∀ t : Ty, isVar t = true → fixedLen t = 0
  | .uint _, h => by simp [isVar] at h
  | .u256, h => by simp [isVar] at h
  | .bool, h => by simp [isVar] at h
  | .node, h => by simp [isVar] at h
  | .array t n, h => by
    simp only [isVar] at h
    simp [fixedLen, fixedLen_of_isVar t h]
  | .vector t n, h => by
    simp only [isVar] at h
    simp [fixedLen, fixedLen_of_isVar t h]
  | .list _ _, _ => rfl
  | .bitvector _, h => by simp [isVar] at h
  | .bitlist _, _ => rfl
  | .option _, _ => rfl
  | .newtype t, h => fixedLen_of_isVar t h
  | .container fs, h => by
    simp only [isVar] at h
    simp [fixedLen, h]
  | .union _, _ => rfl

theorem pow64 : (2 : Nat) ^ 64 = usizeMod := rfl

mutual

theorem impl_sizeHint (E : Env) : ∀ t : Ty, Fits t → (t.impl E).sizeHint = .ok (fixedLen t)
  | .uint _, _ => rfl
  | .u256, _ => rfl
  | .bool, _ => rfl
  | .node, _ => rfl
  | .array t n, h => by
    obtain ⟨h1, h2⟩ := h
    show ((t.impl E).sizeHint >>= fun s => E.mul s n) = _
    rw [impl_sizeHint E t h1]
    exact Env.mul_eq_ok (Nat.lt_trans h2 (by decide))
  | .vector t n, h => by
    obtain ⟨h1, h2⟩ := h
    show ((t.impl E).sizeHint >>= fun s => E.mul s n) = _
    rw [impl_sizeHint E t h1]
    exact Env.mul_eq_ok (Nat.lt_trans h2 (by decide))
  | .list _ _, _ => rfl
  | .bitvector _, _ => rfl
  | .bitlist _, _ => rfl
  | .option _, _ => rfl
  | .newtype t, h => by
    show (if (t.impl E).isVariableSize then .ok 0 else (t.impl E).sizeHint) = _
    rw [impl_isVar, impl_sizeHint E t h]
    split
    · rename_i hv; rw [fixedLen, fixedLen_of_isVar t hv]
    · rfl
  | .container fs, h => by
    obtain ⟨h1, h2⟩ := h
    show (if (fs.impls E).isVariableSize then .ok 0 else (fs.impls E).sizeHintSum E 0) = _
    rw [impls_isVar, fixedLen]
    split
    · rfl
    · rename_i hv
      rw [impls_sizeHint E fs h1 (by simpa using hv) 0 (by omega), Nat.zero_add]
  | .union _, _ => rfl

theorem impls_sizeHint (E : Env) : ∀ fs : Fields, FitsF fs → isVarF fs = false → ∀ acc,
    acc + fixedLenF fs < 2 ^ 64 → (fs.impls E).sizeHintSum E acc = .ok (acc + fixedLenF fs)
  | .nil, _, _, _, _ => rfl
  | .cons _ t rest, h, hv, acc, hlt => by
    obtain ⟨h1, h2⟩ := h
    simp only [isVarF, Bool.or_eq_false_iff] at hv
    simp only [fixedLenF, hv.1, Bool.false_eq_true, if_false] at hlt ⊢
    show ((t.impl E).sizeHint >>= fun s => E.add acc s >>= fun acc' =>
      (rest.impls E).sizeHintSum E acc') = _
    rw [impl_sizeHint E t h1]
    simp only [Res.ok_bind]
    rw [Env.add_eq_ok (by rw [← pow64]; omega)]
    simp only [Res.ok_bind]
    rw [impls_sizeHint E rest h2 hv.2 _ (by omega), Nat.add_assoc]

end

theorem fixedLen_lt : ∀ t : Ty, Fits t → fixedLen t < 2 ^ 63
  | .uint u, _ => by cases u <;> decide
  | .u256, _ => by decide
  | .bool, _ => by decide
  | .node, _ => by decide
  | .array _ _, h => h.2
  | .vector _ _, h => h.2
  | .list _ _, _ => Nat.two_pow_pos 63
  | .bitvector n, h => by
    have h : n < 2 ^ 64 := h
    show (n + 7) / 8 < 2 ^ 63
    omega
  | .bitlist _, _ => Nat.two_pow_pos 63
  | .option _, _ => Nat.two_pow_pos 63
  | .newtype t, h => fixedLen_lt t h
  | .container fs, h => by
    have := h.2
    rw [fixedLen]
    split <;> omega
  | .union _, _ => Nat.two_pow_pos 63

/-- `Vec::with_capacity(T::size_hint())` does not panic. -/
def HasCapacity {α : Type} (T : Serializable α) : Prop :=
  ∃ s, T.sizeHint = .ok s ∧ s < isizeMax1

theorem impl_capacity (E : Env) (t : Ty) (h : Fits t) :
    HasCapacity (t.impl E).toSerializable :=
  ⟨_, impl_sizeHint E t h, fixedLen_lt t h⟩

theorem withCapacity_ok {ε : Type} {n : Nat} (h : n < isizeMax1) :
    (withCapacity n : Res ε Unit) = .ok () := by
  simp [withCapacity, h]

/-! ## The `Serializer` -/

/-- `serialize` succeeds, appends `bytes` and returns their number. -/
def SerOk {α : Type} (T : Serializable α) (v : α) (bytes : Bytes) : Prop :=
  ∀ buf, T.serialize v buf = (buf ++ bytes, .ok bytes.length)

/-- The state of the `Serializer` after adding some pieces. -/
def Serializer.ofPieces (ps : List Piece) : Serializer where
  parts := ps.map fun p => if p.1 then .offset p.2.length else .fixed p.2
  variablePart := tails ps
  fixedLengthsSum := headLen ps
  variableLengthsSum := (tails ps).length

theorem headLen_append (ps qs : List Piece) : headLen (ps ++ qs) = headLen ps + headLen qs := by
  simp [headLen]

theorem tails_append (ps qs : List Piece) : tails (ps ++ qs) = tails ps ++ tails qs := by
  simp [tails]

theorem Serializer.withElement_ofPieces {α : Type} {T : Serializable α} {x : α} {bytes : Bytes}
    (hs : HasCapacity T) (h : SerOk T x bytes) (ps : List Piece) :
    (Serializer.ofPieces ps).withElement T x =
      .ok (Serializer.ofPieces (ps ++ [(T.isVariableSize, bytes)])) := by
  obtain ⟨s, hs, hc⟩ := hs
  have h0 := h []
  simp only [List.nil_append] at h0
  simp only [Serializer.withElement, hs, Res.lift_ok, Res.ok_bind, withCapacity_ok hc, h0]
  cases hv : T.isVariableSize with
  | true =>
    simp [Serializer.ofPieces, headLen, headSize, tails]
  | false =>
    simp [Serializer.ofPieces, headLen, headSize, tails]

theorem Serializer.withElements_ofPieces {α : Type} {T : Serializable α} {f : α → Bytes}
    (hs : HasCapacity T) {xs : List α} (h : ∀ x ∈ xs, SerOk T x (f x))
    (ps : List Piece) :
    (Serializer.ofPieces ps).withElements T xs =
      .ok (Serializer.ofPieces (ps ++ xs.map fun x => (T.isVariableSize, f x))) := by
  induction xs generalizing ps with
  | nil => simp [Serializer.withElements]
  | cons x xs ih =>
    simp only [Serializer.withElements]
    rw [Serializer.withElement_ofPieces hs (h x (by simp))]
    simp only [Res.ok_bind]
    rw [ih (fun y hy => h y (by simp [hy]))]
    simp

theorem heads_length (off : Nat) (ps : List Piece) : (heads off ps).length = headLen ps := by
  induction ps generalizing off with
  | nil => rfl
  | cons p ps ih =>
    obtain ⟨v, b⟩ := p
    cases v <;> simp [heads, headLen, headSize, ih]

theorem assemble_length (ps : List Piece) :
    (assemble ps).length = headLen ps + (tails ps).length := by
  simp [assemble, heads_length]

theorem uint_serialize (u : UintTy) (v : BitVec u.bits) (buf : Bytes) :
    (Serializable.uint u).serialize v buf =
      (buf ++ leBytes (u.bits / 8) v.toNat, .ok (u.bits / 8)) := by
  simp only [Serializable.uint]
  rw [BufM.bind_ok (BufM.append_apply _ _), toLeBytes_eq]
  rfl

theorem writeParts_ofPieces (E : Env) (ps : List Piece) (off : Nat) (buf : Bytes)
    (h : off + (tails ps).length < u32Mod) :
    writeParts E off (Serializer.ofPieces ps).parts buf = (buf ++ heads off ps, .ok ()) := by
  induction ps generalizing off buf with
  | nil => simp [Serializer.ofPieces, writeParts, heads]
  | cons p ps ih =>
    obtain ⟨v, b⟩ := p
    have hp : ∀ qs : List Piece, (Serializer.ofPieces qs).parts =
      qs.map fun p => if p.1 then .offset p.2.length else .fixed p.2 := fun _ => rfl
    rw [hp] at ih ⊢
    cases v with
    | false =>
      simp only [List.map_cons, Bool.false_eq_true, if_false, writeParts]
      rw [BufM.bind_ok (BufM.append_apply _ _), ih]
      · simp [heads]
      · simpa [tails] using h
    | true =>
      simp only [tails, List.flatMap_cons, if_true, List.length_append] at h
      simp only [List.map_cons, if_true, writeParts]
      rw [BufM.bind_ok (uint_serialize .u32 _ _)]
      have hlt : off < 2 ^ 32 := by simp only [u32Mod] at h; omega
      simp only [UintTy.bits, Nat.reduceDiv, BEq.rfl, Env.debugAssert_true, Res.lift_ok,
        BufM.ofRes_ok_bind]
      have hn : b.length % u32Mod = b.length := Nat.mod_eq_of_lt (by omega)
      have hadd : E.add32 off (b.length % u32Mod) = .ok (off + b.length) := by
        rw [hn, Env.add32, if_pos (by omega)]
      rw [hadd]
      simp only [Res.lift_ok, BufM.ofRes_ok_bind]
      rw [ih _ _ (by simp only [tails]; omega)]
      simp [heads, Nat.mod_eq_of_lt hlt]

theorem Serializer.serialize_ofPieces (E : Env) (ps : List Piece)
    (h : (assemble ps).length < maxLen) (buf : Bytes) :
    (Serializer.ofPieces ps).serialize E buf =
      (buf ++ assemble ps, .ok (assemble ps).length) := by
  have hl := assemble_length ps
  have hm : maxLen = maximumLength := rfl
  have hm2 : maxLen = u32Mod := rfl
  have hnot : ¬ (Serializer.ofPieces ps).fixedLengthsSum +
      (Serializer.ofPieces ps).variableLengthsSum ≥ maximumLength := by
    simp only [Serializer.ofPieces]; omega
  simp only [Serializer.serialize, hnot, if_false]
  have hmod : (Serializer.ofPieces ps).fixedLengthsSum % u32Mod = headLen ps := by
    simp only [Serializer.ofPieces]
    exact Nat.mod_eq_of_lt (by omega)
  rw [hmod, BufM.bind_ok (writeParts_ofPieces E ps _ _ (by omega)),
    BufM.bind_ok (BufM.append_apply _ _)]
  simp only [Serializer.ofPieces, assemble, List.append_assoc, BufM.ofRes_apply, heads_length,
    List.length_append]

theorem Serializer.serialize_ofPieces_err (E : Env) (ps : List Piece)
    (h : ¬ (assemble ps).length < maxLen) (buf : Bytes) :
    (Serializer.ofPieces ps).serialize E buf =
      (buf, .err (.maximumEncodedLengthReached (assemble ps).length)) := by
  have hl := assemble_length ps
  have hm : maxLen = maximumLength := rfl
  have hyes : (Serializer.ofPieces ps).fixedLengthsSum +
      (Serializer.ofPieces ps).variableLengthsSum ≥ maximumLength := by
    simp only [Serializer.ofPieces]; omega
  simp only [Serializer.serialize, hyes, if_true, BufM.ofRes_apply]
  simp only [Serializer.ofPieces, hl]

/-! ## Lengths of encodings of fixed-size types -/

theorem tails_fixed (ps : List Piece) (h : ∀ p ∈ ps, p.1 = false) : tails ps = [] := by
  induction ps with
  | nil => rfl
  | cons p ps ih =>
    simp only [tails, List.flatMap_cons] at ih ⊢
    rw [ih (fun q hq => h q (by simp [hq])), h p (by simp)]
    rfl

theorem heads_fixed (off : Nat) (ps : List Piece) (h : ∀ p ∈ ps, p.1 = false) :
    heads off ps = ps.flatMap (·.2) := by
  induction ps generalizing off with
  | nil => rfl
  | cons p ps ih =>
    obtain ⟨v, b⟩ := p
    have : v = false := h (v, b) (by simp)
    subst this
    simp [heads, ih off (fun q hq => h q (by simp [hq]))]

/-- The encoding of a composite of fixed-size pieces is their concatenation. -/
theorem assemble_fixed (ps : List Piece) (h : ∀ p ∈ ps, p.1 = false) :
    assemble ps = ps.flatMap (·.2) := by
  rw [assemble, heads_fixed _ _ h, tails_fixed _ h, List.append_nil]

theorem flatMap_length_const {α : Type} (xs : List α) (f : α → Bytes) (k : Nat)
    (h : ∀ x ∈ xs, (f x).length = k) : (xs.flatMap f).length = k * xs.length := by
  induction xs with
  | nil => rfl
  | cons x xs ih =>
    simp only [List.flatMap_cons, List.length_append, List.length_cons]
    rw [ih (fun y hy => h y (by simp [hy])), h x (by simp), Nat.mul_succ]; omega

theorem assemble_map_fixed {α : Type} (xs : List α) (f : α → Bytes) (k : Nat)
    (h : ∀ x ∈ xs, (f x).length = k) :
    (assemble (xs.map fun x => (false, f x))).length = k * xs.length := by
  rw [assemble_fixed _ (by simp)]
  rw [List.flatMap_map]
  exact flatMap_length_const xs _ k h

mutual

theorem enc_length : ∀ (t : Ty) (v : t.Val), isVar t = false → Valid t v →
    (enc t v).length = fixedLen t
  | .uint _, _, _, _ => by simp [enc, fixedLen]
  | .u256, _, _, _ => by simp [enc, fixedLen]
  | .bool, _, _, _ => rfl
  | .node, v, _, _ => v.2
  | .array t n, v, hv, h => by
    simp only [isVar] at hv
    simp only [enc, fixedLen, hv]
    rw [assemble_map_fixed v.1 _ (fixedLen t) (fun x hx => enc_length t x hv (h x hx)), v.2]
  | .vector t n, v, hv, h => by
    simp only [isVar] at hv
    simp only [enc, fixedLen, hv]
    rw [assemble_map_fixed v _ (fixedLen t) (fun x hx => enc_length t x hv (h.2 x hx)), h.1]
  | .list _ _, _, hv, _ => by simp [isVar] at hv
  | .bitvector n, v, _, h => by
    simp only [enc, fixedLen]
    rw [packBits_length]
    simp only [Valid] at h
    rw [h]
  | .bitlist _, _, hv, _ => by simp [isVar] at hv
  | .option _, _, hv, _ => by simp [isVar] at hv
  | .newtype t, v, hv, h => enc_length t v hv h
  | .container fs, v, hv, h => by
    simp only [isVar] at hv
    simp only [enc, fixedLen, hv, Bool.false_eq_true, if_false]
    rw [assemble_length, (piecesF_length fs v h).1, (piecesF_length fs v h).2 hv]
    rfl
  | .union _, _, hv, _ => by simp [isVar] at hv

theorem piecesF_length : ∀ (fs : Fields) (v : fs.Val), ValidF fs v →
    headLen (piecesF fs v) = fixedLenF fs ∧ (isVarF fs = false → tails (piecesF fs v) = [])
  | .nil, _, _ => ⟨rfl, fun _ => rfl⟩
  | .cons _ t rest, v, h => by
    obtain ⟨h1, h2⟩ := h
    obtain ⟨i1, i2⟩ := piecesF_length rest v.2 h2
    constructor
    · simp only [piecesF, headLen, List.map_cons, List.sum_cons, fixedLenF, headSize] at i1 ⊢
      rw [i1]
      congr 1
      split
      · rfl
      · rename_i hv
        exact enc_length t v.1 (by simpa using hv) h1
    · intro hv
      simp only [isVarF, Bool.or_eq_false_iff] at hv
      have := i2 hv.2
      simp only [piecesF, tails, List.flatMap_cons, hv.1] at this ⊢
      rw [this]; rfl

end

/-! ## Main theorem -/

theorem selector_ser {α : Type} {T : Serializable α} {v : α} {bytes : Bytes} (i : Nat)
    (h : SerOk T v bytes) (buf : Bytes) :
    serializeWithSelector T i v buf =
      (buf ++ BitVec.ofNat 8 i :: bytes, .ok (bytes.length + 1)) := by
  simp only [serializeWithSelector]
  rw [BufM.bind_ok (uint_serialize .u8 _ _), BufM.bind_ok (h _)]
  simp only [BufM.ofRes_apply, UintTy.bits, Nat.reduceDiv]
  have : leBytes 1 (BitVec.ofNat 8 i).toNat = [BitVec.ofNat 8 i] := by
    rw [leBytes_succ]; simp [ofNat_mod_256]
  rw [this, Nat.add_comm]
  simp

mutual

/-- A legal value is serialized to its specified encoding. -/
theorem impl_serialize (E : Env) : ∀ (t : Ty) (v : t.Val), Legal t → Fits t → Valid t v →
    Small t v → SerOk (t.impl E).toSerializable v (enc t v)
  | .uint u, v, _, _, _, _ => fun buf => by
    show (Serializable.uint u).serialize v buf = _
    rw [uint_serialize u v buf]
    simp only [enc, leBytes_length]
  | .u256, v, _, _, _, _ => fun buf => by
    show SimpleSerialize.u256.serialize v buf = _
    simp only [SimpleSerialize.u256]
    rw [BufM.bind_ok (BufM.append_apply _ _), toLeBytes_eq]
    simp [enc]
  | .bool, v, _, _, _, _ => fun buf => by
    show SimpleSerialize.bool.serialize v buf = _
    simp only [SimpleSerialize.bool]
    rw [BufM.bind_ok (BufM.append_apply _ _)]
    cases v <;> rfl
  | .node, v, _, _, _, _ => fun buf => by
    show SimpleSerialize.node.serialize v buf = _
    simp only [SimpleSerialize.node]
    rw [BufM.bind_ok (BufM.append_apply _ _)]
    simp [enc, v.2]
  | .array t n, v, hl, hf, hv, hs => fun buf => by
    have h0 : n ≠ 0 := by have := hl.1; omega
    show (Serializable.array E (t.impl E).toSerializable n).serialize v buf = _
    simp only [Serializable.array, h0, if_false]
    have := Serializer.withElements_ofPieces (T := (t.impl E).toSerializable) (f := enc t)
      (impl_capacity E t hf.1) (xs := v.1)
      (fun x hx => impl_serialize E t x hl.2 hf.1 (hv x hx) (hs.2 x hx)) []
    rw [show ({} : Serializer) = Serializer.ofPieces [] from rfl, this]
    simp only [List.nil_append, impl_isVar, BufM.ofRes_ok_bind]
    exact Serializer.serialize_ofPieces E _ hs.1 buf
  | .vector t n, v, hl, hf, hv, hs => fun buf => by
    have h0 : n ≠ 0 := by have := hl.1; omega
    show (Serializable.vector E (t.impl E).toSerializable n).serialize v buf = _
    simp only [Serializable.vector, h0, if_false]
    have := Serializer.withElements_ofPieces (T := (t.impl E).toSerializable) (f := enc t)
      (impl_capacity E t hf.1) (xs := v)
      (fun x hx => impl_serialize E t x hl.2 hf.1 (hv.2 x hx) (hs.2 x hx)) []
    rw [show ({} : Serializer) = Serializer.ofPieces [] from rfl, this]
    simp only [List.nil_append, impl_isVar, BufM.ofRes_ok_bind]
    exact Serializer.serialize_ofPieces E _ hs.1 buf
  | .list t n, v, hl, hf, hv, hs => fun buf => by
    have h0 : ¬ List.length v > n := by have := hv.1; omega
    show (Serializable.list E (t.impl E).toSerializable n).serialize v buf = _
    simp only [Serializable.list, h0, if_false]
    have := Serializer.withElements_ofPieces (T := (t.impl E).toSerializable) (f := enc t)
      (impl_capacity E t hf) (xs := v)
      (fun x hx => impl_serialize E t x hl hf (hv.2 x hx) (hs.2 x hx)) []
    rw [show ({} : Serializer) = Serializer.ofPieces [] from rfl, this]
    simp only [List.nil_append, impl_isVar, BufM.ofRes_ok_bind]
    exact Serializer.serialize_ofPieces E _ hs.1 buf
  | .bitvector n, v, hl, _, hv, _ => fun buf => Bitvector.serialize_eq hl hv buf
  | .bitlist n, v, _, _, hv, _ => fun buf => Bitlist.serialize_eq hv.1 hv.2 buf
  | .option t, v, hl, hf, hv, hs => fun buf => by
    show (Serializable.option (t.impl E).toSerializable).serialize v buf = _
    cases (v : Option t.Val) with
    | none =>
      show (Serializable.uint .u8).serialize (0 : BitVec 8) buf = _
      rw [uint_serialize]; rfl
    | some x =>
      show serializeWithSelector (t.impl E).toSerializable 1 x buf = _
      rw [selector_ser 1 (impl_serialize E t x hl hf (hv x rfl) (hs x rfl))]
      rfl
  | .newtype t, v, hl, hf, hv, hs => impl_serialize E t v hl hf hv hs
  | .container fs, v, hl, hf, hv, hs => fun buf => by
    show (SimpleSerialize.container E (fs.impls E)).serialize v buf = _
    simp only [SimpleSerialize.container]
    rw [show ({} : Serializer) = Serializer.ofPieces [] from rfl,
      impls_withElements E fs v hl.2.2 hf.1 hv hs.2 []]
    simp only [List.nil_append, BufM.ofRes_ok_bind]
    exact Serializer.serialize_ofPieces E _ hs.1 buf
  | .union vs, v, hl, hf, hv, hs => fun buf =>
    impls_serializeV E vs v (by
      cases vs with
      | nil => exact hl.1.elim
      | unit rest => exact Or.inr ⟨rfl, hl.1.1⟩
      | data t rest => exact Or.inl hl.1.1) hl.2 hf hv hs buf

theorem impls_withElements (E : Env) : ∀ (fs : Fields) (v : fs.Val), LegalF fs → FitsF fs →
    ValidF fs v → SmallF fs v → ∀ ps, (fs.impls E).withElements v (Serializer.ofPieces ps) =
      .ok (Serializer.ofPieces (ps ++ piecesF fs v))
  | .nil, _, _, _, _, _, ps => by simp [Fields.impls, FieldImpls.withElements, piecesF]
  | .cons _ t rest, v, hl, hf, hv, hs, ps => by
    show ((Serializer.ofPieces ps).withElement (t.impl E).toSerializable v.1 >>= fun s' =>
      (rest.impls E).withElements v.2 s') = _
    rw [Serializer.withElement_ofPieces (impl_capacity E t hf.1)
      (impl_serialize E t v.1 hl.1 hf.1 hv.1 hs.1)]
    simp only [Res.ok_bind]
    rw [impls_withElements E rest v.2 hl.2 hf.2 hv.2 hs.2, impl_isVar]
    simp [piecesF]

theorem impls_serializeV (E : Env) : ∀ (vs : Variants) {i : Nat} (v : vs.Val),
    (noUnitV vs = true ∨ i = 0 ∧ noUnitV (match vs with | .unit r => r | .data _ r => r | .nil => .nil) = true) →
    LegalV vs → FitsV vs → ValidV vs v → SmallV vs v → ∀ buf,
    (vs.impls E).serialize i v buf = (buf ++ encV vs i v, .ok (encV vs i v).length)
  | .nil, _, v, _, _, _, _, _, _ => Empty.elim v
  | .unit rest, i, .inl _, hn, _, _, _, _, buf => by
    have hi : i = 0 := by
      rcases hn with h | h
      · simp [noUnitV] at h
      · exact h.1
    subst hi
    show (Serializable.uint .u8).serialize (0 : BitVec 8) buf = _
    rw [uint_serialize]; rfl
  | .unit rest, i, .inr v, hn, hl, hf, hv, hs, buf =>
    impls_serializeV E rest (i := i + 1) v (by
      rcases hn with h | h
      · simp [noUnitV] at h
      · exact Or.inl h.2) hl hf hv hs buf
  | .data t rest, i, .inl v, _, hl, hf, hv, hs, buf => by
    show serializeWithSelector (t.impl E).toSerializable i v buf = _
    rw [selector_ser i (impl_serialize E t v hl.1 hf.1 hv hs)]
    rfl
  | .data t rest, i, .inr v, hn, hl, hf, hv, hs, buf =>
    impls_serializeV E rest (i := i + 1) v (by
      rcases hn with h | h
      · exact Or.inl h
      · exact Or.inl h.2) hl.2 hf.2 hv hs buf

end

/-! ## A short encoding has only short parts -/

theorem piece_length_le {ps : List Piece} {p : Piece} (h : p ∈ ps) :
    p.2.length ≤ (assemble ps).length := by
  rw [assemble_length]
  induction ps with
  | nil => simp at h
  | cons q ps ih =>
    simp only [headLen, List.map_cons, List.sum_cons, tails, List.flatMap_cons,
      List.length_append] at ih ⊢
    rcases List.mem_cons.mp h with h | h
    · subst h
      obtain ⟨v, b⟩ := p
      cases v <;> simp [headSize] <;> omega
    · have := ih h; omega

mutual

theorem small_of_length : ∀ (t : Ty) (v : t.Val), (enc t v).length < maxLen → Small t v
  | .uint _, _, _ => trivial
  | .u256, _, _ => trivial
  | .bool, _, _ => trivial
  | .node, _, _ => trivial
  | .array t n, v, h => ⟨h, fun x hx => small_of_length t x (by
      simp only [enc] at h
      have := piece_length_le (p := (isVar t, enc t x)) (ps := v.1.map fun x => (isVar t, enc t x))
        (List.mem_map.mpr ⟨x, hx, rfl⟩)
      exact Nat.lt_of_le_of_lt this h)⟩
  | .vector t n, v, h => ⟨h, fun x hx => small_of_length t x (by
      simp only [enc] at h
      have := piece_length_le (p := (isVar t, enc t x))
        (ps := List.map (fun x => (isVar t, enc t x)) v) (List.mem_map.mpr ⟨x, hx, rfl⟩)
      exact Nat.lt_of_le_of_lt this h)⟩
  | .list t n, v, h => ⟨h, fun x hx => small_of_length t x (by
      simp only [enc] at h
      have := piece_length_le (p := (isVar t, enc t x))
        (ps := List.map (fun x => (isVar t, enc t x)) v) (List.mem_map.mpr ⟨x, hx, rfl⟩)
      exact Nat.lt_of_le_of_lt this h)⟩
  | .bitvector _, _, _ => trivial
  | .bitlist _, _, _ => trivial
  | .option t, v, h => fun x hx => small_of_length t x (by
      subst hx
      simp only [enc, List.length_cons] at h
      omega)
  | .newtype t, v, h => small_of_length t v h
  | .container fs, v, h => ⟨h, smallF_of_length fs v (fun p hp => by
      simp only [enc] at h
      have := piece_length_le hp
      omega)⟩
  | .union vs, v, h => smallV_of_length vs 0 v h

theorem smallF_of_length : ∀ (fs : Fields) (v : fs.Val),
    (∀ p ∈ piecesF fs v, p.2.length < maxLen) → SmallF fs v
  | .nil, _, _ => trivial
  | .cons _ t rest, v, h =>
    ⟨small_of_length t v.1 (h (isVar t, enc t v.1) (by simp [piecesF])),
      smallF_of_length rest v.2 (fun p hp => h p (by simp [piecesF, hp]))⟩

theorem smallV_of_length : ∀ (vs : Variants) (i : Nat) (v : vs.Val),
    (encV vs i v).length < maxLen → SmallV vs v
  | .nil, _, _, _ => trivial
  | .unit _, _, .inl _, _ => trivial
  | .unit rest, i, .inr v, h => smallV_of_length rest (i + 1) v h
  | .data t _, i, .inl v, h => small_of_length t v (by
      simp only [encV, List.length_cons] at h; omega)
  | .data _ rest, i, .inr v, h => smallV_of_length rest (i + 1) v h

end

end Ssz
