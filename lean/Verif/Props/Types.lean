import Verif.Proofs.Facts
import Verif.Props.Demo

/-!
# Properties C15, C16, C18, C21, C23: single types
-/

namespace Ssz

open Spec

/-! ## C15 -/

/-- The variants of `enum { None, Some(T) }`. -/
def optionVariants (t : Ty) : Variants := .unit (.data t .nil)

/-- `None` and `Some(x)` as values of that enum. -/
def toUnion (t : Ty) : Option t.Val → (optionVariants t).Val
  | none => .inl ()
  | some x => .inr (.inl x)

theorem toUnion_bijective (t : Ty) : Function.Bijective (toUnion t) := by
  constructor
  · intro a b h
    cases a with
    | none => cases b with
      | none => rfl
      | some y => exact nomatch h
    | some x => cases b with
      | none => exact nomatch h
      | some y => exact congrArg some (Sum.inl.inj (Sum.inr.inj h))
  · intro b
    rcases b with u | b | e
    · exact ⟨none, rfl⟩
    · exact ⟨some b, rfl⟩
    · exact Empty.elim e

/-- C15, encoding: same effect on every buffer, same result, for all values. -/
theorem C15_option_encode (E : Env) (t : Ty) (v : Option t.Val) (buf : Bytes) :
    ((Ty.option t).impl E).serialize v buf =
      ((Ty.union (optionVariants t)).impl E).serialize (toUnion t v) buf := by
  cases v <;> rfl

/-- C15, decoding: both accept the same inputs, with corresponding values, and fail in the same way
on all others. -/
theorem C15_option_decode (E : Env) (t : Ty) (b : Bytes) :
    (deserialize ((Ty.option t).impl E).toSerializable b).map (toUnion t) =
      deserialize ((Ty.union (optionVariants t)).impl E).toSerializable b := by
  cases b with
  | nil => rfl
  | cons x rest =>
    show ((if x = 0 then
        if (x :: rest).length ≠ 1 then Res.err (.additionalInput (x :: rest).length 1) else .ok none
      else if x = 1 then ((t.impl E).deserialize rest >>= fun inner => .ok (some inner))
      else .err (.invalidByte x) : Res DeError (Option t.Val)).map (toUnion t)) =
      (if x = 0 then
        if (x :: rest).length ≠ 1 then Res.err (.additionalInput (x :: rest).length 1)
        else .ok (Sum.inl ())
      else ((if x = 1 then ((t.impl E).deserialize rest).map Sum.inl
        else (Res.err (.invalidByte x) : Res DeError Empty).map Sum.inr :
          Res DeError (t.Val ⊕ Empty))).map Sum.inr)
    split
    · split <;> rfl
    · split
      · cases (t.impl E).deserialize rest <;> rfl
      · rfl

/-- C15, hash tree root. -/
theorem C15_option_root (E : Env) (t : Ty) (v : Option t.Val) :
    ((Ty.option t).impl E).hashTreeRoot v =
      ((Ty.union (optionVariants t)).impl E).hashTreeRoot (toUnion t v) := by
  cases v with
  | none => rfl
  | some x =>
    show ((((t.impl E).hashTreeRoot x).map (·.1) >>= fun bytes => toNode bytes >>= fun chunks =>
      mixInDecoration E chunks 1)) = ((t.impl E).hashTreeRoot x >>= fun chunks =>
      mixInDecoration E chunks 1)
    cases h : (t.impl E).hashTreeRoot x with
    | ok n =>
      show (toNode n.1 >>= fun chunks => mixInDecoration E chunks 1) = mixInDecoration E n 1
      rw [toNode, dif_pos n.2]
      rfl
    | err e => rfl
    | panic => rfl

/-- C15, generalized indices. -/
theorem C15_option_generalized_index (E : Env) (t : Ty) (path : List PathElement) :
    generalizedIndex ((Ty.option t).impl E) path =
      generalizedIndex ((Ty.union (optionVariants t)).impl E) path := by
  unfold generalizedIndex
  match path with
  | [] => rfl
  | .field _ :: _ => rfl
  | .length :: _ => rfl
  | .selector :: _ => rfl
  | .index i :: rest =>
    match i with
    | 0 => rfl
    | 1 => rfl
    | i + 2 => rfl

/-! ## C16 -/

/-- C16, encoding. -/
theorem C16_array_encode (E : Env) (t : Ty) (n : Nat) (v : { l : List t.Val // l.length = n })
    (buf : Bytes) :
    ((Ty.array t n).impl E).serialize v buf = ((Ty.vector t n).impl E).serialize v.1 buf := rfl

/-- C16, decoding: the same inputs are accepted with the same elements, and the errors are the
same. -/
theorem C16_array_decode (E : Env) (t : Ty) (n : Nat) (b : Bytes) :
    (deserialize ((Ty.array t n).impl E).toSerializable b).map
        (fun v : { l : List t.Val // l.length = n } => v.1) =
      deserialize ((Ty.vector t n).impl E).toSerializable b := by
  show ((if n = 0 then Res.err (DeError.invalidType (.invalidBound n))
    else (checkVectorLength E (t.impl E).toSerializable n b >>= fun _ =>
      deserializeHomogeneousComposite E (t.impl E).toSerializable b >>= fun elements =>
      if h : elements.length = n then Res.ok (⟨elements, h⟩ : { l : List t.Val // l.length = n })
      else .err (.invalidInstance (.exact n elements.length)))).map (fun v => v.1)) =
    (Serializable.vector E (t.impl E).toSerializable n).deserialize b
  simp only [Serializable.vector]
  by_cases h0 : n = 0
  · simp only [h0, if_true]; rfl
  · simp only [if_neg h0]
    cases checkVectorLength E (t.impl E).toSerializable n b with
    | err e => rfl
    | panic => rfl
    | ok u =>
      simp only [Res.ok_bind]
      cases deserializeHomogeneousComposite E (t.impl E).toSerializable b with
      | err e => rfl
      | panic => rfl
      | ok l =>
        simp only [Res.ok_bind, SszVector.tryFromVec, if_neg h0]
        by_cases hl : l.length = n
        · simp [hl, Res.map]
        · simp [hl, Res.map]

/-- C16, hash tree root. -/
theorem C16_array_root (E : Env) (t : Ty) (n : Nat) (v : { l : List t.Val // l.length = n }) :
    ((Ty.array t n).impl E).hashTreeRoot v = ((Ty.vector t n).impl E).hashTreeRoot v.1 := rfl

/-- C16, the rest: the sizes they announce, the indices of their elements and the proofs for them are
the same too. (`is_composite_type` is not, so that arrays and vectors differ as elements of a
collection: see C27.) -/
theorem C16_array_traits (E : Env) (t : Ty) (n : Nat) :
    ((Ty.array t n).impl E).isVariableSize = ((Ty.vector t n).impl E).isVariableSize ∧
    ((Ty.array t n).impl E).sizeHint = ((Ty.vector t n).impl E).sizeHint ∧
    (∀ path, generalizedIndex ((Ty.array t n).impl E) path =
      generalizedIndex ((Ty.vector t n).impl E) path) ∧
    ∀ (v : { l : List t.Val // l.length = n }) (path : List PathElement),
      prove E ((Ty.array t n).impl E) v path = prove E ((Ty.vector t n).impl E) v.1 path :=
  ⟨rfl, rfl, fun _ => rfl, fun _ _ => rfl⟩

/-! ## C18 -/

/-- C18 for `Vector` from a `Vec`, which is handed back with the error. -/
theorem C18_vector_from_vec {α : Type} (n : Nat) (data : List α) (hn : 0 < n) :
    SszVector.tryFromVec n data =
      if data.length = n then .ok data
      else .err (data, .instance (.exact n data.length)) := by
  unfold SszVector.tryFromVec
  rw [if_neg (by omega)]
  by_cases h : data.length = n <;> simp [h]

/-- C18 for `Vector` from a slice. -/
theorem C18_vector_from_slice {α : Type} (n : Nat) (data : List α) (hn : 0 < n) :
    SszVector.tryFromSlice n data =
      if data.length = n then .ok data else .err (.instance (.exact n data.length)) := by
  unfold SszVector.tryFromSlice
  rw [if_neg (by omega)]
  by_cases h : data.length = n <;> simp [h]

/-- C18 for the illegal `Vector<T, 0>`: never constructed, the error names the bound. -/
theorem C18_vector_zero {α : Type} (data : List α) :
    SszVector.tryFromVec 0 data = .err (data, .type (.invalidBound 0)) ∧
      SszVector.tryFromSlice 0 data = .err (.type (.invalidBound 0)) := ⟨rfl, rfl⟩

/-- C18 for `List` from a `Vec` and from a slice. -/
theorem C18_list_from {α : Type} (n : Nat) (data : List α) :
    (SszList.tryFromVec n data =
      if data.length ≤ n then .ok data
      else .err (data, .instance (.bounded n data.length))) ∧
    (SszList.tryFromSlice n data =
      if data.length ≤ n then .ok data else .err (.instance (.bounded n data.length))) := by
  unfold SszList.tryFromVec SszList.tryFromSlice
  by_cases h : data.length ≤ n
  · simp [h, Nat.not_lt.mpr h]
  · simp [h, Nat.lt_of_not_le h]

/-- C18 for `Vector::default`: `n` copies, no panic for a legal bound. -/
theorem C18_vector_default {α : Type} (n : Nat) (d : α) (hn : 0 < n) :
    SszVector.default n d = .ok (List.replicate n d) := by
  simp [SszVector.default, SszVector.tryFromVec, Nat.ne_of_gt hn]

theorem setAll_eq : ∀ (xs : List Bool) (i : Nat) (b : Bits), i + xs.length = b.live.length →
    setAll i xs b = ⟨b.live.take i ++ xs, b.dead⟩
  | [], i, b, h => by
    have h : i = b.live.length := by simpa using h
    subst h
    simp [setAll]
  | x :: xs, i, b, h => by
    simp only [List.length_cons] at h
    have hi : i < b.live.length := by omega
    have h1 : (b.set i x).1 = ⟨b.live.set i x, b.dead⟩ := by
      simp [Bits.set, List.getElem?_eq_getElem hi]
    rw [setAll, h1, setAll_eq xs (i + 1) ⟨b.live.set i x, b.dead⟩ (by
      show i + 1 + xs.length = (b.live.set i x).length
      simp; omega)]
    simp only [List.set_eq_take_append_cons_drop, hi, if_true]
    simp [List.take_append, List.take_take, Nat.min_eq_left (Nat.le_of_lt hi)]

/-- C18 for `Bitvector` from booleans: the bits are kept, the unused storage bits are clear. -/
theorem C18_bitvector_from_bools (n : Nat) (data : List Bool) (hn : 0 < n) :
    Bitvector.tryFromBools n data =
      if data.length = n then .ok ⟨data, padBits n⟩
      else .err (.instance (.exact n data.length)) := by
  unfold Bitvector.tryFromBools
  by_cases h : data.length = n
  · simp only [h, ne_eq, not_true, if_false, if_true, Bitvector.default, Nat.ne_of_gt hn, Res.ok_bind]
    rw [setAll_eq _ _ _ (by simp [Bits.repeatFalse, h])]
    simp [Bits.repeatFalse, padBits]
  · simp [h]

/-- C18 for `Bitlist` from booleans. -/
theorem C18_bitlist_from_bools (n : Nat) (data : List Bool) :
    Bitlist.tryFromBools n data =
      if data.length ≤ n then .ok ⟨data, padBits data.length⟩
      else .err (.instance (.bounded n data.length)) := by
  unfold Bitlist.tryFromBools
  by_cases h : data.length ≤ n
  · have := Bits.extend_clean Bits.clean_new data
    simp only [Bits.extend] at this
    rw [if_neg (Nat.not_lt.mpr h), if_pos h, this]
    simp [Bits.new]
  · simp [h, Nat.lt_of_not_le h]

/-- C18 for `Bitvector` and `Bitlist` from bytes: this is decoding. -/
theorem C18_bits_from_bytes (E : Env) (n : Nat) (b : Bytes) :
    Bitvector.tryFromBytes n b =
      (deserialize ((Ty.bitvector n).impl E).toSerializable b).mapErr Error.deserialize ∧
    Bitlist.tryFromBytes E n b =
      (deserialize ((Ty.bitlist n).impl E).toSerializable b).mapErr Error.deserialize :=
  ⟨rfl, rfl⟩

example : SszVector.tryFromVec 2 [10, 20] = .ok [10, 20] ∧
    SszList.tryFromSlice 1 [10, 20] = .err (.instance (.bounded 1 2)) := by decide

/-! ## C21 -/

/-- The values of a transparent enum with the given payload types. -/
def TVal : List Ty → Type
  | [] => Empty
  | t :: ts => t.Val ⊕ TVal ts

/-- The implementation derived for it. -/
def transparentImpls (E : Env) : (ts : List Ty) → TransparentImpls (TVal ts)
  | [] => .nil
  | t :: ts => .cons (t.impl E).toSerializable (t.impl E).hashTreeRoot (transparentImpls E ts)

/-- Type and value of the payload. -/
def payload : (ts : List Ty) → TVal ts → (t : Ty) × t.Val
  | [], v => Empty.elim v
  | t :: _, .inl v => ⟨t, v⟩
  | _ :: ts, .inr v => payload ts v

/-- The encoding of the payload. -/
def encT : (ts : List Ty) → TVal ts → Bytes
  | [], v => Empty.elim v
  | t :: _, .inl v => enc t v
  | _ :: ts, .inr v => encT ts v

/-- The payload is within bounds. -/
def ValidT : (ts : List Ty) → TVal ts → Prop
  | [], v => Empty.elim v
  | t :: _, .inl v => Valid t v
  | _ :: ts, .inr v => ValidT ts v

/-- Equality of transparent enum values (Rust's `==`). -/
def normT : (ts : List Ty) → TVal ts → TVal ts
  | [], v => Empty.elim v
  | t :: _, .inl v => .inl (norm t v)
  | _ :: ts, .inr v => .inr (normT ts v)

/-- No variant declared after that of the value accepts `b`; each answers `Err`. -/
def LaterReject (E : Env) (b : Bytes) : (ts : List Ty) → TVal ts → Prop
  | [], v => Empty.elim v
  | _ :: ts, .inl _ =>
    ∀ t ∈ ts, ∃ e, deserialize (t.impl E).toSerializable b = .err e
  | _ :: ts, .inr v => LaterReject E b ts v

/-- C21 is false: with two variants of the same type, the second one is always decoded. -/
theorem C21_round_trip_refuted : ∃ (ts : List Ty) (v w : TVal ts) (b : Bytes), normT ts w ≠ normT ts v ∧
    ∀ E, serialize (transparentImpls E ts).serializable v = .ok b ∧
      deserialize (transparentImpls E ts).serializable b = .ok w := by
  refine ⟨[.uint .u8, .uint .u8], .inl (5 : BitVec 8), .inr (.inl (5 : BitVec 8)), [5],
    ⟨fun h => ?_, fun E => ⟨rfl, rfl⟩⟩⟩
  exact Sum.inr_ne_inl h

/-- C21 is false also because the empty encoding is always rejected. -/
theorem C21_empty_refuted : ∃ (ts : List Ty) (v : TVal ts) (e : DeError), ValidT ts v ∧
    ∀ E, serialize (transparentImpls E ts).serializable v = .ok [] ∧
      deserialize (transparentImpls E ts).serializable [] = .err e := by
  refine ⟨[.list (.uint .u8) 4], .inl ([] : List (BitVec 8)), .expectedFurtherInput 0 1,
    ⟨by decide, fun _ h => nomatch h⟩, fun E => ⟨?_, rfl⟩⟩
  have h := serialize_enc E (.list (.uint .u8) 4) ([] : List (BitVec 8)) trivial trivial
    ⟨by decide, fun _ h => nomatch h⟩ ⟨by decide, fun _ h => nomatch h⟩
  exact h

theorem deserializeBody_cons_ok {α β : Type} {T : Serializable α} {htr : α → Res MerkError Node}
    {rest : TransparentImpls β} {b : Bytes} {v : β} (h : rest.deserializeBody b = .ok v) :
    (TransparentImpls.cons T htr rest).deserializeBody b = .ok (.inr v) := by
  simp only [TransparentImpls.deserializeBody, h]

theorem deserializeBody_cons_here {α β : Type} {T : Serializable α} {htr : α → Res MerkError Node}
    {rest : TransparentImpls β} {b : Bytes} {v : α} {e : DeError}
    (h : rest.deserializeBody b = .err e) (h2 : T.deserialize b = .ok v) :
    (TransparentImpls.cons T htr rest).deserializeBody b = .ok (.inl v) := by
  simp only [TransparentImpls.deserializeBody, h, h2]

theorem deserializeBody_cons_err {α β : Type} {T : Serializable α} {htr : α → Res MerkError Node}
    {rest : TransparentImpls β} {b : Bytes} {e e' : DeError}
    (h : rest.deserializeBody b = .err e) (h2 : T.deserialize b = .err e') :
    (TransparentImpls.cons T htr rest).deserializeBody b = .err .noMatchingVariant := by
  simp only [TransparentImpls.deserializeBody, h, h2]

theorem deserializeBody_reject (E : Env) (b : Bytes) : ∀ (ts : List Ty),
    (∀ t ∈ ts, ∃ e, deserialize (t.impl E).toSerializable b = .err e) →
    (transparentImpls E ts).deserializeBody b = .err .noMatchingVariant
  | [], _ => rfl
  | t :: ts, h => by
    obtain ⟨e, he⟩ := h t (by simp)
    exact deserializeBody_cons_err (deserializeBody_reject E b ts (fun t ht => h t (by simp [ht]))) he

theorem transparent_serialize (E : Env) : ∀ (ts : List Ty) (v : TVal ts) (buf : Bytes),
    (∀ t ∈ ts, Legal t ∧ Fits t) → ValidT ts v → (encT ts v).length < 2 ^ 32 →
    (transparentImpls E ts).serialize v buf = (buf ++ encT ts v, .ok (encT ts v).length)
  | [], v, _, _, _, _ => Empty.elim v
  | t :: _, .inl v, buf, h, hv, hs =>
    impl_serialize E t v (h t (by simp)).1 (h t (by simp)).2 hv (small_of_length t v hs) buf
  | _ :: ts, .inr v, buf, h, hv, hs =>
    transparent_serialize E ts v buf (fun t ht => h t (by simp [ht])) hv hs

theorem transparent_deserialize (E : Env) : ∀ (ts : List Ty) (v : TVal ts),
    (∀ t ∈ ts, Legal t ∧ Fits t) → ValidT ts v → (encT ts v).length < 2 ^ 32 →
    LaterReject E (encT ts v) ts v →
    (transparentImpls E ts).deserializeBody (encT ts v) = .ok (normT ts v)
  | [], v, _, _, _, _ => Empty.elim v
  | t :: ts, .inl v, h, hv, hs, hr => by
    have hd : (t.impl E).deserialize (enc t v) = .ok (norm t v) :=
      de_enc E t v (h t (by simp)).1 (h t (by simp)).2 hv (small_of_length t v hs)
    exact deserializeBody_cons_here (deserializeBody_reject E _ ts hr) hd
  | t :: ts, .inr v, h, hv, hs, hr =>
    deserializeBody_cons_ok
      (transparent_deserialize E ts v (fun t ht => h t (by simp [ht])) hv hs hr)

/-- C21 where it holds: a value whose encoding is not empty and is rejected by the variants declared
after its own round trips. Missing: the other values, for which the property is false. -/
theorem C21_round_trip_partial (E : Env) (ts : List Ty) (v : TVal ts)
    (h : ∀ t ∈ ts, Legal t ∧ Fits t) (hv : ValidT ts v) (hs : (encT ts v).length < 2 ^ 32)
    (hne : encT ts v ≠ []) (hr : LaterReject E (encT ts v) ts v) :
    ∃ b w, serialize (transparentImpls E ts).serializable v = .ok b ∧
      deserialize (transparentImpls E ts).serializable b = .ok w ∧ w = normT ts v := by
  refine ⟨encT ts v, normT ts v, ?_, ?_, rfl⟩
  · have := transparent_serialize E ts v [] h hv hs
    show (match (transparentImpls E ts).serialize v [] with
      | (result, .ok _) => Res.ok result
      | (_, .err e) => .err e
      | (_, .panic) => .panic) = _
    rw [this]
    rfl
  · show (if (encT ts v).isEmpty then _ else _) = _
    rw [if_neg (by simpa using hne)]
    exact transparent_deserialize E ts v h hv hs hr

/-- C21, root: the root is that of the payload. -/
theorem C21_root (E : Env) : ∀ (ts : List Ty) (v : TVal ts),
    (transparentImpls E ts).hashTreeRoot v = ((payload ts v).1.impl E).hashTreeRoot (payload ts v).2
  | [], v => Empty.elim v
  | _ :: _, .inl _ => rfl
  | _ :: ts, .inr v => C21_root E ts v

/-- The encoding is that of the payload. -/
theorem encT_payload : ∀ (ts : List Ty) (v : TVal ts),
    encT ts v = enc (payload ts v).1 (payload ts v).2
  | [], v => Empty.elim v
  | _ :: _, .inl _ => rfl
  | _ :: ts, .inr v => encT_payload ts v

/-- The round trip applies to `enum { A(u32), B(u8) }`. -/
example (E : Env) : LaterReject E (encT [.uint .u32, .uint .u8] (.inl (7 : BitVec 32)))
    [.uint .u32, .uint .u8] (.inl (7 : BitVec 32)) := by
  intro t ht
  have : t = .uint .u8 := by simpa using ht
  subst this
  exact ⟨.additionalInput 4 1, rfl⟩

/-! ## C23 -/

/-- C23 is false: a `Vector<u8, 2>` from which an element has been removed encodes. -/
theorem C23_vector_refuted : ∃ (t : Ty) (n : Nat) (v : List t.Val) (b : Bytes),
    Legal (.vector t n) ∧ v.length ≠ n ∧
    ∀ E, serialize ((Ty.vector t n).impl E).toSerializable v = .ok b := by
  refine ⟨.uint .u8, 2, ([7] : List (BitVec 8)), [7], ⟨by decide, trivial⟩, by decide, fun E => ?_⟩
  exact serialize_enc E (.vector (.uint .u8) 1) ([7] : List (BitVec 8)) ⟨by decide, trivial⟩
    ⟨trivial, by decide⟩ ⟨by decide, fun _ _ => trivial⟩ ⟨by decide, fun _ _ => trivial⟩

/-- C23 is false: a `Bitvector<9>` with one bit encodes, and reports more bytes than it writes. -/
theorem C23_bitvector_refuted : ∃ (n : Nat) (v : Bits) (b : Bytes) (k : Nat),
    v.live.length ≠ n ∧ v.WF ∧ k ≠ b.length ∧
    ∀ E, ((Ty.bitvector n).impl E).serialize v [] = (b, .ok k) := by
  refine ⟨9, ⟨[true], List.replicate 7 false⟩, [1], 2, by decide, rfl, by decide, fun E => ?_⟩
  show (([] : Bytes) ++ (chunks8 [true]).map byteOfBits, (Res.ok 2 : Res SerError Nat)) = _
  rw [chunks8_map]
  decide

/-- The illegal bound zero is rejected, for `Vector`, arrays and `Bitvector`. -/
theorem C23_zero_bound_partial (E : Env) (t : Ty) (buf : Bytes) :
    (∀ v, ((Ty.vector t 0).impl E).serialize v buf = (buf, .err (.invalidType (.invalidBound 0)))) ∧
    (∀ v, ((Ty.array t 0).impl E).serialize v buf = (buf, .err (.invalidType (.invalidBound 0)))) ∧
    (∀ v, ((Ty.bitvector 0).impl E).serialize v buf =
      (buf, .err (.invalidType (.invalidBound 0)))) :=
  ⟨fun _ => rfl, fun _ => rfl, fun _ => rfl⟩

/-- C23, what remains true: if a `Vector<T, N>` with a wrong number of (in-bounds) elements is
encoded, `deserialize` of the same type returns `Err` on the result. Missing: the error is not
raised by `serialize`, and for `Bitvector` it may not be raised at all. -/
theorem C23_vector_partial (E : Env) (t : Ty) (n : Nat) (v : List t.Val) (hl : Legal (.vector t n))
    (hf : Fits (.vector t n)) (hlen : v.length ≠ n) (hv : Each (Valid t) v) (b : Bytes)
    (h : serialize ((Ty.vector t n).impl E).toSerializable v = .ok b) :
    ∃ e, deserialize ((Ty.vector t n).impl E).toSerializable b = .err e := by
  have hn : n ≠ 0 := Nat.ne_of_gt hl.1
  have h' : serialize ((Ty.list t v.length).impl E).toSerializable v = .ok b := by
    rw [← h]
    unfold serialize
    have : ((Ty.list t v.length).impl E).serialize v [] = ((Ty.vector t n).impl E).serialize v [] := by
      show (Serializable.list E (t.impl E).toSerializable v.length).serialize v [] =
        (Serializable.vector E (t.impl E).toSerializable n).serialize v []
      simp only [Serializable.list, Serializable.vector, gt_iff_lt, Nat.lt_irrefl, if_false,
        if_neg hn]
    rw [this]
  obtain ⟨hb, hs⟩ := serialize_ok_enc E (.list t v.length) v hl.2 hf.1 ⟨Nat.le_refl _, hv⟩ h'
  subst hb
  have hd := collection_complete E t hl.2 hf.1 v hv hs.1
    (fun x hx => de_enc E t x hl.2 hf.1 (hv x hx) (hs.2 x hx))
  show ∃ e, (Serializable.vector E (t.impl E).toSerializable n).deserialize
    (assemble (v.map fun x => (isVar t, enc t x))) = .err e
  simp only [Serializable.vector, if_neg hn]
  cases hc : checkVectorLength E (t.impl E).toSerializable n
      (assemble (v.map fun x => (isVar t, enc t x))) with
  | err e => exact ⟨e, rfl⟩
  | panic =>
    unfold checkVectorLength at hc
    split at hc
    · exact nomatch hc
    · rw [impl_sizeHint E t hf.1, Res.lift_ok, Res.ok_bind, Env.mul_eq_ok (by
        rw [Nat.mul_comm]; exact Nat.lt_trans hf.2 (by decide)), Res.lift_ok, Res.ok_bind] at hc
      split at hc
      · exact nomatch hc
      · split at hc <;> exact nomatch hc
  | ok u =>
    rw [Res.ok_bind, hd, Res.ok_bind]
    have hlen' : (v.map (norm t)).length ≠ n := by rw [List.length_map]; exact hlen
    simp only [SszVector.tryFromVec, if_neg hn, hlen', ne_eq, not_false_eq_true, if_true]
    exact ⟨_, rfl⟩

example : Legal (.vector (.bitlist 4) 2) ∧ Fits (.vector (.bitlist 4) 2) ∧
    Each (Valid (.bitlist 4)) ([⟨[true], List.replicate 7 false⟩] : List Bits) :=
  ⟨⟨by decide, trivial⟩, ⟨by simp [Fits], by decide⟩, fun x hx => by
    have h : ∀ x ∈ ([⟨[true], List.replicate 7 false⟩] : List Bits),
      x.live.length ≤ 4 ∧ x.dead = padBits x.live.length := by decide
    exact h x hx⟩

/-- C23, exactly, for `Vector`: `serialize` of a `Vector<T, N>` with `N` positive pays no attention to
`N`; on every list it does what it does for the bound that fits. -/
theorem C23_vector_ignored_partial (E : Env) (t : Ty) (n : Nat) (v : List t.Val) (hn : 0 < n)
    (hv : 0 < v.length) (buf : Bytes) :
    ((Ty.vector t n).impl E).serialize v buf = ((Ty.vector t v.length).impl E).serialize v buf := by
  show (Serializable.vector E (t.impl E).toSerializable n).serialize v buf =
    (Serializable.vector E (t.impl E).toSerializable v.length).serialize v buf
  simp only [Serializable.vector, if_neg (Nat.ne_of_gt hn), if_neg (Nat.ne_of_gt hv)]

/-- C23, exactly, for `Bitvector`: for a positive `N`, any number of bits is written, and the number of
bytes reported is right if and only if these bits need as many bytes as `N` bits do. -/
theorem C23_bitvector_exact_partial (E : Env) (n : Nat) (v : Bits) (hn : 0 < n) (buf : Bytes) :
    ((Ty.bitvector n).impl E).serialize v buf = (buf ++ Spec.packBits v.live, .ok ((n + 7) / 8)) ∧
    ((n + 7) / 8 = (Spec.packBits v.live).length ↔ (n + 7) / 8 = (v.live.length + 7) / 8) := by
  refine ⟨?_, by rw [packBits_length]⟩
  show Bitvector.serialize n v buf = _
  simp only [Bitvector.serialize, if_neg (Nat.ne_of_gt hn)]
  rw [BufM.bind_ok (BufM.append_apply _ _), chunks8_map]
  rfl

theorem bits_length_of_pack {l m : List Bool} (h : Spec.packBits l = Spec.packBits m) :
    (l.length + 7) / 8 = (m.length + 7) / 8 := by
  rw [← packBits_length, ← packBits_length, h]

/-- C23 for `Bitvector`, what decoding makes of it: the bytes written for a wrong number of bits are
accepted if and only if they are those of some sequence of `N` bits, which is then the result. -/
theorem C23_bitvector_decode_partial (E : Env) (n : Nat) (v : Bits) (hn : 0 < n) (w : Bits) :
    deserialize ((Ty.bitvector n).impl E).toSerializable (Spec.packBits v.live) = .ok w ↔
      w.live.length = n ∧ w.dead = padBits n ∧ Spec.packBits w.live = Spec.packBits v.live := by
  constructor
  · intro h
    obtain ⟨_, h1, h2, h3⟩ := Bitvector.deserialize_sound h
    exact ⟨h1, h2, h3⟩
  · rintro ⟨h1, h2, h3⟩
    rw [← h3]
    have := Bitvector.deserialize_packBits hn h1
    obtain ⟨l, d⟩ := w
    simp only at h1 h2 h3 this ⊢
    subst h2
    exact this

/-- One set bit in a `Bitvector<9>`: one byte is written and two are reported, and the decoder refuses
that byte. One set bit in a `Bitvector<3>` comes back with two cleared bits after it. -/
example (E : Env) :
    ((Ty.bitvector 9).impl E).serialize (⟨[true], padBits 1⟩ : Bits) [] = ([1], .ok 2) ∧
    (∀ w, deserialize ((Ty.bitvector 9).impl E).toSerializable [1] ≠ .ok w) ∧
    deserialize ((Ty.bitvector 3).impl E).toSerializable [1] =
      .ok (⟨[true, false, false], padBits 3⟩ : Bits) := by
  have h1 : Spec.packBits [true] = [1] := by decide
  refine ⟨?_, fun w h => ?_, ?_⟩
  · have := (C23_bitvector_exact_partial E 9 ⟨[true], padBits 1⟩ (by decide) []).1
    rwa [h1] at this
  · have := (C23_bitvector_decode_partial E 9 ⟨[true], padBits 1⟩ (by decide) w).1 (by rw [h1]; exact h)
    have h2 := bits_length_of_pack this.2.2
    rw [this.1] at h2
    exact absurd h2 (by decide)
  · have := (C23_bitvector_decode_partial E 3 ⟨[true], padBits 1⟩ (by decide)
      ⟨[true, false, false], padBits 3⟩).2 ⟨rfl, rfl, by decide⟩
    rwa [h1] at this

end Ssz
