import Verif.Spec.Parts
import Verif.Proofs.Root
import Verif.Proofs.Deserialize

/-!
# Types built from parts of which only the codec is known
-/

namespace Ssz

open Spec

section

variable {α : Type} {T : Serializable α} {c : Codec α}

theorem Spec.Implements.capacity (h : Implements T c) : HasCapacity T := ⟨_, h.sizeHint, h.size_lt⟩

theorem Spec.Implements.elements_length (h : Implements T c) {vs : List α} (hv : Each c.valid vs)
    (hvar : c.var = false) :
    (assemble (vs.map fun x => (c.var, c.enc x))).length = c.size * vs.length := by
  rw [hvar]
  exact assemble_map_fixed vs c.enc c.size fun x hx => h.length hvar x (hv x hx)

theorem element_length_lt {vs : List α} {x : α} (hx : x ∈ vs)
    (hlen : (assemble (vs.map fun x => (c.var, c.enc x))).length < 2 ^ 32) :
    (c.enc x).length < 2 ^ 32 :=
  Nat.lt_of_le_of_lt
    (piece_length_le (p := (c.var, c.enc x)) (List.mem_map.mpr ⟨x, hx, rfl⟩)) hlen

/-- The elements of a collection are written one after the other. -/
theorem Spec.Implements.elements_serialize (h : Implements T c) (E : Env) {vs : List α}
    (hv : Each c.valid vs)
    (hlen : (assemble (vs.map fun x => (c.var, c.enc x))).length < 2 ^ 32) (buf : Bytes) :
    (do let s ← BufM.ofRes (Serializer.withElements T {} vs)
        s.serialize E) buf = (buf ++ assemble (vs.map fun x => (c.var, c.enc x)),
          .ok (assemble (vs.map fun x => (c.var, c.enc x))).length) := by
  have := Serializer.withElements_ofPieces (f := c.enc) h.capacity (xs := vs)
    (fun x hx => h.serialize x (hv x hx) (element_length_lt hx hlen)) []
  rw [show ({} : Serializer) = Serializer.ofPieces [] from rfl, this]
  simp only [List.nil_append, h.isVariableSize, BufM.ofRes_ok_bind]
  exact Serializer.serialize_ofPieces E _ hlen buf

/-- The elements of a collection are found in its encoding. -/
theorem Spec.Implements.elements_deserialize (h : Implements T c) (E : Env) {vs : List α}
    (hv : Each c.valid vs)
    (hlen : (assemble (vs.map fun x => (c.var, c.enc x))).length < 2 ^ 32) :
    deserializeHomogeneousComposite E T (assemble (vs.map fun x => (c.var, c.enc x))) =
      .ok (vs.map c.norm) := by
  have := homogeneous_complete E (T := T) h.isVariableSize h.sizeHint (vs.map c.enc) h.size_pos
    (by
      intro hvar p hp
      obtain ⟨x, hx, rfl⟩ := List.mem_map.mp hp
      exact h.length hvar x (hv x hx))
    (by intro _; rw [List.map_map]; exact addressed_of_length hlen)
  rw [List.map_map] at this
  refine Eq.trans this ?_
  rw [mapList_map]
  exact Res.mapList_ok_of fun x hx => h.deserialize x (hv x hx) (element_length_lt hx hlen)

theorem Spec.Implements.list (h : Implements T c) (E : Env) (n : Nat) :
    Implements (Serializable.list E T n) (c.list n) where
  isVariableSize := rfl
  sizeHint := rfl
  size_lt := Nat.two_pow_pos 63
  size_pos h := nomatch h
  length h := nomatch h
  serialize vs hv hlen buf := by
    have h0 : ¬ vs.length > n := by have := hv.1; omega
    simp only [Serializable.list, h0, if_false]
    exact h.elements_serialize E hv.2 hlen buf
  deserialize vs hv hlen := by
    refine list_deserialize_ok ?_ (h.elements_deserialize E hv.2 hlen)
      ((List.length_map _).le.trans hv.1)
    refine checkListLength_ok h.isVariableSize h.sizeHint fun hvar => ⟨h.size_pos hvar, ?_⟩
    rw [show (c.list n).enc vs = assemble (vs.map fun x => (c.var, c.enc x)) from rfl,
      h.elements_length hv.2 hvar]
    exact Nat.mul_mod_right _ _

theorem Spec.Implements.vector (h : Implements T c) (E : Env) {n : Nat} (hn : 0 < n)
    (hs : c.size * n < 2 ^ 63) : Implements (Serializable.vector E T n) (c.vector n) where
  isVariableSize := h.isVariableSize
  sizeHint := by
    show (T.sizeHint >>= fun s => E.mul s n) = _
    rw [h.sizeHint]
    exact Env.mul_eq_ok (Nat.lt_trans hs (by decide))
  size_lt := hs
  size_pos hvar := Nat.mul_pos (h.size_pos hvar) hn
  length hvar vs hv := by
    refine (h.elements_length hv.2 hvar).trans ?_
    rw [hv.1]; rfl
  serialize vs hv hlen buf := by
    have h0 : n ≠ 0 := by omega
    simp only [Serializable.vector, h0, if_false]
    exact h.elements_serialize E hv.2 hlen buf
  deserialize vs hv hlen := by
    refine vector_deserialize_ok (by omega) ?_ (h.elements_deserialize E hv.2 hlen)
      ((List.length_map _).trans hv.1)
    refine checkVectorLength_ok h.isVariableSize h.sizeHint
      (by rw [Nat.mul_comm]; exact Nat.lt_trans hs (by decide)) fun hvar => ?_
    refine (h.elements_length hv.2 hvar).trans ?_
    rw [hv.1, Nat.mul_comm]

theorem Spec.Implements.array (h : Implements T c) (E : Env) {n : Nat} (hn : 0 < n)
    (hs : c.size * n < 2 ^ 63) : Implements (Serializable.array E T n) (c.array n) where
  isVariableSize := h.isVariableSize
  sizeHint := by
    show (T.sizeHint >>= fun s => E.mul s n) = _
    rw [h.sizeHint]
    exact Env.mul_eq_ok (Nat.lt_trans hs (by decide))
  size_lt := hs
  size_pos hvar := Nat.mul_pos (h.size_pos hvar) hn
  length hvar vs hv := by
    refine (h.elements_length hv hvar).trans ?_
    rw [vs.2]; rfl
  serialize vs hv hlen buf := by
    have h0 : n ≠ 0 := by omega
    simp only [Serializable.array, h0, if_false]
    exact h.elements_serialize E hv hlen buf
  deserialize vs hv hlen := by
    refine array_deserialize_ok (vs := (c.array n).norm vs) (by omega) ?_
      (h.elements_deserialize E hv hlen)
    refine checkVectorLength_ok h.isVariableSize h.sizeHint
      (by rw [Nat.mul_comm]; exact Nat.lt_trans hs (by decide)) fun hvar => ?_
    refine (h.elements_length hv hvar).trans ?_
    rw [vs.2, Nat.mul_comm]

theorem Spec.Implements.option (h : Implements T c) : Implements (Serializable.option T) c.option where
  isVariableSize := rfl
  sizeHint := rfl
  size_lt := Nat.two_pow_pos 63
  size_pos h := nomatch h
  length h := nomatch h
  serialize v hv hlen buf := by
    match v with
    | none => exact uint_serialize .u8 0 buf
    | some x =>
      have hx : (c.enc x).length < 2 ^ 32 :=
        Nat.lt_of_succ_lt (show (c.enc x).length + 1 < 2 ^ 32 from hlen)
      exact selector_ser 1 (h.serialize x (hv x rfl) hx) buf
  deserialize v hv hlen := by
    match v with
    | none => rfl
    | some x =>
      have hx : (c.enc x).length < 2 ^ 32 :=
        Nat.lt_of_succ_lt (show (c.enc x).length + 1 < 2 ^ 32 from hlen)
      show (T.deserialize (c.enc x) >>= fun inner => Res.ok (some inner)) = _
      rw [h.deserialize x (hv x rfl) hx]
      rfl

end

theorem Spec.Implements.newtype {α : Type} {T : SimpleSerialize α} {c : Codec α}
    (h : Implements T.toSerializable c) (E : Env) :
    Implements (SimpleSerialize.newtype E T).toSerializable
      { c with size := if c.var then 0 else c.size } where
  isVariableSize := h.isVariableSize
  sizeHint := by
    show (if T.isVariableSize then .ok 0 else T.sizeHint) = _
    rw [h.isVariableSize, h.sizeHint]
    split <;> rfl
  size_lt := by
    have := h.size_lt
    show (if c.var then 0 else c.size) < 2 ^ 63
    split <;> omega
  size_pos hvar := by
    have hvar : c.var = false := hvar
    show 0 < (if c.var then 0 else c.size)
    rw [hvar]
    exact h.size_pos hvar
  length hvar v hv := by
    have hvar : c.var = false := hvar
    show (c.enc v).length = (if c.var then 0 else c.size)
    rw [hvar]
    exact h.length hvar v hv
  serialize := h.serialize
  deserialize v hv hlen := by
    show (T.deserialize (c.enc v) >>= fun r => Res.ok r) = _
    rw [h.deserialize v hv hlen]
    rfl

/-! ## Structs -/

namespace StructParts

theorem impls_isVar : {α : Type} → (ps : StructParts α) → ps.impls.isVariableSize = ps.var
  | _, .nil => rfl
  | _, .cons _ T c h rest => by
    show (T.isVariableSize || rest.impls.isVariableSize) = (c.var || rest.var)
    rw [h.isVariableSize, impls_isVar rest]

theorem sizeHintSum (E : Env) : {α : Type} → (ps : StructParts α) → ps.var = false → ∀ acc,
    acc + ps.fixedLen < 2 ^ 64 → ps.impls.sizeHintSum E acc = .ok (acc + ps.fixedLen)
  | _, .nil, _, _, _ => rfl
  | _, .cons _ T c h rest, hv, acc, hlt => by
    simp only [Spec.StructParts.var, Bool.or_eq_false_iff] at hv
    simp only [Spec.StructParts.fixedLen, hv.1, Bool.false_eq_true, if_false] at hlt ⊢
    show (T.sizeHint >>= fun s => E.add acc s >>= fun acc' =>
      rest.impls.sizeHintSum E acc') = _
    rw [h.sizeHint]
    simp only [Res.ok_bind]
    rw [Env.add_eq_ok (by rw [← pow64]; omega)]
    simp only [Res.ok_bind]
    rw [sizeHintSum E rest hv.2 _ (by omega), Nat.add_assoc]

/-- What the container decoder knows of the parts. -/
def shape : {α : Type} → StructParts α → Shape
  | _, .nil => []
  | _, .cons _ _ c _ rest => (c.var, c.size) :: shape rest

theorem hasShape_pieces : {α : Type} → (ps : StructParts α) → (v : α) → ps.valid v →
    HasShape (ps.pieces v) (shape ps)
  | _, .nil, _, _ => trivial
  | _, .cons _ _ _ h rest, v, hv =>
    ⟨rfl, fun hvar => h.length hvar v.1 hv.1, hasShape_pieces rest v.2 hv.2⟩

theorem parseAll_eq (E : Env) (b : Bytes) : {α : Type} → (ps : StructParts α) →
    ∀ d, ps.impls.parseAll E b d = parseShape E b (shape ps) d
  | _, .nil, _ => rfl
  | _, .cons _ T c h rest, d => by
    show (d.parse E T.toSerializable b >>= fun d' => rest.impls.parseAll E b d') = _
    simp only [shape, parseShape]
    rw [parse_congr (T := T.toSerializable)
      (U := Serializable.mk (α := Unit) c.var (.ok c.size) (fun _ => BufM.ofRes .panic)
        (fun _ => .panic))
      h.isVariableSize h.sizeHint]
    congr 1
    funext d'
    exact parseAll_eq E b rest d'

theorem initFields_ok (enc : Bytes) : {α : Type} → (ps : StructParts α) → (v : α) → ps.valid v →
    (∀ p ∈ ps.pieces v, p.2.length < 2 ^ 32) → ∀ (spans S : List Nat) (i : Nat),
    SpanOk enc spans (ps.pieces v) → S.length = 2 * i →
    ps.impls.initFields enc (S ++ spans) i = .ok (ps.norm v)
  | _, .nil, _, _, _, _, _, _, _, _ => rfl
  | _, .cons _ T c h rest, v, hv, hp, spans, S, i, hs, hi => by
    match spans, hs with
    | a :: b :: spans', hs =>
      show (index (S ++ a :: b :: spans') (2 * i) >>= fun start =>
        index (S ++ a :: b :: spans') (2 * i + 1) >>= fun stop =>
        slice enc start stop >>= fun piece =>
        T.deserialize piece >>= fun v =>
        rest.impls.initFields enc (S ++ a :: b :: spans') (i + 1) >>= fun vs =>
        (.ok (v, vs) : Res DeError _)) = _
      have h1 : (index (S ++ a :: b :: spans') (2 * i) : Res DeError Nat) = .ok a := by
        simp [index, ← hi]
      have h2 : (index (S ++ a :: b :: spans') (2 * i + 1) : Res DeError Nat) = .ok b := by
        simp [index, ← hi]
      have h3 : rest.impls.initFields enc (S ++ a :: b :: spans') (i + 1) = .ok (rest.norm v.2) := by
        have := initFields_ok enc rest v.2 hv.2 (fun p hq => hp p (List.mem_cons_of_mem _ hq))
          spans' (S ++ [a, b]) (i + 1) hs.2 (by simp; omega)
        rw [← this]; simp
      rw [h1, Res.ok_bind, h2, Res.ok_bind, hs.1, Res.ok_bind,
        h.deserialize v.1 hv.1 (hp _ List.mem_cons_self), Res.ok_bind, h3]
      rfl
    | [], hs => exact hs.elim
    | [_], hs => exact hs.elim

theorem withElements_ok : {α : Type} → (ps : StructParts α) → (v : α) → ps.valid v →
    (∀ p ∈ ps.pieces v, p.2.length < 2 ^ 32) → ∀ qs,
    ps.impls.withElements v (Serializer.ofPieces qs) =
      .ok (Serializer.ofPieces (qs ++ ps.pieces v))
  | _, .nil, _, _, _, qs => by simp [Spec.StructParts.impls, FieldImpls.withElements, Spec.StructParts.pieces]
  | _, .cons _ T c h rest, v, hv, hp, qs => by
    show ((Serializer.ofPieces qs).withElement T.toSerializable v.1 >>= fun s' =>
      rest.impls.withElements v.2 s') = _
    rw [Serializer.withElement_ofPieces h.capacity
      (h.serialize v.1 hv.1 (hp _ List.mem_cons_self)), Res.ok_bind,
      withElements_ok rest v.2 hv.2 (fun p hq => hp p (List.mem_cons_of_mem _ hq)),
      h.isVariableSize]
    simp [Spec.StructParts.pieces]

theorem fixedLen_pos : {α : Type} → (ps : StructParts α) → 0 < ps.impls.count → 0 < ps.fixedLen
  | _, .nil, h => absurd h (Nat.lt_irrefl 0)
  | _, .cons _ _ c h rest, _ => by
    simp only [Spec.StructParts.fixedLen]
    cases hv : c.var with
    | true => simp only [if_true]; omega
    | false =>
      have := h.size_pos hv
      simp only [Bool.false_eq_true, if_false]; omega

theorem headLen_pieces : {α : Type} → (ps : StructParts α) → (v : α) → ps.valid v →
    headLen (ps.pieces v) = ps.fixedLen
  | _, .nil, _, _ => rfl
  | _, .cons _ _ c h rest, v, hv => by
    show headLen ((c.var, c.enc v.1) :: rest.pieces v.2) = _
    rw [headLen_cons, headLen_pieces rest v.2 hv.2, Spec.StructParts.fixedLen]
    congr 1
    simp only [headSize]
    cases hvar : c.var with
    | true => rfl
    | false =>
      simp only [Bool.false_eq_true, if_false]
      exact h.length hvar v.1 hv.1

theorem tails_pieces : {α : Type} → (ps : StructParts α) → (v : α) → ps.var = false →
    tails (ps.pieces v) = []
  | _, .nil, _, _ => rfl
  | _, .cons _ _ c _ rest, v, hv => by
    simp only [Spec.StructParts.var, Bool.or_eq_false_iff] at hv
    show tails ((c.var, c.enc v.1) :: rest.pieces v.2) = []
    rw [hv.1, tails_cons_false]
    exact tails_pieces rest v.2 hv.2

/-- A derived struct of parts that follow codecs. -/
theorem container {α : Type} (E : Env) (ps : StructParts α) (hc : 0 < ps.impls.count)
    (hs : ps.fixedLen < 2 ^ 63) :
    Implements (SimpleSerialize.container E ps.impls).toSerializable ps.codec where
  isVariableSize := impls_isVar ps
  sizeHint := by
    show (if ps.impls.isVariableSize then .ok 0 else ps.impls.sizeHintSum E 0) =
      .ok (if ps.var then 0 else ps.fixedLen)
    rw [impls_isVar]
    split
    · rfl
    · rename_i hv
      rw [sizeHintSum E ps (by simpa using hv) 0 (by omega), Nat.zero_add]
  size_lt := by
    show (if ps.var then 0 else ps.fixedLen) < 2 ^ 63
    split <;> omega
  size_pos hv := by
    have hv : ps.var = false := hv
    show 0 < (if ps.var then 0 else ps.fixedLen)
    rw [hv]
    exact fixedLen_pos ps hc
  length hv v hval := by
    have hv : ps.var = false := hv
    show (assemble (ps.pieces v)).length = (if ps.var then 0 else ps.fixedLen)
    rw [hv, assemble_length, headLen_pieces ps v hval, tails_pieces ps v hv]
    rfl
  serialize v hv hlen buf := by
    have hp : ∀ p ∈ ps.pieces v, p.2.length < 2 ^ 32 := fun p hp =>
      Nat.lt_of_le_of_lt (piece_length_le hp) hlen
    simp only [SimpleSerialize.container]
    rw [show ({} : Serializer) = Serializer.ofPieces [] from rfl, withElements_ok ps v hv hp []]
    simp only [List.nil_append, BufM.ofRes_ok_bind]
    exact Serializer.serialize_ofPieces E _ hlen buf
  deserialize v hv hlen := by
    have hp : ∀ p ∈ ps.pieces v, p.2.length < 2 ^ 32 := fun p hp =>
      Nat.lt_of_le_of_lt (piece_length_le hp) hlen
    show (ps.impls.parseAll E (assemble (ps.pieces v)) {} >>= fun d =>
      d.finalize E (assemble (ps.pieces v)) >>= fun spans =>
      ps.impls.initFields (assemble (ps.pieces v)) spans 0) = _
    have h1 := container_complete E (ps.pieces v) _ (hasShape_pieces ps v hv)
      (addressed_of_length hlen) (Nat.lt_trans hlen (by decide))
    rw [parseAll_eq]
    rw [Res.bind_eq_ok] at h1
    obtain ⟨d, h2, h3⟩ := h1
    rw [h2, Res.ok_bind, h3, Res.ok_bind]
    exact initFields_ok _ ps v hv hp _ [] 0 (spanOk_assemble _) rfl

end StructParts

/-! ## Enums -/

namespace EnumParts

theorem position_lt : {α : Type} → (ps : EnumParts α) → (v : α) → ps.position v < ps.count
  | _, .nil, v => v.elim
  | _, .cons _ _ _ _, .inl _ => Nat.succ_pos _
  | _, .cons _ _ _ rest, .inr v => Nat.succ_lt_succ (position_lt rest v)

theorem serializeV : {α : Type} → (ps : EnumParts α) → (i : Nat) → (v : α) → ps.valid v →
    (ps.enc v).length < 2 ^ 32 → ∀ buf, ps.impls.variants.serialize i v buf =
      (buf ++ BitVec.ofNat 8 (i + ps.position v) :: ps.enc v, .ok ((ps.enc v).length + 1))
  | _, .nil, _, v, _, _, _ => v.elim
  | _, .cons _ _ h _, i, .inl v, hv, hs, buf => selector_ser i (h.serialize v hv hs) buf
  | _, .cons _ _ _ rest, i, .inr v, hv, hs, buf => by
    have := serializeV rest (i + 1) v hv hs buf
    rw [Nat.add_right_comm, Nat.add_assoc] at this
    exact this

theorem deserializeV (b : Bytes) : {α : Type} → (ps : EnumParts α) → (i : Nat) → (v : α) →
    ps.valid v → (ps.enc v).length < 2 ^ 32 → i + ps.count ≤ 256 →
    ps.impls.variants.deserialize (BitVec.ofNat 8 (i + ps.position v)) (ps.enc v) b i =
      .ok (ps.norm v)
  | _, .nil, _, v, _, _, _ => v.elim
  | _, .cons T c h rest, i, .inl v, hv, hs, _ => by
    show (if BitVec.ofNat 8 (i + 0) = BitVec.ofNat 8 i then (T.deserialize (c.enc v)).map Sum.inl
      else _) = _
    rw [if_pos (by rw [Nat.add_zero]), h.deserialize v hv hs]
    rfl
  | _, .cons T c h rest, i, .inr v, hv, hs, hc => by
    have hp := position_lt rest v
    simp only [Spec.EnumParts.count] at hc
    have ih := deserializeV b rest (i + 1) v hv hs (by omega)
    show (if BitVec.ofNat 8 (i + (rest.position v + 1)) = BitVec.ofNat 8 i then _
      else (rest.impls.variants.deserialize (BitVec.ofNat 8 (i + (rest.position v + 1)))
        (rest.enc v) b (i + 1)).map Sum.inr) = _
    rw [if_neg (fun hb => by
      have := ofNat8_inj (by omega) (by omega) hb
      omega)]
    rw [show i + (rest.position v + 1) = i + 1 + rest.position v by omega, ih]
    rfl

/-- A derived enum of payloads that follow codecs. -/
theorem union {α : Type} (E : Env) (ps : EnumParts α) (hc : ps.count ≤ 256) :
    Implements (SimpleSerialize.union E ps.impls.variants).toSerializable ps.union where
  isVariableSize := rfl
  sizeHint := rfl
  size_lt := Nat.two_pow_pos 63
  size_pos h := nomatch h
  length h := nomatch h
  serialize v hv hlen buf := by
    have := serializeV ps 0 v hv
      (Nat.lt_of_succ_lt (show (ps.enc v).length + 1 < 2 ^ 32 from hlen)) buf
    rw [Nat.zero_add] at this
    exact this
  deserialize v hv hlen := by
    have := deserializeV (ps.union.enc v) ps 0 v hv
      (Nat.lt_of_succ_lt (show (ps.enc v).length + 1 < 2 ^ 32 from hlen)) (by omega)
    rw [Nat.zero_add] at this
    exact this

/-- The same with a first variant `None`. -/
theorem unionNone {α : Type} (E : Env) (ps : EnumParts α) (hc : ps.count < 256) :
    Implements (SimpleSerialize.union E (.unit ps.impls.variants)).toSerializable ps.unionNone where
  isVariableSize := rfl
  sizeHint := rfl
  size_lt := Nat.two_pow_pos 63
  size_pos h := nomatch h
  length h := nomatch h
  serialize v hv hlen buf := by
    match v with
    | .inl _ => exact uint_serialize .u8 0 buf
    | .inr v =>
      have := serializeV ps 1 v hv
        (Nat.lt_of_succ_lt (show (ps.enc v).length + 1 < 2 ^ 32 from hlen)) buf
      rw [Nat.add_comm 1] at this
      exact this
  deserialize v hv hlen := by
    match v with
    | .inl _ => rfl
    | .inr v =>
      have hp := position_lt ps v
      have := deserializeV (ps.unionNone.enc (.inr v)) ps 1 v hv
        (Nat.lt_of_succ_lt (show (ps.enc v).length + 1 < 2 ^ 32 from hlen)) (by omega)
      rw [Nat.add_comm 1] at this
      show (if BitVec.ofNat 8 (ps.position v + 1) = 0 then _
        else (ps.impls.variants.deserialize (BitVec.ofNat 8 (ps.position v + 1)) (ps.enc v)
          (ps.unionNone.enc (.inr v)) 1).map Sum.inr) = _
      rw [if_neg (fun hb => by
        have := ofNat8_inj (b := 0) (by omega) (by omega) hb
        omega), this]
      rfl

theorem serializeT : {α : Type} → (ps : EnumParts α) → (v : α) → ps.valid v →
    (ps.enc v).length < 2 ^ 32 → ∀ buf, ps.impls.transparent.serialize v buf =
      (buf ++ ps.enc v, .ok (ps.enc v).length)
  | _, .nil, v, _, _, _ => v.elim
  | _, .cons _ _ h _, .inl v, hv, hs, buf => h.serialize v hv hs buf
  | _, .cons _ _ _ rest, .inr v, hv, hs, buf => serializeT rest v hv hs buf

theorem rejectT (b : Bytes) : {α : Type} → (ps : EnumParts α) → ps.Reject b →
    ps.impls.transparent.deserializeBody b = .err .noMatchingVariant
  | _, .nil, _ => rfl
  | _, .cons T _ _ rest, h => by
    obtain ⟨e, he⟩ := h.1
    have hr := rejectT b rest h.2
    simp only [Spec.EnumParts.impls, PayloadImpls.transparent, TransparentImpls.deserializeBody, hr, he]

theorem deserializeT : {α : Type} → (ps : EnumParts α) → (v : α) → ps.valid v →
    (ps.enc v).length < 2 ^ 32 → ps.LaterReject (ps.enc v) v →
    ps.impls.transparent.deserializeBody (ps.enc v) = .ok (ps.norm v)
  | _, .nil, v, _, _, _ => v.elim
  | _, .cons T c h rest, .inl v, hv, hs, hr => by
    have hr := rejectT _ rest hr
    have hd : T.deserialize (c.enc v) = .ok (c.norm v) := h.deserialize v hv hs
    simp only [Spec.EnumParts.impls, PayloadImpls.transparent, TransparentImpls.deserializeBody, Spec.EnumParts.enc] at hr ⊢
    simp only [hr, hd, Spec.EnumParts.norm]
  | _, .cons T c h rest, .inr v, hv, hs, hr => by
    have ih := deserializeT rest v hv hs hr
    simp only [Spec.EnumParts.impls, PayloadImpls.transparent, TransparentImpls.deserializeBody, Spec.EnumParts.enc]
    simp only [ih, Spec.EnumParts.norm]

/-- A transparent enum of payloads that follow codecs. -/
theorem transparent {α : Type} (E : Env) (ps : EnumParts α) :
    Implements (SimpleSerialize.transparent E ps.impls).toSerializable ps.transparent where
  isVariableSize := rfl
  sizeHint := rfl
  size_lt := Nat.two_pow_pos 63
  size_pos h := nomatch h
  length h := nomatch h
  serialize v hv hlen buf := serializeT ps v hv.1 hlen buf
  deserialize v hv hlen := by
    show (if (ps.enc v).isEmpty then _ else _) = _
    rw [if_neg (by simpa using hv.2.1)]
    exact deserializeT ps v hv.1 hlen hv.2.2

end EnumParts

/-! ## What is decoded respects the bounds -/

theorem forall₂_yields {α : Type} {T : Serializable α} {P : α → Prop} (h : Yields T P)
    {ps : List Bytes} {vs : List α} (hf : List.Forall₂ (fun p v => T.deserialize p = .ok v) ps vs) :
    Each P vs := by
  induction hf with
  | nil => intro x hx; cases hx
  | cons hd _ ih =>
    intro x hx
    rcases List.mem_cons.mp hx with rfl | hx
    · exact h _ _ hd
    · exact ih x hx

theorem homogeneous_yields {α : Type} {E : Env} {T : Serializable α} {P : α → Prop}
    (h : Yields T P) {b : Bytes} {vs : List α}
    (hd : deserializeHomogeneousComposite E T b = .ok vs) : Each P vs := by
  unfold deserializeHomogeneousComposite at hd
  split at hd
  · rcases deserializeVariable_sound T b vs hd with rfl | ⟨ps, -, -, hf⟩
    · intro x hx; cases hx
    · exact forall₂_yields h hf
  · simp only [deserializeFixedHomogeneousComposite, Res.bind_eq_ok] at hd
    obtain ⟨s, -, hd⟩ := hd
    split at hd
    · cases hd
    · obtain ⟨_, -, hd⟩ := Res.bind_eq_ok.mp hd
      exact forall₂_yields h (Res.mapList_eq_ok.mp hd)

theorem initFields_yields (enc : Bytes) (spans : List Nat) : {α : Type} → (ps : StructParts α) →
    ps.yields → ∀ (i : Nat) (v : α), ps.impls.initFields enc spans i = .ok v → ps.valid v
  | _, .nil, _, _, _, _ => trivial
  | _, .cons _ T c _ rest, hy, i, v, h => by
    simp only [Spec.StructParts.impls, FieldImpls.initFields, Res.bind_eq_ok] at h
    obtain ⟨_, -, _, -, piece, -, x, hx, xs, hxs, h⟩ := h
    injection h with h
    subst h
    exact ⟨hy.1 _ _ hx, initFields_yields enc spans rest hy.2 _ _ hxs⟩

theorem variants_yields (b : Byte) (rest enc : Bytes) : {α : Type} → (ps : EnumParts α) →
    ps.yields → ∀ (i : Nat) (v : α), ps.impls.variants.deserialize b rest enc i = .ok v → ps.valid v
  | _, .nil, _, _, v, _ => v.elim
  | _, .cons T c _ ps, hy, i, v, h => by
    simp only [Spec.EnumParts.impls, PayloadImpls.variants, VariantImpls.deserialize] at h
    split at h
    · obtain ⟨x, hx, rfl⟩ := Res.map_eq_ok.mp h
      exact hy.1 _ _ hx
    · obtain ⟨x, hx, rfl⟩ := Res.map_eq_ok.mp h
      exact variants_yields b rest enc ps hy.2 _ _ hx

theorem transparent_yields (enc : Bytes) : {α : Type} → (ps : EnumParts α) → ps.yields →
    ∀ v : α, ps.impls.transparent.deserializeBody enc = .ok v → ps.valid v
  | _, .nil, _, v, _ => v.elim
  | _, .cons T c _ ps, hy, v, h => by
    simp only [Spec.EnumParts.impls, PayloadImpls.transparent,
      TransparentImpls.deserializeBody] at h
    split at h
    · rename_i x hx
      injection h with h
      subst h
      exact transparent_yields enc ps hy.2 _ hx
    · cases h
    · split at h
      · rename_i x hx
        injection h with h
        subst h
        exact hy.1 _ _ hx
      · cases h
      · cases h

/-! ## Roots -/

/-- The chunks of a collection of composite elements are their roots. -/
theorem assembleChunks_composite {α : Type} {E : Env} {T : SimpleSerialize α} {r : α → Node}
    {vs : List α} (hc : T.isCompositeType = true) (hlen : vs.length < 2 ^ 58)
    (hr : ∀ x ∈ vs, T.hashTreeRoot x = .ok (r x)) :
    assembleChunks E T vs = .ok (flat (vs.map r)) := by
  rw [assembleChunks, hc, if_pos rfl, elementsToChunks_ok hlen hr]

/-- The chunks of a collection of basic elements are their encodings, packed. -/
theorem assembleChunks_basic {α : Type} {E : Env} {T : SimpleSerialize α} {c : Codec α}
    {vs : List α} (h : Implements T.toSerializable c) (hc : T.isCompositeType = false)
    (hvar : c.var = false) (hsize : c.size < 2 ^ 32) (hv : Each c.valid vs) :
    assembleChunks E T vs = .ok (flat (chunkify (vs.flatMap c.enc))) := by
  rw [assembleChunks, hc]
  simp only [Bool.false_eq_true, if_false]
  unfold pack
  rw [packLoop_ok vs [] (fun v hx => h.serialize v (hv v hx) (by
    rw [h.length hvar v (hv v hx)]; exact hsize)), Res.map_ok, packBytes_eq]
  rfl

theorem map_leaf_root (H : Bytes → Node) (ns : List Node) :
    (ns.map MTree.leaf).map (·.root H) = ns := by
  rw [List.map_map]
  exact (List.map_congr_left (fun _ _ => rfl)).trans (List.map_id _)

theorem full_leaf_root (H : Bytes → Node) (d : Nat) (ns : List Node) :
    rootD H zeroNode d ns = (full d (ns.map .leaf)).root H := by
  rw [full_root, map_leaf_root]

theorem flatMap_codec_length {α : Type} {T : Serializable α} {c : Codec α} {vs : List α}
    (h : Implements T c) (hvar : c.var = false) (hv : Each c.valid vs) :
    (vs.flatMap c.enc).length = vs.length * c.size := by
  rw [flatMap_length_const vs c.enc c.size fun x hx => h.length hvar x (hv x hx), Nat.mul_comm]

/-- The roots of the fields of a struct. -/
def fieldRoots : {α : Type} → FieldImpls α → α → List (Res MerkError Node)
  | _, .nil, _ => []
  | _, .cons _ T rest, v => T.hashTreeRoot v.1 :: fieldRoots rest v.2

theorem assembleLoop_roots : {α : Type} → (fs : FieldImpls α) → (v : α) → (pre rs : List Node) →
    fieldRoots fs v = rs.map .ok →
    fs.assembleLoop v pre.length (flat (pre ++ List.replicate rs.length zeroNode)) =
      .ok (flat (pre ++ rs))
  | _, .nil, _, pre, rs, h => by
    have : rs = [] := by simpa [fieldRoots] using h
    subst this
    simp [FieldImpls.assembleLoop]
  | _, .cons _ T rest, v, pre, [], h => by simp [fieldRoots] at h
  | _, .cons _ T rest, v, pre, r :: rs, h => by
    simp only [fieldRoots, List.map_cons, List.cons.injEq] at h
    show (T.hashTreeRoot v.1 >>= fun chunk =>
      copyInto (flat (pre ++ List.replicate (rs.length + 1) zeroNode)) (pre.length * 32)
        ((pre.length + 1) * 32) chunk.1 >>= fun chunks' =>
      rest.assembleLoop v.2 (pre.length + 1) chunks') = _
    rw [h.1, Res.ok_bind,
      copyInto_flat (ns := pre ++ List.replicate (rs.length + 1) zeroNode) (i := pre.length)
        r (by simp) rfl rfl rfl, Res.ok_bind]
    have := assembleLoop_roots rest v.2 (pre ++ [r]) rs h.2
    rw [List.length_append, List.length_singleton, List.append_assoc, List.append_assoc] at this
    rw [List.set_append_right _ _ (Nat.le_refl _), Nat.sub_self,
      List.replicate_succ, List.set_cons_zero]
    exact this

theorem fieldRoots_length : {α : Type} → (fs : FieldImpls α) → (v : α) →
    (fieldRoots fs v).length = fs.count
  | _, .nil, _ => rfl
  | _, .cons _ _ rest, v => by
    show (fieldRoots rest v.2).length + 1 = 1 + rest.count
    rw [fieldRoots_length rest v.2, Nat.add_comm]

/-- The root of the payload of an enum. -/
def payloadRoot : {α : Type} → EnumParts α → α → Res MerkError Node
  | _, .nil, v => v.elim
  | _, .cons T _ _ _, .inl v => T.hashTreeRoot v
  | _, .cons _ _ _ rest, .inr v => payloadRoot rest v

theorem variants_root (E : Env) : {α : Type} → (ps : EnumParts α) → (i : Nat) → (v : α) →
    (r : Node) → payloadRoot ps v = .ok r → i + ps.count < 2 ^ 64 →
    ps.impls.variants.hashTreeRoot E i v =
      .ok ((MTree.node (.leaf r) (numLeaf (i + ps.position v))).root E.sha256)
  | _, .nil, _, v, _, _, _ => v.elim
  | _, .cons T _ _ rest, i, .inl v, r, h, hc => by
    have h : T.hashTreeRoot v = .ok r := h
    simp only [Spec.EnumParts.count] at hc
    show (T.hashTreeRoot v >>= fun chunks => mixInDecoration E chunks i) = _
    rw [h, Res.ok_bind, mixInDecoration_ok E (by omega)]
    rfl
  | _, .cons _ _ _ rest, i, .inr v, r, h, hc => by
    simp only [Spec.EnumParts.count] at hc
    have := variants_root E rest (i + 1) v r h (by omega)
    rw [Nat.add_right_comm, Nat.add_assoc] at this
    exact this

theorem transparent_root : {α : Type} → (ps : EnumParts α) → (v : α) →
    ps.impls.transparent.hashTreeRoot v = payloadRoot ps v
  | _, .nil, v => v.elim
  | _, .cons _ _ _ _, .inl _ => rfl
  | _, .cons _ _ _ rest, .inr v => transparent_root rest v

/-! ## The types of the crate -/

/-- The encoding of a type. -/
def codecOf (t : Ty) : Codec t.Val where
  var := isVar t
  size := fixedLen t
  valid := Valid t
  enc := Spec.enc t
  norm := Spec.norm t

theorem impl_implements (E : Env) (t : Ty) (hl : Legal t) (hf : Fits t) :
    Implements (t.impl E).toSerializable (codecOf t) where
  isVariableSize := impl_isVar E t
  sizeHint := impl_sizeHint E t hf
  size_lt := fixedLen_lt t hf
  size_pos := fixedLen_pos t hl
  length hvar v hv := enc_length t v hvar hv
  serialize v hv hlen := impl_serialize E t v hl hf hv (small_of_length t v hlen)
  deserialize v hv hlen := de_enc E t v hl hf hv (small_of_length t v hlen)

end Ssz
