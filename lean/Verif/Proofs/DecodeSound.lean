import Verif.Proofs.Deserialize

/-!
# Decoding: soundness and absence of panics
-/

namespace Ssz

open Spec

theorem forall₂_collect {ε α β : Type} {dec : β → Res ε α} {P : α → β → Prop} {ps : List β}
    {vs : List α} (h : List.Forall₂ (fun p x => dec p = .ok x) ps vs)
    (hP : ∀ p ∈ ps, ∀ x, dec p = .ok x → P x p) : List.Forall₂ (fun p x => P x p) ps vs := by
  induction h with
  | nil => exact .nil
  | cons h1 _ ih =>
    exact .cons (hP _ (by simp) _ h1) (ih (fun p hp => hP p (by simp [hp])))

theorem collection_sound (E : Env) (t : Ty) (hf : Fits t) {b : Bytes} (hb : b.length < 2 ^ 63)
    {vs : List t.Val} (hmod : isVar t = false → b.length % fixedLen t = 0)
    (h : deserializeHomogeneousComposite E (t.impl E).toSerializable b = .ok vs)
    (ih : ∀ (p : Bytes) (x : t.Val), p.length < 2 ^ 63 → (t.impl E).deserialize p = .ok x →
      Valid t x ∧ norm t x = x ∧ (NoEmptyVarList t x → enc t x = p)) :
    Each (Valid t) vs ∧ vs.map (norm t) = vs ∧
      ((isVar t = true → vs ≠ []) → Each (NoEmptyVarList t) vs →
        assemble (vs.map fun x => (isVar t, enc t x)) = b) := by
  rcases homogeneous_sound E (impl_isVar E t) (impl_sizeHint E t hf) hmod h with ⟨h1, h2⟩ | h1
  · subst h2
    exact ⟨by simp [Each], rfl, fun h3 => absurd rfl (h3 h1)⟩
  · obtain ⟨ps, hps, -, hall⟩ := h1
    have hlen : ∀ p ∈ ps, p.length < 2 ^ 63 := by
      intro p hp
      have := piece_length_le (ps := ps.map fun p => (isVar t, p)) (p := (isVar t, p))
        (List.mem_map_of_mem hp)
      rw [← hps] at this
      exact Nat.lt_of_le_of_lt this hb
    have hall := forall₂_collect hall (fun p hp x hx => ih p x (hlen p hp) hx)
    subst hps
    clear hlen hb hmod h
    rename List.Forall₂ (fun p x => (t.impl E).deserialize p = .ok x) ps vs => hall0
    clear hall0
    have key : Each (Valid t) vs ∧ vs.map (norm t) = vs ∧
        (Each (NoEmptyVarList t) vs → vs.map (enc t) = ps) := by
      induction hall with
      | nil => exact ⟨by simp [Each], rfl, fun _ => rfl⟩
      | cons h1 _ ih =>
        obtain ⟨i1, i2, i3⟩ := ih
        refine ⟨?_, ?_, ?_⟩
        · intro x hx
          rcases List.mem_cons.mp hx with hx | hx
          · subst hx; exact h1.1
          · exact i1 x hx
        · rw [List.map_cons, h1.2.1, i2]
        · intro hne
          rw [List.map_cons, h1.2.2 (hne _ (by simp)), i3 (fun x hx => hne x (by simp [hx]))]
    refine ⟨key.1, key.2.1, fun _ hne => ?_⟩
    rw [← key.2.2 hne, List.map_map]
    rfl

mutual

theorem de_sound (E : Env) : ∀ (t : Ty) (b : Bytes) (v : t.Val), Legal t → Fits t →
    b.length < 2 ^ 63 → (t.impl E).deserialize b = .ok v →
    Valid t v ∧ norm t v = v ∧ (NoEmptyVarList t v → enc t v = b)
  | .uint u, b, v, _, _, _, h => by
    refine ⟨trivial, rfl, fun _ => ?_⟩
    have h : (Serializable.uint u).deserialize b = .ok v := h
    rw [uint_deserialize] at h
    split at h
    · cases h
    · split at h
      · cases h
      · injection h with h
        have hl : b.length = u.bits / 8 := by omega
        have h3 := fromLeBytes_lt b
        have : (256 : Nat) ^ (u.bits / 8) = 2 ^ u.bits := by cases u <;> decide
        rw [hl, this] at h3
        show leBytes (u.bits / 8) (BitVec.toNat v) = b
        rw [← h, BitVec.toNat_ofNat, Nat.mod_eq_of_lt h3, ← hl, leBytes_fromLeBytes]
  | .u256, b, v, _, _, _, h => by
    refine ⟨trivial, rfl, fun _ => ?_⟩
    have h : (if b.length < 32 then .err (DeError.expectedFurtherInput b.length 32)
      else if b.length > 32 then .err (DeError.additionalInput b.length 32)
      else (slice b 0 32).map fun bytes => BitVec.ofNat 256 (fromLeBytes bytes)) = .ok v := h
    split at h
    · cases h
    · split at h
      · cases h
      · have hl : b.length = 32 := by omega
        rw [slice_ok (by omega) (by omega)] at h
        simp only [List.drop_zero, Nat.sub_zero, Res.map_ok] at h
        injection h with h
        rw [List.take_of_length_le (by omega)] at h
        have h3 := fromLeBytes_lt b
        have h4 : (256 : Nat) ^ 32 = 2 ^ 256 := by decide
        rw [hl, h4] at h3
        show leBytes 32 (BitVec.toNat v) = b
        rw [← h, BitVec.toNat_ofNat, Nat.mod_eq_of_lt h3]
        have := leBytes_fromLeBytes b
        rw [hl] at this
        exact this
  | .bool, b, v, _, _, _, h => by
    refine ⟨trivial, rfl, fun _ => ?_⟩
    match b, h with
    | [], h => cases h
    | [x], h =>
      have h : (if x = 0 then .ok false else if x = 1 then .ok true
        else .err (DeError.invalidByte x)) = Res.ok v := h
      split at h
      · rename_i hx
        injection h with h
        subst h hx; rfl
      · split at h
        · rename_i hx
          injection h with h
          subst h hx; rfl
        · cases h
    | _ :: _ :: _, h => cases h
  | .node, b, v, _, _, _, h => by
    refine ⟨trivial, rfl, fun _ => ?_⟩
    have h : (if b.length < 32 then .err (DeError.expectedFurtherInput b.length 32)
      else if b.length > 32 then .err (DeError.additionalInput b.length 32)
      else (slice b 0 32 >>= fun bytes => toNode bytes)) = .ok v := h
    split at h
    · cases h
    · split at h
      · cases h
      · have hl : b.length = 32 := by omega
        rw [slice_ok (by omega) (by omega)] at h
        simp only [List.drop_zero, Nat.sub_zero, Res.ok_bind] at h
        rw [List.take_of_length_le (by omega)] at h
        simp only [toNode, hl, dif_pos] at h
        injection h with h
        subst h
        rfl
  | .array t n, b, v, hl, hf, hb, h => by
    obtain ⟨h1, h2, h3⟩ := array_deserialize_sound (E := E) (T := (t.impl E).toSerializable) h
    have h4 := checkVectorLength_sound (impl_isVar E t) (impl_sizeHint E t hf.1)
      (by rw [Nat.mul_comm]; exact Nat.lt_trans hf.2 (by decide)) h2
    obtain ⟨k1, k2, k3⟩ := collection_sound E t hf.1 hb
      (fun hv => by rw [h4 hv]; exact Nat.mul_mod_left _ _) h3
      (fun p x hp hx => de_sound E t p x hl.2 hf.1 hp hx)
    obtain ⟨vs, hvs⟩ := v
    refine ⟨k1, Subtype.ext k2, fun hne => k3 (fun _ hnil => ?_) hne⟩
    have hnil : vs = [] := hnil
    subst hnil
    exact h1 hvs.symm
  | .vector t n, b, v, hl, hf, hb, h => by
    obtain ⟨h1, h2, h3, h5⟩ := vector_deserialize_sound (E := E) (T := (t.impl E).toSerializable) h
    have h4 := checkVectorLength_sound (impl_isVar E t) (impl_sizeHint E t hf.1)
      (by rw [Nat.mul_comm]; exact Nat.lt_trans hf.2 (by decide)) h2
    obtain ⟨k1, k2, k3⟩ := collection_sound E t hf.1 hb
      (fun hv => by rw [h4 hv]; exact Nat.mul_mod_left _ _) h3
      (fun p x hp hx => de_sound E t p x hl.2 hf.1 hp hx)
    refine ⟨⟨h5, k1⟩, k2, fun hne => k3 (fun _ hnil => ?_) hne⟩
    subst hnil
    exact h1 h5.symm
  | .list t n, b, v, hl, hf, hb, h => by
    obtain ⟨h2, h3, h5⟩ := list_deserialize_sound (E := E) (T := (t.impl E).toSerializable) h
    have h4 := checkListLength_sound (impl_isVar E t) (impl_sizeHint E t hf) h2
    obtain ⟨k1, k2, k3⟩ := collection_sound E t hf hb h4 h3
      (fun p x hp hx => de_sound E t p x hl hf hp hx)
    exact ⟨⟨h5, k1⟩, k2, fun hne => k3 hne.1 hne.2⟩
  | .bitvector n, b, v, _, _, _, h => by
    obtain ⟨h1, h2, h3, h4⟩ := Bitvector.deserialize_sound h
    refine ⟨h2, ?_, fun _ => h4⟩
    obtain ⟨l, d⟩ := v
    show (⟨l, padBits l.length⟩ : Bits) = ⟨l, d⟩
    have h2 : l.length = n := h2
    have h3 : d = padBits n := h3
    rw [h3, h2]
  | .bitlist n, b, v, _, hf, _, h => by
    obtain ⟨h1, h2, h3⟩ := Bitlist.deserialize_sound hf h
    refine ⟨⟨h1, h2⟩, ?_, fun _ => h3⟩
    obtain ⟨l, d⟩ := v
    show (⟨l, padBits l.length⟩ : Bits) = ⟨l, d⟩
    have h2 : d = padBits l.length := h2
    rw [h2]
  | .option t, b, v, hl, hf, hb, h => by
    match b, hb, h with
    | [], _, h => cases h
    | x :: r, hb, h =>
      have h : (if x = 0 then
          if (x :: r).length ≠ 1 then .err (DeError.additionalInput (x :: r).length 1) else .ok none
        else if x = 1 then ((t.impl E).deserialize r >>= fun inner => .ok (some inner))
        else .err (.invalidByte x)) = Res.ok v := h
      split at h
      · rename_i hx
        split at h
        · cases h
        · rename_i hlen
          injection h with h
          subst h hx
          have hr : r = [] := List.eq_nil_of_length_eq_zero (by
            simp only [List.length_cons] at hlen; omega)
          subst hr
          exact ⟨fun x hx => (nomatch hx), rfl, fun _ => rfl⟩
      · split at h
        · rename_i hx
          obtain ⟨y, h1, h2⟩ := Res.bind_eq_ok.mp h
          injection h2 with h2
          subst h2 hx
          obtain ⟨k1, k2, k3⟩ := de_sound E t r y hl hf (by
            simp only [List.length_cons] at hb; omega) h1
          refine ⟨fun z hz => ?_, ?_, fun hne => ?_⟩
          · injection hz with hz; subst hz; exact k1
          · exact congrArg some k2
          · show 1 :: enc t y = 1 :: r
            rw [k3 (hne y rfl)]
        · cases h
  | .newtype t, b, v, hl, hf, hb, h => by
    have h : ((t.impl E).deserialize b >>= fun r => .ok r) = .ok v := h
    obtain ⟨y, h1, h2⟩ := Res.bind_eq_ok.mp h
    injection h2 with h2
    subst h2
    exact de_sound E t b y hl hf hb h1
  | .container fs, b, v, hl, hf, hb, h => by
    obtain ⟨ps, h1, h2, h3, -⟩ := container_decode_sound E fs hf.1 (Nat.lt_trans hf.2 (by decide)) hb h
    subst h2
    obtain ⟨k1, k2, k3⟩ := decodePieces_sound E fs ps v hl.2.2 hf.1 h1
      (fun p hp => Nat.lt_of_le_of_lt (piece_length_le hp) hb) h3
    refine ⟨k1, k2, fun hne => ?_⟩
    show assemble (piecesF fs v) = _
    rw [k3 hne]
  | .union vs, b, v, hl, hf, hb, h => by
    match b, hb, h with
    | [], _, h => cases h
    | x :: r, hb, h =>
      have hc := countV_of_shape hl.1
      exact deV_sound E vs 0 x r v hl.2 hf (by simp only [List.length_cons] at hb; omega)
        (by omega) (unitOk_of_shape hl.1) h

theorem decodePieces_sound (E : Env) : ∀ (fs : Fields) (ps : List Piece) (v : fs.Val), LegalF fs →
    FitsF fs → HasShape ps (shapeF fs) → (∀ p ∈ ps, p.2.length < 2 ^ 63) →
    decodePieces E fs ps = .ok v →
    ValidF fs v ∧ normF fs v = v ∧ (NoEmptyVarListF fs v → piecesF fs v = ps)
  | .nil, [], v, _, _, _, _, _ => ⟨trivial, rfl, fun _ => rfl⟩
  | .nil, _ :: _, _, _, _, h, _, _ => h.elim
  | .cons _ t rest, [], _, _, _, h, _, _ => h.elim
  | .cons _ t rest, (pv, pb) :: ps, v, hl, hf, hs, hb, h => by
    simp only [decodePieces, Res.bind_eq_ok] at h
    obtain ⟨x, h1, y, h2, h3⟩ := h
    injection h3 with h3
    subst h3
    obtain ⟨k1, k2, k3⟩ := de_sound E t pb x hl.1 hf.1 (hb (pv, pb) (by simp)) h1
    obtain ⟨j1, j2, j3⟩ := decodePieces_sound E rest ps y hl.2 hf.2 hs.2.2
      (fun p hp => hb p (by simp [hp])) h2
    refine ⟨⟨k1, j1⟩, ?_, fun hne => ?_⟩
    · show (norm t x, normF rest y) = (x, y)
      rw [k2, j2]
    · show (isVar t, enc t x) :: piecesF rest y = _
      rw [k3 hne.1, j3 hne.2, hs.1]

theorem deV_sound (E : Env) : ∀ (vs : Variants) (i : Nat) (x : Byte) (r : Bytes) (v : vs.Val),
    LegalV vs → FitsV vs → r.length < 2 ^ 63 → i + countV vs ≤ 256 → UnitOk i vs →
    (vs.impls E).deserialize x r (x :: r) i = .ok v →
    ValidV vs v ∧ normV vs v = v ∧ (NoEmptyVarListV vs v → encV vs i v = x :: r)
  | .nil, _, _, _, v, _, _, _, _, _, _ => v.elim
  | .unit vs, i, x, r, v, hl, hf, hb, hc, hu, h => by
    obtain ⟨rfl, hu⟩ := hu
    simp only [countV] at hc
    simp only [Variants.impls, VariantImpls.deserialize] at h
    split at h
    · rename_i hx
      split at h
      · cases h
      · rename_i hlen
        injection h with h
        subst h hx
        have hr : r = [] := List.eq_nil_of_length_eq_zero (by
          simp only [List.length_cons] at hlen; omega)
        subst hr
        exact ⟨trivial, rfl, fun _ => rfl⟩
    · obtain ⟨y, h1, h2⟩ := Res.map_eq_ok.mp h
      subst h2
      obtain ⟨k1, k2, k3⟩ := deV_sound E vs (0 + 1) x r y hl hf hb (by omega)
        (unitOk_of_noUnit hu) h1
      exact ⟨k1, congrArg Sum.inr k2, k3⟩
  | .data t vs, i, x, r, v, hl, hf, hb, hc, hu, h => by
    simp only [countV] at hc
    simp only [Variants.impls, VariantImpls.deserialize] at h
    split at h
    · rename_i hx
      obtain ⟨y, h1, h2⟩ := Res.map_eq_ok.mp h
      subst h2
      obtain ⟨k1, k2, k3⟩ := de_sound E t r y hl.1 hf.1 hb h1
      refine ⟨k1, congrArg Sum.inl k2, fun hne => ?_⟩
      show BitVec.ofNat 8 i :: enc t y = _
      rw [k3 hne, hx]
    · obtain ⟨y, h1, h2⟩ := Res.map_eq_ok.mp h
      subst h2
      obtain ⟨k1, k2, k3⟩ := deV_sound E vs (i + 1) x r y hl.2 hf.2 hb (by omega)
        (unitOk_of_noUnit hu) h1
      exact ⟨k1, congrArg Sum.inr k2, k3⟩

end

/-! ## Absence of panics -/

theorem Env.sub_release {E : Env} (h : E.debug = false) (a b : Nat) : E.sub a b ≠ .panic := by
  unfold Env.sub
  split
  · simp
  · simp [h]

theorem checkOffset_ne_panic {E : Env} (h : E.debug = false) (len : Nat) (prev : Option Nat)
    (next : Nat) : checkOffset E len prev next ≠ .panic := by
  unfold checkOffset
  cases prev with
  | none => simp
  | some o =>
    simp only
    split
    · simp
    · split
      · simp [Res.bind_eq_panic, Res.lift_eq_panic, Env.sub_release h]
      · split
        · simp [Res.bind_eq_panic, Res.lift_eq_panic, Env.sub_release h]
        · simp

theorem deserializeU32_ne_panic (b : Bytes) : deserializeU32 b ≠ .panic := by
  rw [deserializeU32, uint_deserialize, Ne, Res.map_eq_panic]
  split
  · simp
  · split <;> simp

theorem parseShape_ne_panic (E : Env) (enc : Bytes) (hlen : enc.length < 2 ^ 63) :
    ∀ (sh : Shape) (S : List Segment) (O : List Nat) (T : Nat), T ≤ enc.length →
      T + shapeLen sh < 2 ^ 64 →
      (E.debug = false ∨ O.length + sh.countP (·.1) ≤ 1) →
      parseShape E enc sh ⟨S, O, T⟩ ≠ .panic
  | [], S, O, T, _, _, _ => by simp [parseShape]
  | (true, s) :: sh, S, O, T, hT, hs, hd => by
    simp only [shapeLen, List.map_cons, List.sum_cons, if_true] at hs
    simp only [parseShape, ContainerDeserializer.parse, if_true]
    rw [Env.sub_eq_ok hT]
    simp only [Res.lift_ok, Res.ok_bind]
    split
    · simp
    · rename_i w hw
      obtain ⟨_, g2, g3, _⟩ := drop_eq_getRange hw
      rw [deserializeU32_ok (by omega)]
      simp only [Res.ok_bind]
      have hchk : checkOffset E enc.length O.getLast? (fromLeBytes w) ≠ .panic := by
        rcases hd with hd | hd
        · exact checkOffset_ne_panic hd _ _ _
        · simp only [List.countP_cons, if_true] at hd
          have : O = [] := List.eq_nil_of_length_eq_zero (by omega)
          subst this
          simp [checkOffset]
      cases hc : checkOffset E enc.length O.getLast? (fromLeBytes w) with
      | panic => exact absurd hc hchk
      | err e => simp
      | ok u =>
        simp only [Res.ok_bind]
        apply parseShape_ne_panic E enc hlen sh _ _ _ g2 (by simp only [shapeLen]; omega)
        rcases hd with hd | hd
        · exact Or.inl hd
        · right
          simp only [List.countP_cons, if_true] at hd
          simp only [List.length_append, List.length_singleton]
          omega
  | (false, s) :: sh, S, O, T, hT, hs, hd => by
    simp only [shapeLen, List.map_cons, List.sum_cons, Bool.false_eq_true, if_false] at hs
    have hus : usizeMod = 2 ^ 64 := rfl
    have hadd : E.add T s = .ok (T + s) := Env.add_eq_ok (by omega)
    simp only [parseShape, ContainerDeserializer.parse, Bool.false_eq_true, if_false,
      Res.lift_ok, Res.ok_bind, hadd]
    rw [if_neg (by omega)]
    split
    · rw [Env.sub_eq_ok hT]; simp
    · simp only [Res.ok_bind]
      apply parseShape_ne_panic E enc hlen sh _ _ _ (by omega) (by simp only [shapeLen]; omega)
      simpa using hd

theorem finalizeSegments_ne_panic (E : Env) (len : Nat) :
    ∀ (its : List Item) (T total o : Nat) (rest : List Nat),
      offsI its ++ [len] = o :: rest → List.IsChain (· ≤ ·) (offsI its) →
      total + (len - o) < 2 ^ 64 →
      finalizeSegments E len (segsI T its) (o :: rest) total ≠ .panic
  | [], _, _, _, _, _, _, _ => by simp [segsI, finalizeSegments]
  | .fix b :: its, T, total, o, rest, h1, h2, h3 => by
    simp only [segsI, finalizeSegments, Ne, Res.bind_eq_panic]
    rintro (h | ⟨_, _, h⟩)
    · exact finalizeSegments_ne_panic E len its _ _ _ _ h1 h2 h3 h
    · cases h
  | .off o' :: its, T, total, o, rest, h1, h2, h3 => by
    simp only [offsI, List.cons_append, List.cons.injEq] at h1 h2
    obtain ⟨rfl, h1⟩ := h1
    have hn : ∃ n r, rest = n :: r := by
      rw [← h1]; cases h : offsI its <;> simp
    obtain ⟨n, r, rfl⟩ := hn
    have hus : usizeMod = 2 ^ 64 := rfl
    simp only [segsI, finalizeSegments, List.getElem?_cons_succ, List.getElem?_cons_zero,
      List.drop_succ_cons, List.drop_zero]
    split
    · simp
    · split
      · simp
      · have hle : o' ≤ n := by
          cases hi : offsI its with
          | nil =>
            rw [hi] at h1
            simp only [List.nil_append, List.cons.injEq] at h1
            omega
          | cons m ms =>
            rw [hi] at h1 h2
            simp only [List.cons_append, List.cons.injEq] at h1
            rw [List.isChain_cons_cons] at h2
            omega
        rw [Env.sub_eq_ok hle, Res.lift_ok, Res.ok_bind, Env.add_eq_ok (by omega), Res.lift_ok,
          Res.ok_bind]
        simp only [Ne, Res.bind_eq_panic]
        rintro (h | ⟨_, _, h⟩)
        · exact finalizeSegments_ne_panic E len its _ _ _ _ h1 h2.tail (by omega) h
        · cases h

theorem shapeF_countP : ∀ fs : Fields, (shapeF fs).countP (·.1) = countVarF fs
  | .nil => rfl
  | .cons _ t rest => by
    have := shapeF_countP rest
    simp only [shapeF, List.countP_cons, countVarF, this]
    split <;> omega

theorem container_ne_panic' (E : Env) (fs : Fields) (hf : FitsF fs) (hl : fixedLenF fs < 2 ^ 64)
    (b : Bytes) (hb : b.length < 2 ^ 63) (hd : parseShape E b (shapeF fs) ⟨[], [], 0⟩ ≠ .panic)
    (ih : ∀ ps, HasShape ps (shapeF fs) → b = assemble ps → Addressed ps → decodePieces E fs ps ≠ .panic) :
    ((Ty.container fs).impl E).deserialize b ≠ .panic := by
  show ((fs.impls E).parseAll E b {} >>= fun d => d.finalize E b >>=
    fun spans => (fs.impls E).initFields b spans 0) ≠ .panic
  rw [parseAll_eq E _ fs hf]
  have hsl := shapeLen_shapeF fs
  intro h
  rw [Res.bind_eq_panic] at h
  rcases h with h | ⟨d, h1, h⟩
  · exact hd h
  · rw [Res.bind_eq_panic] at h
    rcases h with h | ⟨spans, h2, h⟩
    · obtain ⟨its, i1, i2, i3, i4, i5, i6, i7⟩ := parseShape_sound E b hb _ [] [] 0 d (by omega)
        (by omega) h1
      simp only [ContainerDeserializer.finalize, Res.bind_eq_panic] at h
      rcases h with h | ⟨⟨sp, total⟩, _, h⟩
      · have hn : ∃ n r, offsI its ++ [b.length] = n :: r := by
          cases h : offsI its <;> simp
        obtain ⟨o, rest, ho⟩ := hn
        simp only [List.nil_append] at i5 i6
        rw [i5, i6, ho] at h
        exact finalizeSegments_ne_panic E b.length its 0 d.totalBytesRead o rest ho
          (by rw [← i6]; exact i7 (by simp)) (by omega) h
      · simp only at h
        split at h
        · cases h
        · split at h <;> cases h
    · obtain ⟨ps, p1, p2, p3, p4⟩ := container_sound E b hb (shapeF fs) (by omega) spans
        (by rw [h1]; exact h2)
      have := initFields_eq E b fs ps _ spans [] 0 rfl p1 (by
        rw [p3, p2]; exact spanOk_assemble ps) rfl
      rw [List.nil_append] at this
      rw [this] at h
      exact ih ps p1 p2 p4 h

theorem container_ne_panic (E : Env) (fs : Fields) (hf : FitsF fs) (hl : fixedLenF fs < 2 ^ 64)
    (b : Bytes) (hb : b.length < 2 ^ 63) (hd : E.debug = false ∨ countVarF fs ≤ 1)
    (ih : ∀ ps, HasShape ps (shapeF fs) → b = assemble ps → decodePieces E fs ps ≠ .panic) :
    ((Ty.container fs).impl E).deserialize b ≠ .panic := by
  refine container_ne_panic' E fs hf hl b hb ?_ fun ps h1 h2 _ => ih ps h1 h2
  have hsl := shapeLen_shapeF fs
  refine parseShape_ne_panic E b hb (shapeF fs) [] [] 0 (by omega) (by omega) ?_
  rw [shapeF_countP]
  simpa using hd

theorem fixed_homogeneous_ne_panic {α : Type} (E : Env) {T : Serializable α} {s : Nat}
    (hv : T.isVariableSize = false) (hs : T.sizeHint = .ok s) (hpos : 0 < s) {b : Bytes}
    (hb : b.length % s = 0) (hT : ∀ p : Bytes, p.length ≤ b.length → T.deserialize p ≠ .panic) :
    deserializeHomogeneousComposite E T b ≠ .panic := by
  unfold deserializeHomogeneousComposite
  rw [hv]
  simp only [Bool.false_eq_true, if_false, deserializeFixedHomogeneousComposite, hs, Res.lift_ok,
    Res.ok_bind]
  rw [if_neg (by omega), hb]
  simp only [beq_self_eq_true, Env.debugAssert_true, Res.lift_ok, Res.ok_bind]
  obtain ⟨c1, c2⟩ := chunksExact_spec hpos b hb
  apply Res.mapList_ne_panic
  intro c hc
  apply hT
  have h1 := c2 c hc
  have h2 := chunksExact_length hpos b hb
  have h3 : 0 < (chunksExact s b).length := List.length_pos_of_mem hc
  rw [h1, h2]
  exact Nat.le_mul_of_pos_right s h3

mutual

theorem de_ne_panic (E : Env) : ∀ (t : Ty) (b : Bytes), Legal t → Fits t → b.length < 2 ^ 63 →
    NoVarElems t → (E.debug = false ∨ OneVarField t) → (t.impl E).deserialize b ≠ .panic
  | .uint u, b, _, _, _, _, _ => by
    show (Serializable.uint u).deserialize b ≠ .panic
    rw [uint_deserialize]
    split
    · simp
    · split <;> simp
  | .u256, b, _, _, _, _, _ => by
    show (if b.length < 32 then .err (DeError.expectedFurtherInput b.length 32)
      else if b.length > 32 then .err (DeError.additionalInput b.length 32)
      else (slice b 0 32).map fun bytes => BitVec.ofNat 256 (fromLeBytes bytes)) ≠ .panic
    split
    · simp
    · split
      · simp
      · rw [slice_ok (by omega) (by omega)]; simp
  | .bool, b, _, _, _, _, _ => by
    match b with
    | [] => exact fun h => nomatch h
    | [x] =>
      show (if x = 0 then .ok false else if x = 1 then .ok true
        else .err (DeError.invalidByte x)) ≠ Res.panic
      split
      · simp
      · split <;> simp
    | _ :: _ :: _ => exact fun h => nomatch h
  | .node, b, _, _, _, _, _ => by
    show (if b.length < 32 then .err (DeError.expectedFurtherInput b.length 32)
      else if b.length > 32 then .err (DeError.additionalInput b.length 32)
      else (slice b 0 32 >>= fun bytes => toNode bytes)) ≠ .panic
    split
    · simp
    · split
      · simp
      · rw [slice_ok (by omega) (by omega)]
        simp only [List.drop_zero, Nat.sub_zero, Res.ok_bind]
        rw [List.take_of_length_le (by omega)]
        simp [toNode, show b.length = 32 by omega]
  | .array t n, b, hl, hf, hb, hn, hd => by
    have hv : (t.impl E).toSerializable.isVariableSize = false := by rw [impl_isVar]; exact hn.1
    have hs := impl_sizeHint E t hf.1
    have hms : n * fixedLen t < usizeMod := by rw [Nat.mul_comm]; exact Nat.lt_trans hf.2 (by decide)
    show (Serializable.array E (t.impl E).toSerializable n).deserialize b ≠ .panic
    simp only [Serializable.array]
    split
    · simp
    · intro h
      rw [Res.bind_eq_panic] at h
      rcases h with h | ⟨_, h1, h⟩
      · exact checkVectorLength_ne_panic hs hms h
      · rw [Res.bind_eq_panic] at h
        rcases h with h | ⟨_, h2, h⟩
        · have hlen := checkVectorLength_sound hv hs hms h1 rfl
          exact fixed_homogeneous_ne_panic E hv hs (fixedLen_pos t hl.2 hn.1)
            (by rw [hlen]; exact Nat.mul_mod_left _ _)
            (fun p hp => de_ne_panic E t p hl.2 hf.1 (by omega) hn.2 hd) h
        · split at h <;> cases h
  | .vector t n, b, hl, hf, hb, hn, hd => by
    have hv : (t.impl E).toSerializable.isVariableSize = false := by rw [impl_isVar]; exact hn.1
    have hs := impl_sizeHint E t hf.1
    have hms : n * fixedLen t < usizeMod := by rw [Nat.mul_comm]; exact Nat.lt_trans hf.2 (by decide)
    show (Serializable.vector E (t.impl E).toSerializable n).deserialize b ≠ .panic
    simp only [Serializable.vector]
    split
    · simp
    · rename_i hn0
      intro h
      rw [Res.bind_eq_panic] at h
      rcases h with h | ⟨_, h1, h⟩
      · exact checkVectorLength_ne_panic hs hms h
      · rw [Res.bind_eq_panic] at h
        rcases h with h | ⟨ws, h2, h⟩
        · have hlen := checkVectorLength_sound hv hs hms h1 rfl
          exact fixed_homogeneous_ne_panic E hv hs (fixedLen_pos t hl.2 hn.1)
            (by rw [hlen]; exact Nat.mul_mod_left _ _)
            (fun p hp => de_ne_panic E t p hl.2 hf.1 (by omega) hn.2 hd) h
        · simp only [SszVector.tryFromVec, if_neg hn0] at h
          by_cases hw : ws.length = n
          · rw [if_neg (by simpa using hw)] at h; cases h
          · rw [if_pos hw] at h; cases h
  | .list t n, b, hl, hf, hb, hn, hd => by
    have hv : (t.impl E).toSerializable.isVariableSize = false := by rw [impl_isVar]; exact hn.1
    have hs := impl_sizeHint E t hf
    have hpos := fixedLen_pos t hl hn.1
    show (Serializable.list E (t.impl E).toSerializable n).deserialize b ≠ .panic
    simp only [Serializable.list]
    intro h
    rw [Res.bind_eq_panic] at h
    rcases h with h | ⟨_, h1, h⟩
    · exact checkListLength_ne_panic hv hs (fun _ => hpos) h
    · rw [Res.bind_eq_panic] at h
      rcases h with h | ⟨ws, h2, h⟩
      · exact fixed_homogeneous_ne_panic E hv hs hpos (checkListLength_sound hv hs h1 rfl)
          (fun p hp => de_ne_panic E t p hl hf (by omega) hn.2 hd) h
      · split at h
        · cases h
        · rename_i hw
          simp only [SszList.tryFromVec, if_neg hw] at h
          cases h
  | .bitvector n, b, hl, _, _, _, _ => by
    have hl : 0 < n := hl
    show Bitvector.deserialize n b ≠ .panic
    unfold Bitvector.deserialize
    rw [if_neg (by omega)]
    simp only
    split
    · simp
    · split
      · simp
      · rename_i h1 h2
        rw [Bitvector.default, if_neg (by omega), Res.ok_bind]
        split
        · have hb : b ≠ [] := by
            rintro rfl
            simp only [bitvectorByteLength, List.length_nil] at h1
            omega
          rw [List.getLast?_eq_some_getLast hb]
          simp only
          split <;> simp
        · simp
  | .bitlist n, b, _, hf, _, _, _ => Bitlist.deserialize_ne_panic hf b
  | .option t, b, hl, hf, hb, hn, hd => by
    match b, hb with
    | [], _ => exact fun h => nomatch h
    | x :: r, hb =>
      show (if x = 0 then
          if (x :: r).length ≠ 1 then .err (DeError.additionalInput (x :: r).length 1) else .ok none
        else if x = 1 then ((t.impl E).deserialize r >>= fun inner => .ok (some inner))
        else .err (.invalidByte x)) ≠ Res.panic
      split
      · split <;> simp
      · split
        · rw [Ne, Res.bind_eq_panic]
          rintro (h | ⟨_, _, h⟩)
          · exact de_ne_panic E t r hl hf (by simp only [List.length_cons] at hb; omega) hn hd h
          · cases h
        · simp
  | .newtype t, b, hl, hf, hb, hn, hd => by
    show ((t.impl E).deserialize b >>= fun r => .ok r) ≠ .panic
    rw [Ne, Res.bind_eq_panic]
    rintro (h | ⟨_, _, h⟩)
    · exact de_ne_panic E t b hl hf hb hn hd h
    · cases h
  | .container fs, b, hl, hf, hb, hn, hd => by
    apply container_ne_panic E fs hf.1 (Nat.lt_trans hf.2 (by decide)) b hb (hd.imp id (·.1))
    intro ps h1 h2
    subst h2
    exact decodePieces_ne_panic E fs ps hl.2.2 hf.1 h1
      (fun p hp => Nat.lt_of_le_of_lt (piece_length_le hp) hb) hn (hd.imp id (·.2))
  | .union vs, b, hl, hf, hb, hn, hd => by
    match b, hb with
    | [], _ => exact fun h => nomatch h
    | x :: r, hb =>
      exact deV_ne_panic E vs 0 x r hl.2 hf (by simp only [List.length_cons] at hb; omega) hn hd

theorem decodePieces_ne_panic (E : Env) : ∀ (fs : Fields) (ps : List Piece), LegalF fs →
    FitsF fs → HasShape ps (shapeF fs) → (∀ p ∈ ps, p.2.length < 2 ^ 63) → NoVarElemsF fs →
    (E.debug = false ∨ OneVarFieldF fs) → decodePieces E fs ps ≠ .panic
  | .nil, _, _, _, _, _, _, _ => by simp [decodePieces]
  | .cons _ t rest, [], _, _, h, _, _, _ => h.elim
  | .cons _ t rest, (pv, pb) :: ps, hl, hf, hs, hb, hn, hd => by
    simp only [decodePieces, Ne, Res.bind_eq_panic]
    rintro (h | ⟨_, _, h | ⟨_, _, h⟩⟩)
    · exact de_ne_panic E t pb hl.1 hf.1 (hb (pv, pb) (by simp)) hn.1 (hd.imp id (·.1)) h
    · exact decodePieces_ne_panic E rest ps hl.2 hf.2 hs.2.2 (fun p hp => hb p (by simp [hp])) hn.2
        (hd.imp id (·.2)) h
    · cases h

theorem deV_ne_panic (E : Env) : ∀ (vs : Variants) (i : Nat) (x : Byte) (r : Bytes),
    LegalV vs → FitsV vs → r.length < 2 ^ 63 → NoVarElemsV vs →
    (E.debug = false ∨ OneVarFieldV vs) →
    (vs.impls E).deserialize x r (x :: r) i ≠ .panic
  | .nil, _, _, _, _, _, _, _, _ => fun h => nomatch h
  | .unit vs, i, x, r, hl, hf, hb, hn, hd => by
    simp only [Variants.impls, VariantImpls.deserialize]
    split
    · split <;> exact fun h => nomatch h
    · exact fun h => deV_ne_panic E vs (i + 1) x r hl hf hb hn hd (Res.map_eq_panic.mp h)
  | .data t vs, i, x, r, hl, hf, hb, hn, hd => by
    simp only [Variants.impls, VariantImpls.deserialize]
    split
    · exact fun h => de_ne_panic E t r hl.1 hf.1 hb hn.1 (hd.imp id (·.1)) (Res.map_eq_panic.mp h)
    · exact fun h => deV_ne_panic E vs (i + 1) x r hl.2 hf.2 hb hn.2 (hd.imp id (·.2))
        (Res.map_eq_panic.mp h)

end

end Ssz
