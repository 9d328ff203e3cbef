import Verif.Proofs.Decode

/-!
# Decoding: completeness (encodings decode) and soundness (what decodes is an encoding)
-/

namespace Ssz

open Spec

/-! ## Sizes -/

mutual

theorem fixedLen_pos : ∀ t : Ty, Legal t → isVar t = false → 0 < fixedLen t
  | .uint u, _, _ => by cases u <;> decide
  | .u256, _, _ => by decide
  | .bool, _, _ => by decide
  | .node, _, _ => by decide
  | .array t n, h, hv => by
    have := fixedLen_pos t h.2 hv
    exact Nat.mul_pos this h.1
  | .vector t n, h, hv => by
    have := fixedLen_pos t h.2 hv
    exact Nat.mul_pos this h.1
  | .list _ _, _, hv => by simp [isVar] at hv
  | .bitvector n, h, _ => by
    have : 0 < n := h
    simp only [fixedLen]; omega
  | .bitlist _, _, hv => by simp [isVar] at hv
  | .option _, _, hv => by simp [isVar] at hv
  | .newtype t, h, hv => fixedLen_pos t h hv
  | .container fs, h, hv => by
    simp only [isVar] at hv
    simp only [fixedLen, hv, Bool.false_eq_true, if_false]
    exact fixedLenF_pos fs h.1 h.2.2
  | .union _, _, hv => by simp [isVar] at hv

theorem fixedLenF_pos : ∀ fs : Fields, namesF fs ≠ [] → LegalF fs → 0 < fixedLenF fs
  | .nil, h, _ => by simp [namesF] at h
  | .cons _ t rest, _, h => by
    simp only [fixedLenF]
    split
    · omega
    · rename_i hv
      have := fixedLen_pos t h.1 (by simpa using hv)
      omega

end

/-! ## Homogeneous composites -/

theorem assemble_map_false (ps : List Bytes) : assemble (ps.map fun p => (false, p)) = ps.flatten := by
  rw [assemble_fixed _ (by simp)]
  induction ps with
  | nil => rfl
  | cons p ps ih => simp only [List.map_cons, List.flatMap_cons, List.flatten_cons, ih]

theorem addressed_map_false (ps : List Bytes) : Addressed (ps.map fun p => (false, p)) := by
  have h : ∀ o, starts o (ps.map fun p => (false, p)) = [] := by
    intro o
    induction ps with
    | nil => rfl
    | cons p ps ih => exact ih
  intro o ho
  rw [h] at ho
  cases ho

theorem homogeneous_complete {α : Type} (E : Env) {T : Serializable α} {v : Bool} {s : Nat}
    (hv : T.isVariableSize = v) (hs : T.sizeHint = .ok s) (ps : List Bytes)
    (hpos : v = false → 0 < s) (hps : v = false → ∀ p ∈ ps, p.length = s)
    (hlen : v = true → Addressed (ps.map fun p => (v, p))) :
    deserializeHomogeneousComposite E T (assemble (ps.map fun p => (v, p))) =
      Res.mapList T.deserialize ps := by
  unfold deserializeHomogeneousComposite
  cases v with
  | true =>
    rw [hv, if_pos rfl]
    exact deserializeVariable_complete T ps (hlen rfl)
  | false =>
    rw [hv]
    simp only [Bool.false_eq_true, if_false]
    rw [assemble_map_false]
    simp only [deserializeFixedHomogeneousComposite, hs, Res.lift_ok, Res.ok_bind]
    have hp := hpos rfl
    rw [if_neg (by omega), flatten_length_const _ s (hps rfl), Nat.mul_mod_right]
    simp only [beq_self_eq_true, Env.debugAssert_true, Res.lift_ok, Res.ok_bind]
    rw [chunksExact_flatten hp _ (hps rfl)]

theorem homogeneous_sound {α : Type} (E : Env) {T : Serializable α} {v : Bool} {s : Nat}
    (hv : T.isVariableSize = v) (hs : T.sizeHint = .ok s) {b : Bytes} {vs : List α}
    (hmod : v = false → b.length % s = 0)
    (h : deserializeHomogeneousComposite E T b = .ok vs) :
    (v = true ∧ vs = []) ∨ ∃ ps : List Bytes, b = assemble (ps.map fun p => (v, p)) ∧
      Addressed (ps.map fun p => (v, p)) ∧ List.Forall₂ (fun p x => T.deserialize p = .ok x) ps vs := by
  unfold deserializeHomogeneousComposite at h
  cases v with
  | true =>
    rw [hv, if_pos rfl] at h
    rcases deserializeVariable_sound T b vs h with h1 | h1
    · exact Or.inl ⟨rfl, h1⟩
    · exact Or.inr h1
  | false =>
    right
    rw [hv] at h
    simp only [Bool.false_eq_true, if_false, deserializeFixedHomogeneousComposite, hs, Res.lift_ok,
      Res.ok_bind] at h
    split at h
    · cases h
    · rename_i hs0
      simp only [hmod rfl, beq_self_eq_true, Env.debugAssert_true, Res.lift_ok, Res.ok_bind] at h
      obtain ⟨c1, _⟩ := chunksExact_spec (s := s) (by omega) b (hmod rfl)
      refine ⟨chunksExact s b, ?_, addressed_map_false _, Res.mapList_eq_ok.mp h⟩
      rw [assemble_map_false, c1]

/-! ## Containers -/

/-- Decode every piece at the type of its field. -/
def decodePieces (E : Env) : (fs : Fields) → List Piece → Res DeError fs.Val
  | .nil, _ => .ok ()
  | .cons _ _ _, [] => .panic
  | .cons _ t rest, p :: ps => do
    let v ← (t.impl E).deserialize p.2
    let vs ← decodePieces E rest ps
    .ok (v, vs)

/-- Consecutive spans cut the pieces out of the encoding. -/
def SpanOk (enc : Bytes) : List Nat → List Piece → Prop
  | a :: b :: rest, p :: ps => (slice enc a b : Res DeError Bytes) = .ok p.2 ∧ SpanOk enc rest ps
  | _, [] => True
  | _, _ => False

theorem spanOk_spansF (enc : Bytes) : ∀ (ps : List Piece) (pre mid : Bytes) (off : Nat),
    enc = pre ++ heads off ps ++ mid ++ tails ps → off = enc.length - (tails ps).length →
    SpanOk enc (spansF pre.length off ps) ps
  | [], _, _, _, _, _ => by simp [SpanOk]
  | (true, b) :: ps, pre, mid, off, h, ho => by
    rw [tails_cons_true] at h ho
    simp only [heads] at h
    refine ⟨?_, ?_⟩
    · rw [show enc = (pre ++ (leBytes 4 off ++ heads (off + b.length) ps) ++ mid) ++ b ++ tails ps by
        rw [h]; simp [List.append_assoc]]
      have hl := congrArg List.length h
      simp only [List.length_append] at hl ho
      apply slice_append
      · simp only [List.length_append]; omega
      · simp only [List.length_append]; omega
    · have hl := congrArg List.length h
      simp only [List.length_append] at hl ho
      have := spanOk_spansF enc ps (pre ++ leBytes 4 off) (mid ++ b) (off + b.length)
        (by rw [h]; simp [List.append_assoc]) (by omega)
      rw [List.length_append, leBytes_length] at this
      exact this
  | (false, b) :: ps, pre, mid, off, h, ho => by
    rw [tails_cons_false] at h ho
    simp only [heads] at h
    refine ⟨?_, ?_⟩
    · rw [show enc = pre ++ b ++ (heads off ps ++ mid ++ tails ps) by
        rw [h]; simp [List.append_assoc]]
      exact slice_append rfl rfl
    · have := spanOk_spansF enc ps (pre ++ b) mid off (by rw [h]; simp [List.append_assoc]) ho
      rw [List.length_append] at this
      exact this

theorem spanOk_assemble (ps : List Piece) :
    SpanOk (assemble ps) (spansF 0 (headLen ps) ps) ps := by
  have := spanOk_spansF (assemble ps) ps [] [] (headLen ps) (by simp [assemble])
    (by rw [assemble_length]; omega)
  exact this

theorem initFields_eq (E : Env) (enc : Bytes) : ∀ (fs : Fields) (ps : List Piece) (sh : Shape)
    (spans S : List Nat) (i : Nat), sh = shapeF fs → HasShape ps sh → SpanOk enc spans ps →
    S.length = 2 * i →
    (fs.impls E).initFields enc (S ++ spans) i = decodePieces E fs ps
  | .nil, _, _, _, _, _, _, _, _, _ => rfl
  | .cons _ t rest, [], sh, _, _, _, hsh, hp, _, _ => by subst hsh; exact hp.elim
  | .cons name t rest, p :: ps, sh, spans, S, i, hsh, hp, hs, hi => by
    subst hsh
    match spans, hs with
    | a :: b :: spans', hs =>
      show (index (S ++ a :: b :: spans') (2 * i) >>= fun start =>
        index (S ++ a :: b :: spans') (2 * i + 1) >>= fun stop =>
        slice enc start stop >>= fun piece =>
        (t.impl E).deserialize piece >>= fun v =>
        (rest.impls E).initFields enc (S ++ a :: b :: spans') (i + 1) >>= fun vs =>
        (.ok (v, vs) : Res DeError (t.Val × rest.Val))) = _
      have h1 : (index (S ++ a :: b :: spans') (2 * i) : Res DeError Nat) = .ok a := by
        simp [index, ← hi]
      have h2 : (index (S ++ a :: b :: spans') (2 * i + 1) : Res DeError Nat) = .ok b := by
        simp [index, ← hi]
      have h3 : (rest.impls E).initFields enc (S ++ a :: b :: spans') (i + 1) =
          decodePieces E rest ps := by
        have := initFields_eq E enc rest ps _ spans' (S ++ [a, b]) (i + 1) rfl
          (by obtain ⟨v, w⟩ := p; exact hp.2.2) hs.2 (by simp; omega)
        rw [← this]; simp
      rw [h1, Res.ok_bind, h2, Res.ok_bind, hs.1, Res.ok_bind, h3]
      rfl
    | [], hs => exact hs.elim
    | [_], hs => exact hs.elim

theorem hasShape_piecesF : ∀ (fs : Fields) (v : fs.Val), ValidF fs v →
    HasShape (piecesF fs v) (shapeF fs)
  | .nil, _, _ => by simp [piecesF, shapeF, HasShape]
  | .cons _ t rest, v, h =>
    ⟨rfl, fun hv => enc_length t v.1 hv h.1, hasShape_piecesF rest v.2 h.2⟩

/-- Decoding a container is decoding the pieces of its input. -/
theorem container_decode_complete (E : Env) (fs : Fields) (hf : FitsF fs) (ps : List Piece)
    (h : HasShape ps (shapeF fs)) (hA : Addressed ps) (hlen : (assemble ps).length < 2 ^ 63) :
    ((Ty.container fs).impl E).deserialize (assemble ps) = decodePieces E fs ps := by
  show ((fs.impls E).parseAll E (assemble ps) {} >>= fun d => d.finalize E (assemble ps) >>=
    fun spans => (fs.impls E).initFields (assemble ps) spans 0) = _
  have h1 := container_complete E ps _ h hA hlen
  rw [parseAll_eq E _ fs hf]
  rw [Res.bind_eq_ok] at h1
  obtain ⟨d, h2, h3⟩ := h1
  rw [h2, Res.ok_bind, h3, Res.ok_bind]
  have := initFields_eq E (assemble ps) fs ps _ _ [] 0 rfl h (spanOk_assemble ps) rfl
  exact this

theorem container_decode_sound (E : Env) (fs : Fields) (hf : FitsF fs)
    (hl : fixedLenF fs < 2 ^ 64) {b : Bytes} (hb : b.length < 2 ^ 63) {v : fs.Val}
    (h : ((Ty.container fs).impl E).deserialize b = .ok v) :
    ∃ ps, HasShape ps (shapeF fs) ∧ b = assemble ps ∧ decodePieces E fs ps = .ok v ∧
      Addressed ps := by
  have h : ((fs.impls E).parseAll E b {} >>= fun d => d.finalize E b >>=
    fun spans => (fs.impls E).initFields b spans 0) = .ok v := h
  rw [parseAll_eq E _ fs hf] at h
  simp only [Res.bind_eq_ok] at h
  obtain ⟨d, h1, spans, h2, h3⟩ := h
  obtain ⟨ps, p1, p2, p3, p4⟩ := container_sound E b hb (shapeF fs) (by rw [shapeLen_shapeF]; exact hl)
    spans (by rw [h1]; exact h2)
  refine ⟨ps, p1, p2, ?_, p4⟩
  subst p2 p3
  have := initFields_eq E (assemble ps) fs ps _ _ [] 0 rfl p1 (spanOk_assemble ps) rfl
  rw [← this]; exact h3

/-! ## Completeness -/

theorem mapList_map {ε α β γ : Type} (f : β → Res ε γ) (g : α → β) (xs : List α) :
    Res.mapList f (xs.map g) = Res.mapList (fun x => f (g x)) xs := by
  induction xs with
  | nil => rfl
  | cons x xs ih => simp only [List.map_cons, Res.mapList, ih]

theorem encV_head : ∀ (vs : Variants) (i : Nat) (v : vs.Val), ∃ k rest, i ≤ k ∧ k < i + countV vs ∧
    encV vs i v = BitVec.ofNat 8 k :: rest
  | .nil, _, v => v.elim
  | .unit vs, i, .inl _ => ⟨i, [], by omega, by simp only [countV]; omega, rfl⟩
  | .unit vs, i, .inr v => by
    obtain ⟨k, r, h1, h2, h3⟩ := encV_head vs (i + 1) v
    exact ⟨k, r, by omega, by simp only [countV]; omega, h3⟩
  | .data t vs, i, .inl v => ⟨i, enc t v, by omega, by simp only [countV]; omega, rfl⟩
  | .data t vs, i, .inr v => by
    obtain ⟨k, r, h1, h2, h3⟩ := encV_head vs (i + 1) v
    exact ⟨k, r, by omega, by simp only [countV]; omega, h3⟩

theorem ofNat8_inj {a b : Nat} (ha : a < 256) (hb : b < 256)
    (h : BitVec.ofNat 8 a = BitVec.ofNat 8 b) : a = b := by
  have := congrArg BitVec.toNat h
  simp at this
  omega

theorem countV_of_shape {vs : Variants} (h : unionShape vs) : countV vs ≤ 127 := by
  cases vs with
  | nil => exact h.elim
  | unit rest => exact h.2.2
  | data t rest => exact h.2

/-- Only the first variant may be a unit variant; `i` is the position of the head. -/
def UnitOk : Nat → Variants → Prop
  | _, .nil => True
  | i, .unit rest => i = 0 ∧ noUnitV rest = true
  | _, .data _ rest => noUnitV rest = true

theorem unitOk_of_noUnit {i : Nat} {vs : Variants} (h : noUnitV vs = true) : UnitOk i vs := by
  cases vs with
  | nil => trivial
  | unit rest => simp [noUnitV] at h
  | data t rest => exact h

theorem unitOk_of_shape {vs : Variants} (h : unionShape vs) : UnitOk 0 vs := by
  cases vs with
  | nil => trivial
  | unit rest => exact ⟨rfl, h.1⟩
  | data t rest => exact h.1

theorem collection_complete (E : Env) (t : Ty) (hl : Legal t) (hf : Fits t) (xs : List t.Val)
    (hvalid : Each (Valid t) xs)
    (hlen : (assemble (xs.map fun x => (isVar t, enc t x))).length < maxLen)
    (hdec : ∀ x ∈ xs, (t.impl E).deserialize (enc t x) = .ok (norm t x)) :
    deserializeHomogeneousComposite E (t.impl E).toSerializable
      (assemble (xs.map fun x => (isVar t, enc t x))) = .ok (xs.map (norm t)) := by
  have := homogeneous_complete E (T := (t.impl E).toSerializable) (impl_isVar E t)
    (impl_sizeHint E t hf) (xs.map (enc t)) (fun hv => fixedLen_pos t hl hv)
    (by
      intro hv p hp
      obtain ⟨x, hx, rfl⟩ := List.mem_map.mp hp
      exact enc_length t x hv (hvalid x hx))
    (by intro _; rw [List.map_map]; exact addressed_of_length hlen)
  rw [List.map_map] at this
  refine Eq.trans this ?_
  rw [mapList_map]
  exact Res.mapList_ok_of hdec

theorem uint_roundtrip (u : UintTy) (v : BitVec u.bits) :
    (Serializable.uint u).deserialize (leBytes (u.bits / 8) v.toNat) = .ok v := by
  rw [uint_deserialize]
  simp only [leBytes_length, Nat.lt_irrefl, gt_iff_lt, if_false, fromLeBytes_leBytes]
  congr 1
  apply BitVec.eq_of_toNat_eq
  rw [BitVec.toNat_ofNat]
  have h := v.isLt
  have : (256 : Nat) ^ (u.bits / 8) = 2 ^ u.bits := by cases u <;> decide
  rw [this, Nat.mod_mod, Nat.mod_eq_of_lt h]

theorem checkVectorLength_ok {α : Type} {E : Env} {T : Serializable α} {v : Bool} {s n : Nat}
    {b : Bytes} (hv : T.isVariableSize = v) (hs : T.sizeHint = .ok s) (hn : n * s < usizeMod)
    (h : v = false → b.length = n * s) : checkVectorLength E T n b = .ok () := by
  unfold checkVectorLength
  rw [hv]
  cases v with
  | true => rfl
  | false =>
    have h := h rfl
    simp only [Bool.false_eq_true, if_false]
    rw [hs, Res.lift_ok, Res.ok_bind, Env.mul_eq_ok hn, Res.lift_ok, Res.ok_bind,
      if_neg (by omega), if_neg (by omega)]

theorem checkVectorLength_sound {α : Type} {E : Env} {T : Serializable α} {v : Bool} {s n : Nat}
    {b : Bytes} (hv : T.isVariableSize = v) (hs : T.sizeHint = .ok s) (hn : n * s < usizeMod)
    (h : checkVectorLength E T n b = .ok ()) : v = false → b.length = n * s := by
  intro hv'
  subst hv'
  unfold checkVectorLength at h
  rw [hv] at h
  simp only [Bool.false_eq_true, if_false] at h
  rw [hs, Res.lift_ok, Res.ok_bind, Env.mul_eq_ok hn, Res.lift_ok, Res.ok_bind] at h
  split at h
  · cases h
  · split at h
    · cases h
    · omega

theorem checkVectorLength_ne_panic {α : Type} {E : Env} {T : Serializable α} {s n : Nat}
    {b : Bytes} (hs : T.sizeHint = .ok s) (hn : n * s < usizeMod) :
    checkVectorLength E T n b ≠ .panic := by
  unfold checkVectorLength
  split
  · simp
  · rw [hs, Res.lift_ok, Res.ok_bind, Env.mul_eq_ok hn, Res.lift_ok, Res.ok_bind]
    split
    · simp
    · split <;> simp

theorem checkListLength_ok {α : Type} {E : Env} {T : Serializable α} {v : Bool} {s : Nat}
    {b : Bytes} (hv : T.isVariableSize = v) (hs : T.sizeHint = .ok s)
    (h : v = false → 0 < s ∧ b.length % s = 0) : checkListLength E T b = .ok () := by
  unfold checkListLength
  rw [hv]
  cases v with
  | true => rfl
  | false =>
    obtain ⟨h1, h2⟩ := h rfl
    simp only [Bool.false_eq_true, if_false]
    rw [hs, Res.lift_ok, Res.ok_bind, usizeRem, if_neg (by omega), h2, Res.ok_bind,
      if_neg (by omega)]

theorem checkListLength_sound {α : Type} {E : Env} {T : Serializable α} {v : Bool} {s : Nat}
    {b : Bytes} (hv : T.isVariableSize = v) (hs : T.sizeHint = .ok s)
    (h : checkListLength E T b = .ok ()) : v = false → b.length % s = 0 := by
  intro hv'
  subst hv'
  unfold checkListLength at h
  rw [hv] at h
  simp only [Bool.false_eq_true, if_false] at h
  rw [hs, Res.lift_ok, Res.ok_bind, usizeRem] at h
  split at h
  · cases h
  · rw [Res.ok_bind] at h
    split at h
    · rename_i h1 h2
      rw [Env.sub_eq_ok (Nat.mod_le _ _)] at h
      cases h
    · omega

theorem checkListLength_ne_panic {α : Type} {E : Env} {T : Serializable α} {v : Bool} {s : Nat}
    {b : Bytes} (hv : T.isVariableSize = v) (hs : T.sizeHint = .ok s) (h : v = false → 0 < s) :
    checkListLength E T b ≠ .panic := by
  unfold checkListLength
  rw [hv]
  cases v with
  | true => simp
  | false =>
    have := h rfl
    simp only [Bool.false_eq_true, if_false]
    rw [hs, Res.lift_ok, Res.ok_bind, usizeRem, if_neg (by omega), Res.ok_bind]
    split
    · rw [Env.sub_eq_ok (Nat.mod_le _ _)]; simp
    · simp

theorem array_deserialize_ok {α : Type} {E : Env} {T : Serializable α} {n : Nat} {b : Bytes}
    {vs : { l : List α // l.length = n }} (hn : n ≠ 0) (h1 : checkVectorLength E T n b = .ok ())
    (h2 : deserializeHomogeneousComposite E T b = .ok vs.1) :
    (Serializable.array E T n).deserialize b = .ok vs := by
  simp only [Serializable.array]
  rw [if_neg hn, h1, Res.ok_bind, h2, Res.ok_bind, dif_pos vs.2]

theorem vector_deserialize_ok {α : Type} {E : Env} {T : Serializable α} {n : Nat} {b : Bytes}
    {vs : List α} (hn : n ≠ 0) (h1 : checkVectorLength E T n b = .ok ())
    (h2 : deserializeHomogeneousComposite E T b = .ok vs) (h3 : vs.length = n) :
    (Serializable.vector E T n).deserialize b = .ok vs := by
  simp only [Serializable.vector]
  rw [if_neg hn, h1, Res.ok_bind, h2, Res.ok_bind]
  simp [SszVector.tryFromVec, hn, h3]

theorem vector_deserialize_sound {α : Type} {E : Env} {T : Serializable α} {n : Nat} {b : Bytes}
    {vs : List α} (h : (Serializable.vector E T n).deserialize b = .ok vs) :
    n ≠ 0 ∧ checkVectorLength E T n b = .ok () ∧
      deserializeHomogeneousComposite E T b = .ok vs ∧ vs.length = n := by
  simp only [Serializable.vector] at h
  split at h
  · cases h
  · rename_i hn
    simp only [Res.bind_eq_ok] at h
    obtain ⟨_, h1, ws, h2, h3⟩ := h
    simp only [SszVector.tryFromVec, if_neg hn] at h3
    by_cases hw : ws.length = n
    · rw [if_neg (by simpa using hw)] at h3
      injection h3 with h3
      subst h3
      exact ⟨hn, h1, h2, hw⟩
    · rw [if_pos hw] at h3
      cases h3

theorem array_deserialize_sound {α : Type} {E : Env} {T : Serializable α} {n : Nat} {b : Bytes}
    {vs : { l : List α // l.length = n }} (h : (Serializable.array E T n).deserialize b = .ok vs) :
    n ≠ 0 ∧ checkVectorLength E T n b = .ok () ∧
      deserializeHomogeneousComposite E T b = .ok vs.1 := by
  simp only [Serializable.array] at h
  split at h
  · cases h
  · rename_i hn
    simp only [Res.bind_eq_ok] at h
    obtain ⟨_, h1, ws, h2, h3⟩ := h
    split at h3
    · injection h3 with h3
      subst h3
      exact ⟨hn, h1, h2⟩
    · cases h3

theorem list_deserialize_ok {α : Type} {E : Env} {T : Serializable α} {n : Nat} {b : Bytes}
    {vs : List α} (h1 : checkListLength E T b = .ok ())
    (h2 : deserializeHomogeneousComposite E T b = .ok vs) (h3 : vs.length ≤ n) :
    (Serializable.list E T n).deserialize b = .ok vs := by
  simp only [Serializable.list]
  rw [h1, Res.ok_bind, h2, Res.ok_bind]
  rw [if_neg (by omega)]
  simp only [SszList.tryFromVec]
  rw [if_neg (by omega)]

theorem list_deserialize_sound {α : Type} {E : Env} {T : Serializable α} {n : Nat} {b : Bytes}
    {vs : List α} (h : (Serializable.list E T n).deserialize b = .ok vs) :
    checkListLength E T b = .ok () ∧
      deserializeHomogeneousComposite E T b = .ok vs ∧ vs.length ≤ n := by
  simp only [Serializable.list, Res.bind_eq_ok] at h
  obtain ⟨_, h1, ws, h2, h3⟩ := h
  split at h3
  · cases h3
  · rename_i hw
    simp only [SszList.tryFromVec, if_neg hw] at h3
    injection h3 with h3
    subst h3
    exact ⟨h1, h2, by omega⟩

mutual

theorem de_enc (E : Env) : ∀ (t : Ty) (v : t.Val), Legal t → Fits t → Valid t v → Small t v →
    (t.impl E).deserialize (enc t v) = .ok (norm t v)
  | .uint u, v, _, _, _, _ => uint_roundtrip u v
  | .u256, v, _, _, _, _ => by
    show (if (leBytes 32 v.toNat).length < 32 then
        .err (DeError.expectedFurtherInput (leBytes 32 v.toNat).length 32)
      else if (leBytes 32 v.toNat).length > 32 then
        .err (DeError.additionalInput (leBytes 32 v.toNat).length 32)
      else (slice (leBytes 32 v.toNat) 0 32).map
        fun bytes => BitVec.ofNat 256 (fromLeBytes bytes)) = .ok v
    rw [if_neg (by simp), if_neg (by simp), slice_ok (by omega) (by simp)]
    simp only [List.drop_zero, Nat.sub_zero, Res.map_ok]
    rw [List.take_of_length_le (by simp), fromLeBytes_leBytes]
    congr 1
    apply BitVec.eq_of_toNat_eq
    rw [BitVec.toNat_ofNat]
    have h := BitVec.isLt v
    have h2 : (256 : Nat) ^ 32 = 2 ^ 256 := by decide
    rw [h2, Nat.mod_mod]
    exact Nat.mod_eq_of_lt h
  | .bool, v, _, _, _, _ => by cases v <;> rfl
  | .node, v, _, _, _, _ => by
    obtain ⟨b, hb⟩ := v
    show (if b.length < 32 then .err (DeError.expectedFurtherInput b.length 32)
      else if b.length > 32 then .err (DeError.additionalInput b.length 32)
      else (slice b 0 32 >>= fun bytes => toNode bytes)) = .ok ⟨b, hb⟩
    rw [if_neg (by omega), if_neg (by omega), slice_ok (by omega) (by omega)]
    simp only [List.drop_zero, Nat.sub_zero, Res.ok_bind]
    rw [List.take_of_length_le (by omega)]
    simp [toNode, hb]
  | .array t n, v, hl, hf, hv, hs => by
    obtain ⟨xs, hx⟩ := v
    have hc := collection_complete E t hl.2 hf.1 xs hv hs.1
      (fun x hx => de_enc E t x hl.2 hf.1 (hv x hx) (hs.2 x hx))
    have hlen := checkVectorLength_ok (E := E) (T := (t.impl E).toSerializable) (impl_isVar E t)
      (impl_sizeHint E t hf.1) (by rw [Nat.mul_comm]; exact Nat.lt_trans hf.2 (by decide))
      (fun hvar => by
        have := enc_length (.array t n) ⟨xs, hx⟩ hvar hv
        rw [Nat.mul_comm]; exact this)
    have hn : n ≠ 0 := by have := hl.1; omega
    exact array_deserialize_ok (vs := ⟨xs.map (norm t), (List.length_map _).trans hx⟩) hn hlen hc
  | .vector t n, v, hl, hf, hv, hs => by
    have hc := collection_complete E t hl.2 hf.1 v hv.2 hs.1
      (fun x hx => de_enc E t x hl.2 hf.1 (hv.2 x hx) (hs.2 x hx))
    have hlen := checkVectorLength_ok (E := E) (T := (t.impl E).toSerializable) (impl_isVar E t)
      (impl_sizeHint E t hf.1) (by rw [Nat.mul_comm]; exact Nat.lt_trans hf.2 (by decide))
      (fun hvar => by
        have := enc_length (.vector t n) v hvar hv
        rw [Nat.mul_comm]; exact this)
    have hn : n ≠ 0 := by have := hl.1; omega
    exact vector_deserialize_ok hn hlen hc ((List.length_map _).trans hv.1)
  | .list t n, v, hl, hf, hv, hs => by
    have hc := collection_complete E t hl hf v hv.2 hs.1
      (fun x hx => de_enc E t x hl hf (hv.2 x hx) (hs.2 x hx))
    have hlen := checkListLength_ok (E := E) (T := (t.impl E).toSerializable) (impl_isVar E t)
      (impl_sizeHint E t hf) (b := assemble (List.map (fun x => (isVar t, enc t x)) v))
      (fun hvar => by
        have hp := fixedLen_pos t hl hvar
        refine ⟨hp, ?_⟩
        rw [hvar, assemble_map_fixed v (enc t) (fixedLen t)
          (fun x hx => enc_length t x hvar (hv.2 x hx))]
        exact Nat.mul_mod_right _ _)
    exact list_deserialize_ok hlen hc ((List.length_map _).le.trans hv.1)
  | .bitvector n, v, hl, hf, hv, hs => by
    have := Bitvector.deserialize_packBits hl (l := v.live) hv
    have hv : v.live.length = n := hv
    show Bitvector.deserialize n (packBits v.live) = .ok ⟨v.live, padBits v.live.length⟩
    rw [this, hv]
  | .bitlist n, v, hl, hf, hv, hs => Bitlist.deserialize_packBits hf hv.1
  | .option t, v, hl, hf, hv, hs => by
    cases v with
    | none => rfl
    | some x =>
      have := de_enc E t x hl hf (hv x rfl) (hs x rfl)
      show ((t.impl E).deserialize (enc t x) >>= fun inner => Res.ok (some inner)) =
        .ok (some (norm t x))
      rw [this]; rfl
  | .newtype t, v, hl, hf, hv, hs => by
    have := de_enc E t v hl hf hv hs
    show ((t.impl E).deserialize (enc t v) >>= fun r => Res.ok r) = .ok (norm t v)
    rw [this]; rfl
  | .container fs, v, hl, hf, hv, hs => by
    have h := container_decode_complete E fs hf.1 (piecesF fs v) (hasShape_piecesF fs v hv)
      (addressed_of_length hs.1) (Nat.lt_trans hs.1 (by decide))
    have h2 := decodePieces_enc E fs v hl.2.2 hf.1 hv hs.2
    rw [h2] at h
    exact h
  | .union vs, v, hl, hf, hv, hs => by
    have hk := countV_of_shape hl.1
    obtain ⟨k, r, h1, h2, h3⟩ := encV_head vs 0 v
    have := deV_enc E vs 0 v hl.2 hf hv hs (by omega) (unitOk_of_shape hl.1) _ _ h3
    show (match encV vs 0 v with
      | [] => Res.err (DeError.expectedFurtherInput 0 1)
      | b :: rest => (vs.impls E).deserialize b rest (encV vs 0 v) 0) = .ok (normV vs v)
    rw [h3] at this ⊢
    exact this

theorem decodePieces_enc (E : Env) : ∀ (fs : Fields) (v : fs.Val), LegalF fs → FitsF fs →
    ValidF fs v → SmallF fs v → decodePieces E fs (piecesF fs v) = .ok (normF fs v)
  | .nil, _, _, _, _, _ => rfl
  | .cons _ t rest, v, hl, hf, hv, hs => by
    have h1 := de_enc E t v.1 hl.1 hf.1 hv.1 hs.1
    have h2 := decodePieces_enc E rest v.2 hl.2 hf.2 hv.2 hs.2
    simp only [piecesF, decodePieces, h1, h2, Res.ok_bind, normF]

theorem deV_enc (E : Env) : ∀ (vs : Variants) (i : Nat) (v : vs.Val), LegalV vs → FitsV vs →
    ValidV vs v → SmallV vs v → i + countV vs ≤ 256 →
    UnitOk i vs → ∀ b rest, encV vs i v = b :: rest →
    (vs.impls E).deserialize b rest (encV vs i v) i = .ok (normV vs v)
  | .nil, _, v, _, _, _, _, _, _, _, _, _ => v.elim
  | .unit vs, i, .inl u, hl, hf, hv, hs, hc, hu, b, r, he => by
    simp only [encV, List.cons.injEq] at he
    obtain ⟨rfl, rfl⟩ := he
    obtain ⟨rfl, _⟩ := hu
    rfl
  | .unit vs, i, .inr v, hl, hf, hv, hs, hc, hu, b, r, he => by
    obtain ⟨rfl, hnu⟩ := hu
    simp only [countV] at hc
    have ih := deV_enc E vs (0 + 1) v hl hf hv hs (by omega) (unitOk_of_noUnit hnu) b r he
    obtain ⟨k, r', h1, h2, h3⟩ := encV_head vs (0 + 1) v
    have hb : b = BitVec.ofNat 8 k := by
      have he : encV vs (0 + 1) v = b :: r := he
      rw [h3] at he; injection he with he; exact he.symm
    simp only [Variants.impls, VariantImpls.deserialize]
    rw [if_neg (by
      intro hb0
      rw [hb] at hb0
      have := ofNat8_inj (a := k) (b := 0) (by omega) (by omega) hb0
      omega)]
    refine Eq.trans (congrArg (Res.map _) ih) ?_
    rfl
  | .data t vs, i, .inl v, hl, hf, hv, hs, hc, hu, b, r, he => by
    simp only [encV, List.cons.injEq] at he
    obtain ⟨rfl, rfl⟩ := he
    have := de_enc E t v hl.1 hf.1 hv hs
    simp only [Variants.impls, VariantImpls.deserialize]
    rw [if_pos trivial, this]
    rfl
  | .data t vs, i, .inr v, hl, hf, hv, hs, hc, hu, b, r, he => by
    simp only [countV] at hc
    have ih := deV_enc E vs (i + 1) v hl.2 hf.2 hv hs (by omega) (unitOk_of_noUnit hu) b r he
    obtain ⟨k, r', h1, h2, h3⟩ := encV_head vs (i + 1) v
    have hb : b = BitVec.ofNat 8 k := by
      have he : encV vs (i + 1) v = b :: r := he
      rw [h3] at he; injection he with he; exact he.symm
    simp only [Variants.impls, VariantImpls.deserialize]
    rw [if_neg (by
      intro hb0
      rw [hb] at hb0
      have := ofNat8_inj (by omega) (by omega) hb0
      omega)]
    refine Eq.trans (congrArg (Res.map _) ih) ?_
    rfl

end

end Ssz
