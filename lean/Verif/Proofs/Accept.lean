import Verif.Proofs.DecodeSound
import Verif.Proofs.Facts
import Verif.Spec.Accept

/-!
# Decoding accepts exactly `Spec.Accepts`
-/

namespace Ssz

open Spec

/-- An empty list decoded from variable-size elements comes from nothing or from a zero offset. -/
theorem deserializeVariable_nil {α : Type} (T : Serializable α) (b : Bytes)
    (h : deserializeVariableHomogeneousComposite T b = .ok []) :
    b = [] ∨ ∃ rest, b = 0 :: 0 :: 0 :: 0 :: rest := by
  unfold deserializeVariableHomogeneousComposite at h
  split at h
  · rename_i hb
    exact .inl (List.isEmpty_iff.mp hb)
  · rename_i hb
    split at h
    · cases h
    · rename_i word hw
      obtain ⟨_, h4, hwl, hd⟩ := drop_eq_getRange hw
      rw [deserializeU32_ok (by omega)] at h
      simp only [Res.ok_bind] at h
      split at h
      · cases h
      · split at h
        · cases h
        · rename_i hle hmod
          by_cases hL : fromLeBytes word = 0
          · right
            rw [List.drop_zero] at hd
            have := leBytes_fromLeBytes word
            rw [hL, show word.length = 4 by omega] at this
            exact ⟨b.drop 4, by rw [hd, ← this]; rfl⟩
          · exfalso
            simp only [Res.bind_eq_ok] at h
            obtain ⟨head, h1, offsets, h2, h3⟩ := h
            rw [slice_eq_ok] at h1
            obtain ⟨_, hlb, h1⟩ := h1
            simp only [List.drop_zero, Nat.sub_zero] at h1
            have hhl : head.length = fromLeBytes word := by rw [h1]; simp; omega
            obtain ⟨c1, c2⟩ := chunksExact_spec (s := 4) (by omega) head (by rw [hhl]; omega)
            rw [mapList_u32 _ c2] at h2
            injection h2 with h2
            have hcl := flatten_length_const _ 4 c2
            rw [c1, hhl] at hcl
            match hcs : chunksExact 4 head, hcl with
            | [], hcl => simp at hcl; omega
            | c :: cs, _ =>
              rw [hcs] at h2
              subst h2
              simp only [List.map_cons, List.cons_append] at h3
              cases cs <;> simp only [List.map_nil, List.nil_append, List.map_cons, List.cons_append,
                deserializeSpans] at h3
              all_goals
                split at h3
                · cases h3
                · simp only [Res.bind_eq_ok] at h3
                  obtain ⟨_, _, _, _, _, _, h3⟩ := h3
                  cases h3

theorem deserializeVariable_zero {α : Type} (T : Serializable α) (rest : Bytes) :
    deserializeVariableHomogeneousComposite T (0 :: 0 :: 0 :: 0 :: rest) = .ok [] := by
  have h0 : deserializeU32 [0#8, 0#8, 0#8, 0#8] = .ok 0 := rfl
  have hc : chunksExact 4 ([] : Bytes) = [] := by decide +kernel
  simp [deserializeVariableHomogeneousComposite, getRange, h0, slice, hc, Res.mapList,
    deserializeSpans]

/-- An accepted piece of a fixed-size type has the size of the type. -/
theorem de_fixed_length (E : Env) {t : Ty} {p : Bytes} {x : t.Val} (hl : Legal t) (hf : Fits t)
    (hp : p.length < 2 ^ 63) (hv : isVar t = false) (h : (t.impl E).deserialize p = .ok x) :
    p.length = fixedLen t := by
  obtain ⟨h1, _, h3⟩ := de_sound E t p x hl hf hp h
  rw [← h3 (noEmptyVarList_of_noVarList t x (fixed_facts t hv).1)]
  exact enc_length t x hv h1

theorem laid_of_de (E : Env) {t : Ty} (hf : Fits t) {b : Bytes} {vs : List t.Val}
    (hb : b.length < 2 ^ 63) (hmod : isVar t = false → b.length % fixedLen t = 0)
    (ih : ∀ (p : Bytes) (x : t.Val), p.length < 2 ^ 63 →
      ((t.impl E).deserialize p = .ok x ↔ Accepts t p x))
    (h : deserializeHomogeneousComposite E (t.impl E).toSerializable b = .ok vs) :
    Laid (isVar t) (Accepts t) b vs ∨
      (isVar t = true ∧ vs = [] ∧ ∃ rest, b = 0 :: 0 :: 0 :: 0 :: rest) := by
  rcases homogeneous_sound E (impl_isVar E t) (impl_sizeHint E t hf) hmod h with ⟨h1, h2⟩ | ⟨ps, hps, hA, hall⟩
  · subst h2
    unfold deserializeHomogeneousComposite at h
    rw [impl_isVar, h1, if_pos rfl] at h
    rcases deserializeVariable_nil _ _ h with h2 | h2
    · subst h2
      exact .inl ⟨[], .nil, fun o ho => (nomatch ho), rfl⟩
    · exact .inr ⟨h1, rfl, h2⟩
  · left
    refine ⟨ps, forall₂_collect hall fun p hp x hx => (ih p x ?_).mp hx, hA, hps⟩
    have := piece_length_le (ps := ps.map fun p => (isVar t, p)) (p := (isVar t, p))
      (List.mem_map_of_mem hp)
    rw [← hps] at this
    exact Nat.lt_of_le_of_lt this hb

theorem de_of_laid (E : Env) {t : Ty} (hl : Legal t) (hf : Fits t) {b : Bytes} {vs : List t.Val}
    (hb : b.length < 2 ^ 63)
    (ih : ∀ (p : Bytes) (x : t.Val), p.length < 2 ^ 63 →
      ((t.impl E).deserialize p = .ok x ↔ Accepts t p x))
    (h : Laid (isVar t) (Accepts t) b vs) :
    deserializeHomogeneousComposite E (t.impl E).toSerializable b = .ok vs ∧
      (isVar t = false → b.length = fixedLen t * vs.length) := by
  obtain ⟨ps, hall, hA, rfl⟩ := h
  have hlen : ∀ p ∈ ps, p.length < 2 ^ 63 := fun p hp =>
    Nat.lt_of_le_of_lt (piece_length_le (ps := ps.map fun p => (isVar t, p)) (p := (isVar t, p))
      (List.mem_map_of_mem hp)) hb
  have hdec : List.Forall₂ (fun p x => (t.impl E).deserialize p = .ok x) ps vs := by
    clear hb hA
    induction hall with
    | nil => exact .nil
    | cons h1 _ ih2 =>
      exact .cons ((ih _ _ (hlen _ (by simp))).mpr h1) (ih2 fun p hp => hlen p (by simp [hp]))
  have hfix : isVar t = false → ∀ p ∈ ps, p.length = fixedLen t := by
    intro hv p hp
    obtain ⟨x, hx⟩ : ∃ x, (t.impl E).deserialize p = .ok x := by
      clear hall hlen hb hA
      induction hdec with
      | nil => cases hp
      | cons h1 _ ih2 =>
        rcases List.mem_cons.mp hp with rfl | hp
        · exact ⟨_, h1⟩
        · exact ih2 hp
    have := hlen p hp
    exact de_fixed_length E hl hf (by omega) hv hx
  refine ⟨?_, fun hv => ?_⟩
  · rw [homogeneous_complete E (impl_isVar E t) (impl_sizeHint E t hf) ps
      (fun hv => fixedLen_pos t hl hv) hfix fun _ => hA]
    exact Res.mapList_eq_ok.mpr hdec
  · rw [hv, assemble_map_false, flatten_length_const ps _ (hfix hv), hall.length_eq]

theorem option_iff {α : Type} (dec : Bytes → Res DeError α) (A : Bytes → α → Prop) (x : Byte)
    (r : Bytes) (ih : ∀ y, dec r = .ok y ↔ A r y) : ∀ v : Option α,
    ((if x = 0 then
        if (x :: r).length ≠ 1 then .err (DeError.additionalInput (x :: r).length 1) else .ok none
      else if x = 1 then (dec r >>= fun inner => .ok (some inner))
      else .err (.invalidByte x)) = Res.ok v ↔
      match v with
      | none => x :: r = [0]
      | some y => ∃ q, x :: r = 1 :: q ∧ A q y)
  | none => by
    by_cases hx : x = 0
    · subst hx
      cases r <;> simp
    · by_cases hx1 : x = 1
      · subst hx1
        simp [Res.bind_eq_ok]
      · rw [if_neg hx, if_neg hx1]
        simp [show ¬ x = 0#8 from hx]
  | some y => by
    show _ ↔ ∃ q, x :: r = 1 :: q ∧ A q y
    by_cases hx : x = 0
    · subst hx
      cases r <;> simp
    · by_cases hx1 : x = 1
      · subst hx1
        simp [Res.bind_eq_ok, ih]
      · rw [if_neg hx, if_neg hx1]
        simp [show ¬ x = 1#8 from hx1]

theorem unit_iff {β : Type} (dec : Res DeError β) (A : Bytes → β → Prop) (i : Nat) (x : Byte)
    (r : Bytes) (ih : ∀ y, dec = .ok y ↔ A (x :: r) y)
    (hA : ∀ y, A (x :: r) y → x ≠ BitVec.ofNat 8 i) : ∀ v : Unit ⊕ β,
    ((if x = BitVec.ofNat 8 i then
        if (x :: r).length ≠ 1 then .err (DeError.additionalInput (x :: r).length 1)
        else .ok (Sum.inl ())
      else dec.map Sum.inr) = Res.ok v ↔
      match v with
      | .inl _ => x :: r = [BitVec.ofNat 8 i]
      | .inr y => A (x :: r) y)
  | .inl _ => by
    by_cases hx : x = BitVec.ofNat 8 i
    · subst hx
      cases r <;> simp
    · rw [if_neg hx]
      simp [Res.map_eq_ok, hx]
  | .inr y => by
    by_cases hx : x = BitVec.ofNat 8 i
    · rw [if_pos hx]
      refine ⟨fun h => ?_, fun h => absurd hx (hA y h)⟩
      split at h <;> cases h
    · rw [if_neg hx]
      simp [Res.map_eq_ok, ih]

theorem data_iff {α β : Type} (dec1 : Bytes → Res DeError α) (dec : Res DeError β)
    (A1 : Bytes → α → Prop) (A : Bytes → β → Prop) (i : Nat) (x : Byte)
    (r : Bytes) (i1 : ∀ y, dec1 r = .ok y ↔ A1 r y) (ih : ∀ y, dec = .ok y ↔ A (x :: r) y)
    (hA : ∀ y, A (x :: r) y → x ≠ BitVec.ofNat 8 i) : ∀ v : α ⊕ β,
    ((if x = BitVec.ofNat 8 i then (dec1 r).map Sum.inl
      else dec.map Sum.inr) = Res.ok v ↔
      match v with
      | .inl y => ∃ q, x :: r = BitVec.ofNat 8 i :: q ∧ A1 q y
      | .inr y => A (x :: r) y)
  | .inl y => by
    by_cases hx : x = BitVec.ofNat 8 i
    · rw [if_pos hx]
      simp [Res.map_eq_ok, i1, hx]
    · rw [if_neg hx]
      simp [Res.map_eq_ok, hx]
  | .inr y => by
    by_cases hx : x = BitVec.ofNat 8 i
    · rw [if_pos hx]
      refine ⟨fun h => ?_, fun h => absurd hx (hA y h)⟩
      obtain ⟨_, _, h⟩ := Res.map_eq_ok.mp h; cases h
    · rw [if_neg hx]
      simp [Res.map_eq_ok, ih]

mutual

theorem de_iff (E : Env) : ∀ (t : Ty) (b : Bytes) (v : t.Val), Legal t → Fits t →
    b.length < 2 ^ 63 → ((t.impl E).deserialize b = .ok v ↔ Accepts t b v)
  | .uint u, b, v, hl, hf, hb =>
    ⟨fun h => ((de_sound E (.uint u) b v hl hf (by omega) h).2.2 trivial).symm, fun h => by
      rw [show b = _ from h]; exact de_enc E (.uint u) v hl hf trivial trivial⟩
  | .u256, b, v, hl, hf, hb =>
    ⟨fun h => ((de_sound E .u256 b v hl hf (by omega) h).2.2 trivial).symm, fun h => by
      rw [show b = _ from h]; exact de_enc E .u256 v hl hf trivial trivial⟩
  | .bool, b, v, hl, hf, hb =>
    ⟨fun h => ((de_sound E .bool b v hl hf (by omega) h).2.2 trivial).symm, fun h => by
      rw [show b = _ from h]; exact de_enc E .bool v hl hf trivial trivial⟩
  | .node, b, v, hl, hf, hb =>
    ⟨fun h => ((de_sound E .node b v hl hf (by omega) h).2.2 trivial).symm, fun h => by
      rw [show b = _ from h]; exact de_enc E .node v hl hf trivial trivial⟩
  | .bitvector n, b, v, hl, hf, hb => by
    refine ⟨fun h => ?_, fun h => ?_⟩
    · obtain ⟨h1, h2, h3, h4⟩ := Bitvector.deserialize_sound h
      exact ⟨h2, h3, h4.symm⟩
    · obtain ⟨h1, h2, h3⟩ := h
      have := de_enc E (.bitvector n) v hl hf h1 trivial
      rw [show b = enc (.bitvector n) v from h3, this]
      obtain ⟨l, d⟩ := v
      show Res.ok (⟨l, padBits l.length⟩ : Bits) = Res.ok ⟨l, d⟩
      have h1 : l.length = n := h1
      have h2 : d = padBits n := h2
      rw [h2, h1]
  | .bitlist n, b, v, hl, hf, hb => by
    refine ⟨fun h => ?_, fun h => ?_⟩
    · obtain ⟨h1, h2, h3⟩ := Bitlist.deserialize_sound hf h
      exact ⟨h1, h2, h3.symm⟩
    · obtain ⟨h1, h2, h3⟩ := h
      have := de_enc E (.bitlist n) v hl hf ⟨h1, h2⟩ trivial
      rw [show b = enc (.bitlist n) v from h3, this]
      obtain ⟨l, d⟩ := v
      show Res.ok (⟨l, padBits l.length⟩ : Bits) = Res.ok ⟨l, d⟩
      have h2 : d = padBits l.length := h2
      rw [h2]
  | .array t n, b, v, hl, hf, hb => by
    have ih := fun p x hp => de_iff E t p x hl.2 hf.1 hp
    have hms : n * fixedLen t < usizeMod := by rw [Nat.mul_comm]; exact Nat.lt_trans hf.2 (by decide)
    refine ⟨fun h => ?_, fun h => ?_⟩
    · obtain ⟨h1, h2, h3⟩ := array_deserialize_sound (E := E) (T := (t.impl E).toSerializable) h
      have h4 := checkVectorLength_sound (impl_isVar E t) (impl_sizeHint E t hf.1) hms h2
      rcases laid_of_de E hf.1 hb (fun hv => by rw [h4 hv]; exact Nat.mul_mod_left _ _) ih h3 with
        h5 | ⟨_, h5, _⟩
      · exact h5
      · have := v.2
        rw [h5] at this
        exact absurd this.symm h1
    · obtain ⟨h1, h2⟩ := de_of_laid E hl.2 hf.1 hb ih h
      exact array_deserialize_ok (E := E) (T := (t.impl E).toSerializable) (by have := hl.1; omega)
        (checkVectorLength_ok (impl_isVar E t) (impl_sizeHint E t hf.1) hms fun hv => by
          rw [h2 hv, v.2, Nat.mul_comm]) h1
  | .vector t n, b, v, hl, hf, hb => by
    have ih := fun p x hp => de_iff E t p x hl.2 hf.1 hp
    have hms : n * fixedLen t < usizeMod := by rw [Nat.mul_comm]; exact Nat.lt_trans hf.2 (by decide)
    refine ⟨fun h => ?_, fun h => ?_⟩
    · obtain ⟨h1, h2, h3, h5⟩ := vector_deserialize_sound (E := E) (T := (t.impl E).toSerializable) h
      have h4 := checkVectorLength_sound (impl_isVar E t) (impl_sizeHint E t hf.1) hms h2
      rcases laid_of_de E hf.1 hb (fun hv => by rw [h4 hv]; exact Nat.mul_mod_left _ _) ih h3 with
        h6 | ⟨_, h6, _⟩
      · exact ⟨h5, h6⟩
      · rw [h6] at h5
        exact absurd h5.symm h1
    · obtain ⟨h3, h⟩ := h
      obtain ⟨h1, h2⟩ := de_of_laid E hl.2 hf.1 hb ih h
      exact vector_deserialize_ok (E := E) (T := (t.impl E).toSerializable) (by have := hl.1; omega)
        (checkVectorLength_ok (impl_isVar E t) (impl_sizeHint E t hf.1) hms fun hv => by
          rw [h2 hv, h3, Nat.mul_comm]) h1 h3
  | .list t n, b, v, hl, hf, hb => by
    have ih := fun p x hp => de_iff E t p x hl hf hp
    refine ⟨fun h => ?_, fun h => ?_⟩
    · obtain ⟨h2, h3, h5⟩ := list_deserialize_sound (E := E) (T := (t.impl E).toSerializable) h
      have h4 := checkListLength_sound (impl_isVar E t) (impl_sizeHint E t hf) h2
      exact ⟨h5, laid_of_de E (t := t) hf hb h4 ih h3⟩
    · obtain ⟨h3, h⟩ := h
      rcases h with h | ⟨hv, h, r, hr⟩
      · obtain ⟨h1, h2⟩ := de_of_laid E (t := t) hl hf hb ih h
        exact list_deserialize_ok (E := E) (T := (t.impl E).toSerializable)
          (checkListLength_ok (impl_isVar E t) (impl_sizeHint E t hf) fun hv =>
            ⟨fixedLen_pos t hl hv, by rw [h2 hv]; exact Nat.mul_mod_right _ _⟩) h1 h3
      · subst h hr
        refine list_deserialize_ok (E := E) (T := (t.impl E).toSerializable)
          (checkListLength_ok (impl_isVar E t) (impl_sizeHint E t hf) fun hv' => ?_) ?_ h3
        · rw [hv] at hv'; cases hv'
        · unfold deserializeHomogeneousComposite
          rw [impl_isVar, hv, if_pos rfl]
          exact deserializeVariable_zero _ r
  | .option t, b, v, hl, hf, hb => by
    match b, hb with
    | [], _ =>
      refine ⟨fun h => (nomatch h), fun h => ?_⟩
      match v, h with
      | none, h => cases h
      | some x, h => obtain ⟨r, h, _⟩ := h; cases h
    | x :: r, hb =>
      have key := option_iff (t.impl E).deserialize (Accepts t) x r
        (fun y => de_iff E t r y hl hf (by simp only [List.length_cons] at hb; omega))
      match v with
      | none => exact key none
      | some y => exact key (some y)
  | .newtype t, b, v, hl, hf, hb => by
    have ih := de_iff E t b v hl hf hb
    refine ⟨fun h => ih.mp ?_, fun h => Res.bind_eq_ok.mpr ⟨v, ih.mpr h, rfl⟩⟩
    obtain ⟨w, h1, h2⟩ := Res.bind_eq_ok.mp h
    injection h2 with h2
    subst h2
    exact h1
  | .container fs, b, v, hl, hf, hb => by
    refine ⟨fun h => ?_, fun h => ?_⟩
    · obtain ⟨ps, h1, h2, h3, h4⟩ := container_decode_sound E fs hf.1 (Nat.lt_trans hf.2 (by decide)) (by omega) h
      subst h2
      exact ⟨ps, (decodePieces_iff E fs ps v hl.2.2 hf.1
        (fun p hp => Nat.lt_of_le_of_lt (piece_length_le hp) hb)).mp ⟨h3, h1⟩, h4, rfl⟩
    · obtain ⟨ps, h1, hA, rfl⟩ := h
      obtain ⟨h2, h3⟩ := (decodePieces_iff E fs ps v hl.2.2 hf.1
        (fun p hp => Nat.lt_of_le_of_lt (piece_length_le hp) hb)).mpr h1
      exact (container_decode_complete E fs hf.1 ps h3 hA hb).trans h2
  | .union vs, b, v, hl, hf, hb => by
    match b, hb with
    | [], _ =>
      refine ⟨fun h => (nomatch h), fun h => ?_⟩
      exact (acceptsV_ne vs 0 v h).elim
    | x :: r, hb =>
      exact deV_iff E vs 0 x r v hl.2 hf (by simp only [List.length_cons] at hb; omega)
        (by have := countV_of_shape hl.1; omega) (unitOk_of_shape hl.1)

theorem decodePieces_iff (E : Env) : ∀ (fs : Fields) (ps : List Piece) (v : fs.Val), LegalF fs →
    FitsF fs → (∀ p ∈ ps, p.2.length < 2 ^ 63) →
    (decodePieces E fs ps = .ok v ∧ HasShape ps (shapeF fs) ↔ AcceptsF fs ps v)
  | .nil, [], v, _, _, _ => ⟨fun _ => rfl, fun _ => ⟨rfl, trivial⟩⟩
  | .nil, _ :: _, v, _, _, _ => ⟨fun h => h.2.elim, fun h => by cases h⟩
  | .cons _ t rest, [], _, _, _, _ => ⟨fun h => h.2.elim, fun h => by
      obtain ⟨_, _, h, _⟩ := h; cases h⟩
  | .cons _ t rest, (pv, pb) :: ps, v, hl, hf, hb => by
    have hp := hb (pv, pb) (by simp)
    have i1 := de_iff E t pb v.1 hl.1 hf.1 hp
    have i2 := decodePieces_iff E rest ps v.2 hl.2 hf.2 fun p hp => hb p (by simp [hp])
    refine ⟨fun ⟨hd, hs⟩ => ?_, fun h => ?_⟩
    · simp only [decodePieces, Res.bind_eq_ok] at hd
      obtain ⟨x, d1, y, d2, d3⟩ := hd
      injection d3 with d3
      subst d3
      exact ⟨pb, ps, by rw [hs.1], i1.mp d1, i2.mp ⟨d2, hs.2.2⟩⟩
    · obtain ⟨p, qs, h0, h1, h2⟩ := h
      injection h0 with h0 h3
      subst h3
      injection h0 with h0 h4
      subst h0 h4
      obtain ⟨k1, k2⟩ := i2.mpr h2
      have d1 := i1.mpr h1
      refine ⟨?_, rfl, fun hv => de_fixed_length E hl.1 hf.1 (by simp only at hp; omega) hv d1, k2⟩
      simp only [decodePieces, d1, k1, Res.ok_bind]
      rfl

theorem acceptsV_ne : ∀ (vs : Variants) (i : Nat) (v : vs.Val), ¬ AcceptsV vs i [] v
  | .nil, _, _, h => h
  | .unit _, _, .inl _, h => by cases h
  | .unit vs, i, .inr v, h => acceptsV_ne vs (i + 1) v h
  | .data _ _, _, .inl _, h => by obtain ⟨_, h, _⟩ := h; cases h
  | .data _ vs, i, .inr v, h => acceptsV_ne vs (i + 1) v h

theorem acceptsV_pos : ∀ (vs : Variants) (i : Nat) (x : Byte) (r : Bytes) (v : vs.Val),
    AcceptsV vs i (x :: r) v → ∃ k, i ≤ k ∧ k < i + countV vs ∧ x = BitVec.ofNat 8 k
  | .nil, _, _, _, _, h => h.elim
  | .unit vs, i, x, r, .inl _, h => by
    injection h with h
    exact ⟨i, by omega, by simp only [countV]; omega, h⟩
  | .unit vs, i, x, r, .inr v, h => by
    obtain ⟨k, h1, h2, h3⟩ := acceptsV_pos vs (i + 1) x r v h
    exact ⟨k, by omega, by simp only [countV]; omega, h3⟩
  | .data _ vs, i, x, r, .inl _, h => by
    obtain ⟨_, h, _⟩ := h
    injection h with h
    exact ⟨i, by omega, by simp only [countV]; omega, h⟩
  | .data _ vs, i, x, r, .inr v, h => by
    obtain ⟨k, h1, h2, h3⟩ := acceptsV_pos vs (i + 1) x r v h
    exact ⟨k, by omega, by simp only [countV]; omega, h3⟩

theorem deV_iff (E : Env) : ∀ (vs : Variants) (i : Nat) (x : Byte) (r : Bytes) (v : vs.Val),
    LegalV vs → FitsV vs → r.length < 2 ^ 63 → i + countV vs ≤ 256 → UnitOk i vs →
    ((vs.impls E).deserialize x r (x :: r) i = .ok v ↔ AcceptsV vs i (x :: r) v)
  | .nil, _, _, _, v, _, _, _, _, _ => v.elim
  | .unit vs, i, x, r, v, hl, hf, hb, hc, hu => by
    obtain ⟨rfl, hu⟩ := hu
    simp only [countV] at hc
    have ih := fun y => deV_iff E vs 1 x r y hl hf hb (by omega) (unitOk_of_noUnit hu)
    have key := unit_iff _ (AcceptsV vs 1) 0 x r (fun y => ih y) (fun y h h0 => by
      obtain ⟨k, h1, h2, h3⟩ := acceptsV_pos vs 1 x r y h
      have := ofNat8_inj (a := 0) (b := k) (by omega) (by omega) (h0.symm.trans h3)
      omega)
    match v with
    | .inl y => exact key (.inl y)
    | .inr y => exact key (.inr y)
  | .data t vs, i, x, r, v, hl, hf, hb, hc, hu => by
    simp only [countV] at hc
    have ih := fun y => deV_iff E vs (i + 1) x r y hl.2 hf.2 hb (by omega) (unitOk_of_noUnit hu)
    have key := data_iff _ _ (Accepts t) (AcceptsV vs (i + 1)) i x r (fun y => de_iff E t r y hl.1 hf.1 hb)
      (fun y => ih y) (fun y h h0 => by
        obtain ⟨k, h1, h2, h3⟩ := acceptsV_pos vs (i + 1) x r y h
        have := ofNat8_inj (a := i) (b := k) (by omega) (by omega) (h0.symm.trans h3)
        omega)
    match v with
    | .inl y => exact key (.inl y)
    | .inr y => exact key (.inr y)

end

end Ssz
