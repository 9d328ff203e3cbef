import Verif.Spec.Reads
import Verif.Proofs.Accept
import Verif.Proofs.Parts
import Verif.Proofs.EncodeCost

/-!
# Types built from parts that read their formats
-/

namespace Ssz

open Spec

variable {α : Type}

theorem Spec.Reads.piece_lt {var : Bool} {ps : List Bytes} {b p : Bytes} (hb : b.length < 2 ^ 63)
    (h : b = assemble (ps.map fun p => (var, p))) (hp : p ∈ ps) : p.length < 2 ^ 63 := by
  have := piece_length_le (ps := ps.map fun p => (var, p)) (p := (var, p)) (List.mem_map_of_mem hp)
  rw [← h] at this
  exact Nat.lt_of_le_of_lt this hb

theorem Spec.Reads.laid_of {T : Serializable α} {f : Format α} (hT : Reads T f) (E : Env) {b : Bytes}
    {vs : List α} (hb : b.length < 2 ^ 63) (hmod : f.var = false → b.length % f.size = 0)
    (h : deserializeHomogeneousComposite E T b = .ok vs) :
    Laid f.var f.accepts b vs ∨
      (f.var = true ∧ vs = [] ∧ ∃ rest, b = 0 :: 0 :: 0 :: 0 :: rest) := by
  rcases homogeneous_sound E hT.isVariableSize hT.sizeHint hmod h with ⟨h1, h2⟩ | ⟨ps, hps, hA, hall⟩
  · subst h2
    unfold deserializeHomogeneousComposite at h
    rw [hT.isVariableSize, h1, if_pos rfl] at h
    rcases deserializeVariable_nil _ _ h with h2 | h2
    · subst h2
      exact .inl ⟨[], .nil, fun o ho => (nomatch ho), rfl⟩
    · exact .inr ⟨h1, rfl, h2⟩
  · left
    exact ⟨ps, forall₂_collect hall fun p hp x hx =>
      (hT.deserialize p x (Reads.piece_lt hb hps hp)).mp hx, hA, hps⟩

theorem Spec.Reads.laid_length {T : Serializable α} {f : Format α} (hT : Reads T f) {b : Bytes}
    {vs : List α} (hb : b.length < 2 ^ 63) (h : Laid f.var f.accepts b vs) (hv : f.var = false) :
    b.length = f.size * vs.length := by
  obtain ⟨ps, hall, hA, rfl⟩ := h
  have hlen : ∀ p ∈ ps, p.length < 2 ^ 63 := fun p hp => Reads.piece_lt hb rfl hp
  have hfix : ∀ p ∈ ps, p.length = f.size := by
    clear hA hb
    intro p hp
    induction hall with
    | nil => cases hp
    | cons h1 _ ih2 =>
      rcases List.mem_cons.mp hp with rfl | hp
      · exact hT.length hv _ _ (hlen _ (by simp)) h1
      · exact ih2 (fun p hp => hlen p (by simp [hp])) hp
  rw [hv, assemble_map_false, flatten_length_const ps _ hfix, hall.length_eq]

theorem Spec.Reads.of_laid {T : Serializable α} {f : Format α} (hT : Reads T f) (E : Env) {b : Bytes}
    {vs : List α} (hb : b.length < 2 ^ 63) (h : Laid f.var f.accepts b vs) :
    deserializeHomogeneousComposite E T b = .ok vs := by
  obtain ⟨ps, hall, hA, rfl⟩ := h
  have hlen : ∀ p ∈ ps, p.length < 2 ^ 63 := fun p hp => Reads.piece_lt hb rfl hp
  have hfix : f.var = false → ∀ p ∈ ps, p.length = f.size := by
    clear hb hA
    intro hv p hp
    induction hall with
    | nil => cases hp
    | cons h1 _ ih2 =>
      rcases List.mem_cons.mp hp with rfl | hp
      · exact hT.length hv _ _ (hlen _ (by simp)) h1
      · exact ih2 (fun p hp => hlen p (by simp [hp])) hp
  have hdec : List.Forall₂ (fun p x => T.deserialize p = .ok x) ps vs := by
    clear hb hA hfix
    induction hall with
    | nil => exact .nil
    | cons h1 _ ih2 =>
      exact .cons ((hT.deserialize _ _ (hlen _ (by simp))).mpr h1) (ih2 fun p hp => hlen p (by simp [hp]))
  rw [homogeneous_complete E hT.isVariableSize hT.sizeHint ps hT.size_pos hfix fun _ => hA]
  exact Res.mapList_eq_ok.mpr hdec

theorem Spec.Reads.list {T : Serializable α} {f : Format α} (hT : Reads T f) (E : Env) (n : Nat) :
    Reads (Serializable.list E T n) (f.list n) where
  isVariableSize := rfl
  sizeHint := rfl
  size_lt := Nat.two_pow_pos 63
  size_pos h := nomatch h
  length h := nomatch h
  deserialize b v hb := by
    refine ⟨fun h => ?_, fun h => ?_⟩
    · obtain ⟨h2, h3, h5⟩ := list_deserialize_sound h
      exact ⟨h5, hT.laid_of E hb (checkListLength_sound hT.isVariableSize hT.sizeHint h2) h3⟩
    · obtain ⟨h3, h⟩ := h
      rcases h with h | ⟨hv, h, r, hr⟩
      · exact list_deserialize_ok
          (checkListLength_ok hT.isVariableSize hT.sizeHint fun hv =>
            ⟨hT.size_pos hv, by rw [hT.laid_length hb h hv]; exact Nat.mul_mod_right _ _⟩)
          (hT.of_laid E hb h) h3
      · subst h hr
        refine list_deserialize_ok
          (checkListLength_ok hT.isVariableSize hT.sizeHint fun hv' => ?_) ?_ h3
        · rw [hv] at hv'; cases hv'
        · unfold deserializeHomogeneousComposite
          rw [hT.isVariableSize, hv, if_pos rfl]
          exact deserializeVariable_zero _ r

theorem Spec.Reads.vector {T : Serializable α} {f : Format α} (hT : Reads T f) (E : Env) {n : Nat}
    (hn : 0 < n) (hs : f.size * n < 2 ^ 63) :
    Reads (Serializable.vector E T n) (f.vector n) where
  isVariableSize := hT.isVariableSize
  sizeHint := by
    show (T.sizeHint >>= fun s => E.mul s n) = _
    rw [hT.sizeHint]
    exact Env.mul_eq_ok (Nat.lt_trans hs (by decide))
  size_lt := hs
  size_pos h := Nat.mul_pos (hT.size_pos h) hn
  length hv b vs hb h := by
    rw [hT.laid_length hb h.2 hv, h.1]
    rfl
  deserialize b v hb := by
    have hms : n * f.size < usizeMod := by rw [Nat.mul_comm]; exact Nat.lt_trans hs (by decide)
    refine ⟨fun h => ?_, fun h => ?_⟩
    · obtain ⟨h1, h2, h3, h5⟩ := vector_deserialize_sound h
      have h4 := checkVectorLength_sound hT.isVariableSize hT.sizeHint hms h2
      rcases hT.laid_of E hb (fun hv => by rw [h4 hv]; exact Nat.mul_mod_left _ _) h3 with
        h6 | ⟨_, h6, _⟩
      · exact ⟨h5, h6⟩
      · rw [h6] at h5
        exact absurd h5.symm h1
    · obtain ⟨h3, h⟩ := h
      exact vector_deserialize_ok (by omega)
        (checkVectorLength_ok hT.isVariableSize hT.sizeHint hms fun hv => by
          rw [hT.laid_length hb h hv, h3, Nat.mul_comm]) (hT.of_laid E hb h) h3

theorem Spec.Reads.array {T : Serializable α} {f : Format α} (hT : Reads T f) (E : Env) {n : Nat}
    (hn : 0 < n) (hs : f.size * n < 2 ^ 63) :
    Reads (Serializable.array E T n) (f.array n) where
  isVariableSize := hT.isVariableSize
  sizeHint := by
    show (T.sizeHint >>= fun s => E.mul s n) = _
    rw [hT.sizeHint]
    exact Env.mul_eq_ok (Nat.lt_trans hs (by decide))
  size_lt := hs
  size_pos h := Nat.mul_pos (hT.size_pos h) hn
  length hv b vs hb h := by
    rw [hT.laid_length hb h hv, vs.2]
    rfl
  deserialize b v hb := by
    have hms : n * f.size < usizeMod := by rw [Nat.mul_comm]; exact Nat.lt_trans hs (by decide)
    refine ⟨fun h => ?_, fun h => ?_⟩
    · obtain ⟨h1, h2, h3⟩ := array_deserialize_sound h
      have h4 := checkVectorLength_sound hT.isVariableSize hT.sizeHint hms h2
      rcases hT.laid_of E hb (fun hv => by rw [h4 hv]; exact Nat.mul_mod_left _ _) h3 with
        h6 | ⟨_, h6, _⟩
      · exact h6
      · have := v.2
        rw [h6] at this
        exact absurd this.symm h1
    · exact array_deserialize_ok (by omega)
        (checkVectorLength_ok hT.isVariableSize hT.sizeHint hms fun hv => by
          rw [hT.laid_length hb h hv, v.2, Nat.mul_comm]) (hT.of_laid E hb h)

theorem Spec.Reads.option {T : Serializable α} {f : Format α} (hT : Reads T f) :
    Reads (Serializable.option T) f.option where
  isVariableSize := rfl
  sizeHint := rfl
  size_lt := Nat.two_pow_pos 63
  size_pos h := nomatch h
  length h := nomatch h
  deserialize b v hb := by
    match b, hb with
    | [], _ =>
      refine ⟨fun h => (nomatch h), fun h => ?_⟩
      match v, h with
      | none, h => cases h
      | some x, h => obtain ⟨r, h, _⟩ := h; cases h
    | x :: r, hb =>
      have key := option_iff T.deserialize f.accepts x r
        (fun y => hT.deserialize r y (by simp only [List.length_cons] at hb; omega))
      match v with
      | none => exact key none
      | some y => exact key (some y)

theorem Spec.Reads.newtype {T : SimpleSerialize α} {f : Format α} (hT : Reads T.toSerializable f) (E : Env) :
    Reads (SimpleSerialize.newtype E T).toSerializable f.newtype where
  isVariableSize := hT.isVariableSize
  sizeHint := by
    show (if T.isVariableSize then .ok 0 else T.sizeHint) = .ok (if f.var then 0 else f.size)
    rw [hT.isVariableSize, hT.sizeHint]
    cases f.var <;> rfl
  size_lt := by
    have := hT.size_lt
    show (if f.var then 0 else f.size) < _
    split <;> omega
  size_pos h := by
    have h : f.var = false := h
    show 0 < (if f.var then 0 else f.size)
    rw [h]
    exact hT.size_pos h
  length h b v hb ha := by
    have h : f.var = false := h
    show b.length = (if f.var then 0 else f.size)
    rw [h]
    exact hT.length h b v hb ha
  deserialize b v hb := by
    have ih := hT.deserialize b v hb
    refine ⟨fun h => ih.mp ?_, fun h => Res.bind_eq_ok.mpr ⟨v, ih.mpr h, rfl⟩⟩
    obtain ⟨w, h1, h2⟩ := Res.bind_eq_ok.mp h
    injection h2 with h2
    subst h2
    exact h1

/-! ## Structs -/

/-- Decode every piece by the implementation of its field. -/
def decodeParts : {α : Type} → FieldImpls α → List Piece → Res DeError α
  | _, .nil, _ => .ok ()
  | _, .cons _ _ _, [] => .panic
  | _, .cons _ T rest, p :: ps => do
    let v ← T.deserialize p.2
    let vs ← decodeParts rest ps
    .ok (v, vs)

namespace StructReads

/-- What the container decoder knows of the parts. -/
def shape : {α : Type} → StructReads α → Shape
  | _, .nil => []
  | _, .cons _ _ f _ rest => (f.var, f.size) :: shape rest

theorem shapeLen_eq : {α : Type} → (ps : StructReads α) → shapeLen (shape ps) = ps.fixedLen
  | _, .nil => rfl
  | _, .cons _ _ f _ rest => by
    have ih := shapeLen_eq rest
    unfold shapeLen at ih ⊢
    rw [shape, List.map_cons, List.sum_cons, ih]
    rfl

theorem parseAll_eq (E : Env) (b : Bytes) : {α : Type} → (ps : StructReads α) →
    ∀ d, ps.impls.parseAll E b d = parseShape E b (shape ps) d
  | _, .nil, _ => rfl
  | _, .cons _ T f h rest, d => by
    show (d.parse E T.toSerializable b >>= fun d' => rest.impls.parseAll E b d') = _
    simp only [shape, parseShape]
    rw [parse_congr (T := T.toSerializable)
      (U := Serializable.mk (α := Unit) f.var (.ok f.size) (fun _ => BufM.ofRes .panic)
        (fun _ => .panic))
      h.isVariableSize h.sizeHint]
    congr 1
    funext d'
    exact parseAll_eq E b rest d'

theorem initFields_eq (enc : Bytes) : {α : Type} → (fs : StructReads α) → (ps : List Piece) →
    (spans S : List Nat) → (i : Nat) → HasShape ps (shape fs) → SpanOk enc spans ps →
    S.length = 2 * i → fs.impls.initFields enc (S ++ spans) i = decodeParts fs.impls ps
  | _, .nil, _, _, _, _, _, _, _ => rfl
  | _, .cons _ _ _ _ _, [], _, _, _, hp, _, _ => hp.elim
  | _, .cons _ T f h rest, p :: ps, spans, S, i, hp, hs, hi => by
    match spans, hs with
    | a :: b :: spans', hs =>
      show (index (S ++ a :: b :: spans') (2 * i) >>= fun start =>
        index (S ++ a :: b :: spans') (2 * i + 1) >>= fun stop =>
        slice enc start stop >>= fun piece =>
        T.deserialize piece >>= fun v =>
        rest.impls.initFields enc (S ++ a :: b :: spans') (i + 1) >>= fun vs =>
        (.ok (v, vs) : Res DeError _)) = _
      have h1 : (index (S ++ a :: b :: spans') (2 * i) : Res DeError Nat) = .ok a := by
        simp [index, ← hi]
      have h2 : (index (S ++ a :: b :: spans') (2 * i + 1) : Res DeError Nat) = .ok b := by
        simp [index, ← hi]
      have h3 : rest.impls.initFields enc (S ++ a :: b :: spans') (i + 1) =
          decodeParts rest.impls ps := by
        have := initFields_eq enc rest ps spans' (S ++ [a, b]) (i + 1)
          (by obtain ⟨v, w⟩ := p; exact hp.2.2) hs.2 (by simp; omega)
        rw [← this]; simp
      rw [h1, Res.ok_bind, h2, Res.ok_bind, hs.1, Res.ok_bind, h3]
      rfl
    | [], hs => exact hs.elim
    | [_], hs => exact hs.elim

theorem decodeParts_iff : {α : Type} → (fs : StructReads α) → (ps : List Piece) → (v : α) →
    (∀ p ∈ ps, p.2.length < 2 ^ 63) →
    (decodeParts fs.impls ps = .ok v ∧ HasShape ps (shape fs) ↔ fs.accepts ps v)
  | _, .nil, [], v, _ => ⟨fun _ => rfl, fun _ => ⟨rfl, trivial⟩⟩
  | _, .nil, _ :: _, v, _ => ⟨fun h => h.2.elim, fun h => by cases h⟩
  | _, .cons _ _ _ _ _, [], _, _ => ⟨fun h => h.2.elim, fun h => by
      obtain ⟨_, _, h, _⟩ := h; cases h⟩
  | _, .cons _ T f h rest, (pv, pb) :: ps, v, hb => by
    have hp : pb.length < 2 ^ 63 := hb (pv, pb) (by simp)
    have i1 := h.deserialize pb v.1 hp
    have i2 := decodeParts_iff rest ps v.2 fun p hp => hb p (by simp [hp])
    refine ⟨fun ⟨hd, hs⟩ => ?_, fun ha => ?_⟩
    · simp only [Spec.StructReads.impls, decodeParts, Res.bind_eq_ok] at hd
      obtain ⟨x, d1, y, d2, d3⟩ := hd
      injection d3 with d3
      subst d3
      exact ⟨pb, ps, by rw [hs.1], i1.mp d1, i2.mp ⟨d2, hs.2.2⟩⟩
    · obtain ⟨p, qs, h0, h1, h2⟩ := ha
      injection h0 with h0 h3
      subst h3
      injection h0 with h0 h4
      subst h0 h4
      obtain ⟨k1, k2⟩ := i2.mpr h2
      have d1 := i1.mpr h1
      refine ⟨?_, rfl, fun hv => h.length hv _ _ hp h1, k2⟩
      simp only [Spec.StructReads.impls, decodeParts, d1, k1, Res.ok_bind]

theorem impls_isVar : {α : Type} → (ps : StructReads α) → ps.impls.isVariableSize = ps.var
  | _, .nil => rfl
  | _, .cons _ T f h rest => by
    show (T.isVariableSize || rest.impls.isVariableSize) = (f.var || rest.var)
    rw [h.isVariableSize, impls_isVar rest]

theorem sizeHintSum (E : Env) : {α : Type} → (ps : StructReads α) → ps.var = false → ∀ acc,
    acc + ps.fixedLen < 2 ^ 64 → ps.impls.sizeHintSum E acc = .ok (acc + ps.fixedLen)
  | _, .nil, _, _, _ => rfl
  | _, .cons _ T f h rest, hv, acc, hlt => by
    simp only [Spec.StructReads.var, Bool.or_eq_false_iff] at hv
    simp only [Spec.StructReads.fixedLen, hv.1, Bool.false_eq_true, if_false] at hlt ⊢
    show (T.sizeHint >>= fun s => E.add acc s >>= fun acc' =>
      rest.impls.sizeHintSum E acc') = _
    rw [h.sizeHint]
    simp only [Res.ok_bind]
    rw [Env.add_eq_ok (by rw [← pow64]; omega)]
    simp only [Res.ok_bind]
    rw [sizeHintSum E rest hv.2 _ (by omega), Nat.add_assoc]

theorem fixedLen_pos : {α : Type} → (ps : StructReads α) → 0 < ps.impls.count → 0 < ps.fixedLen
  | _, .nil, h => absurd h (Nat.lt_irrefl 0)
  | _, .cons _ _ f h rest, _ => by
    simp only [Spec.StructReads.fixedLen]
    cases hv : f.var with
    | true => simp only [if_true]; omega
    | false =>
      have := h.size_pos hv
      simp only [Bool.false_eq_true, if_false]; omega

theorem accepts_length : {α : Type} → (fs : StructReads α) → (ps : List Piece) → (v : α) →
    fs.var = false → (∀ p ∈ ps, p.2.length < 2 ^ 63) → fs.accepts ps v →
    (assemble ps).length = fs.fixedLen
  | _, .nil, ps, v, _, _, h => by
    have h : ps = [] := h
    subst h
    rfl
  | _, .cons _ T f h rest, ps, v, hv, hb, ha => by
    simp only [Spec.StructReads.var, Bool.or_eq_false_iff] at hv
    obtain ⟨p, qs, rfl, h1, h2⟩ := ha
    have i := accepts_length rest qs v.2 hv.2 (fun p hp => hb p (by simp [hp])) h2
    have hp := h.length hv.1 _ _ (hb (f.var, p) (by simp)) h1
    rw [← pieceSize_sum] at i ⊢
    simp only [List.map_cons, List.sum_cons, i, Spec.StructReads.fixedLen, hv.1, pieceSize,
      Bool.false_eq_true, if_false, hp]

theorem container {α : Type} (E : Env) (ps : StructReads α) (hc : 0 < ps.impls.count)
    (hs : ps.fixedLen < 2 ^ 63) :
    Reads (SimpleSerialize.container E ps.impls).toSerializable ps.format where
  isVariableSize := impls_isVar ps
  sizeHint := by
    show (if ps.impls.isVariableSize then .ok 0 else ps.impls.sizeHintSum E 0) =
      .ok (if ps.var then 0 else ps.fixedLen)
    rw [impls_isVar]
    split
    · rfl
    · rename_i hv
      rw [sizeHintSum E ps (by simpa using hv) 0 (by omega), Nat.zero_add]
  size_lt := by
    show (if ps.var then 0 else ps.fixedLen) < 2 ^ 63
    split <;> omega
  size_pos hv := by
    have hv : ps.var = false := hv
    show 0 < (if ps.var then 0 else ps.fixedLen)
    rw [hv]
    exact fixedLen_pos ps hc
  length hv b v hb ha := by
    have hv : ps.var = false := hv
    show b.length = (if ps.var then 0 else ps.fixedLen)
    obtain ⟨qs, h1, -, rfl⟩ := ha
    rw [hv, accepts_length ps qs v hv (fun p hp => Nat.lt_of_le_of_lt (piece_length_le hp) hb) h1]
    rfl
  deserialize b v hb := by
    show (ps.impls.parseAll E b {} >>= fun d => d.finalize E b >>=
      fun spans => ps.impls.initFields b spans 0) = .ok v ↔ _
    rw [parseAll_eq E b ps]
    refine ⟨fun h => ?_, fun h => ?_⟩
    · simp only [Res.bind_eq_ok] at h
      obtain ⟨d, h1, spans, h2, h3⟩ := h
      obtain ⟨qs, p1, p2, p3, p4⟩ := container_sound E b hb (shape ps)
        (by rw [shapeLen_eq]; exact Nat.lt_trans hs (by decide)) spans (by rw [h1]; exact h2)
      subst p2 p3
      have := initFields_eq (assemble qs) ps qs _ [] 0 p1 (spanOk_assemble qs) rfl
      exact ⟨qs, (decodeParts_iff ps qs v
        (fun p hp => Nat.lt_of_le_of_lt (piece_length_le hp) hb)).mp ⟨this.symm.trans h3, p1⟩, p4, rfl⟩
    · obtain ⟨qs, h1, hA, rfl⟩ := h
      obtain ⟨h2, h3⟩ := (decodeParts_iff ps qs v
        (fun p hp => Nat.lt_of_le_of_lt (piece_length_le hp) hb)).mpr h1
      have h4 := container_complete E qs _ h3 hA hb
      rw [Res.bind_eq_ok] at h4
      obtain ⟨d, h5, h6⟩ := h4
      rw [h5, Res.ok_bind, h6, Res.ok_bind]
      exact (initFields_eq (assemble qs) ps qs _ [] 0 h3 (spanOk_assemble qs) rfl).trans h2

end StructReads

/-! ## Enums -/

namespace EnumReads

theorem position_lt : {α : Type} → (ps : EnumReads α) → (v : α) → ps.position v < ps.count
  | _, .nil, v => v.elim
  | _, .cons _ _ _ _, .inl _ => Nat.succ_pos _
  | _, .cons _ _ _ rest, .inr v => Nat.succ_lt_succ (position_lt rest v)

theorem deserialize_iff (x : Byte) (r enc : Bytes) (hr : r.length < 2 ^ 63) : {α : Type} →
    (ps : EnumReads α) → (i : Nat) → (v : α) → i + ps.count ≤ 256 →
    (ps.impls.variants.deserialize x r enc i = .ok v ↔
      x = BitVec.ofNat 8 (i + ps.position v) ∧ ps.payload r v)
  | _, .nil, _, v, _ => v.elim
  | _, .cons T f h rest, i, v, hc => by
    have hc : i + (rest.count + 1) ≤ 256 := hc
    show (if x = BitVec.ofNat 8 i then (T.deserialize r).map Sum.inl
      else (rest.impls.variants.deserialize x r enc (i + 1)).map Sum.inr) = _ ↔ _
    have ih := fun v => deserialize_iff x r enc hr rest (i + 1) v (by omega)
    match v with
    | .inl v =>
      show _ ↔ x = BitVec.ofNat 8 (i + 0) ∧ f.accepts r v
      by_cases hx : x = BitVec.ofNat 8 i
      · rw [if_pos hx]
        simp [Res.map_eq_ok, h.deserialize r _ hr, hx]
      · rw [if_neg hx]
        simp [Res.map_eq_ok, hx]
    | .inr v =>
      show _ ↔ x = BitVec.ofNat 8 (i + (rest.position v + 1)) ∧ rest.payload r v
      rw [show i + (rest.position v + 1) = i + 1 + rest.position v by omega, ← ih v]
      have hp := position_lt rest v
      by_cases hx : x = BitVec.ofNat 8 i
      · rw [if_pos hx]
        refine ⟨fun h => ?_, fun h => ?_⟩
        · obtain ⟨_, _, h⟩ := Res.map_eq_ok.mp h; cases h
        · have := ofNat8_inj (a := i) (b := i + 1 + rest.position v) (by omega) (by omega)
            (hx.symm.trans ((ih v).mp h).1)
          omega
      · rw [if_neg hx]
        simp [Res.map_eq_ok]

theorem union {α : Type} (E : Env) (ps : EnumReads α) (hc : ps.count ≤ 256) :
    Reads (SimpleSerialize.union E ps.impls.variants).toSerializable ps.union where
  isVariableSize := rfl
  sizeHint := rfl
  size_lt := Nat.two_pow_pos 63
  size_pos h := nomatch h
  length h := nomatch h
  deserialize b v hb := by
    match b, hb with
    | [], _ => exact ⟨fun h => (nomatch h), fun ⟨_, h, _⟩ => (nomatch h)⟩
    | x :: r, hb =>
      have := deserialize_iff x r (x :: r) (by simp only [List.length_cons] at hb; omega) ps 0 v
        (by omega)
      rw [Nat.zero_add] at this
      refine this.trans ⟨fun ⟨h1, h2⟩ => ⟨r, by rw [h1], h2⟩, fun ⟨q, h1, h2⟩ => ?_⟩
      injection h1 with h3 h4
      subst h4
      exact ⟨h3, h2⟩

theorem unionNone {α : Type} (E : Env) (ps : EnumReads α) (hc : ps.count < 256) :
    Reads (SimpleSerialize.union E (.unit ps.impls.variants)).toSerializable ps.unionNone where
  isVariableSize := rfl
  sizeHint := rfl
  size_lt := Nat.two_pow_pos 63
  size_pos h := nomatch h
  length h := nomatch h
  deserialize b v hb := by
    match b, hb with
    | [], _ =>
      refine ⟨fun h => (nomatch h), fun h => ?_⟩
      match v, h with
      | .inl _, h => cases h
      | .inr _, h => obtain ⟨_, h, _⟩ := h; cases h
    | x :: r, hb =>
      have ih := fun v => deserialize_iff x r (x :: r) (by simp only [List.length_cons] at hb; omega)
        ps 1 v (by omega)
      have key := unit_iff (ps.impls.variants.deserialize x r (x :: r) 1)
        (fun b v => ∃ q, b = BitVec.ofNat 8 (ps.position v + 1) :: q ∧ ps.payload q v) 0 x r
        (fun v => by
          refine (ih v).trans ?_
          rw [Nat.add_comm 1]
          refine ⟨fun ⟨h1, h2⟩ => ⟨r, by rw [h1], h2⟩, fun ⟨q, h1, h2⟩ => ?_⟩
          injection h1 with h3 h4
          subst h4
          exact ⟨h3, h2⟩)
        (fun v ⟨q, h1, h2⟩ h0 => by
          injection h1 with h3 h4
          have := position_lt ps v
          have := ofNat8_inj (a := 0) (b := ps.position v + 1) (by omega) (by omega) (h0.symm.trans h3)
          omega)
      match v with
      | .inl y => exact key (.inl y)
      | .inr y => exact key (.inr y)

theorem body_reject (b : Bytes) : {α : Type} → (ps : EnumReads α) →
    ((∃ e, ps.impls.transparent.deserializeBody b = .err e) ↔ ps.Reject b)
  | _, .nil => ⟨fun _ => trivial, fun _ => ⟨_, rfl⟩⟩
  | _, .cons T f h rest => by
    have ih := body_reject b rest
    simp only [Spec.EnumReads.impls, PayloadImpls.transparent, TransparentImpls.deserializeBody,
      Spec.EnumReads.Reject, ← ih]
    cases rest.impls.transparent.deserializeBody b with
    | ok v => simp
    | panic => simp
    | err e =>
      cases T.deserialize b with
      | ok v => simp
      | panic => simp
      | err e => simp

theorem body_iff (b : Bytes) (hb : b.length < 2 ^ 63) : {α : Type} → (ps : EnumReads α) → (v : α) →
    (ps.impls.transparent.deserializeBody b = .ok v ↔ ps.payload b v ∧ ps.LaterReject b v)
  | _, .nil, v => v.elim
  | _, .cons T f h rest, v => by
    have hj := body_reject b rest
    have ih := body_iff b hb rest
    simp only [Spec.EnumReads.impls, PayloadImpls.transparent, TransparentImpls.deserializeBody]
    match v with
    | .inl v =>
      show _ ↔ f.accepts b v ∧ rest.Reject b
      rw [← hj, ← h.deserialize b v hb]
      cases rest.impls.transparent.deserializeBody b with
      | ok v => simp
      | panic => simp
      | err e =>
        cases T.deserialize b with
        | ok v => simp
        | panic => simp
        | err e => simp
    | .inr v =>
      show _ ↔ rest.payload b v ∧ rest.LaterReject b v
      rw [← ih v]
      cases rest.impls.transparent.deserializeBody b with
      | ok v => simp
      | panic => simp
      | err e =>
        cases T.deserialize b with
        | ok v => simp
        | panic => simp
        | err e => simp

theorem transparent {α : Type} (E : Env) (ps : EnumReads α) :
    Reads (SimpleSerialize.transparent E ps.impls).toSerializable ps.transparent where
  isVariableSize := rfl
  sizeHint := rfl
  size_lt := Nat.two_pow_pos 63
  size_pos h := nomatch h
  length h := nomatch h
  deserialize b v hb := by
    show (if b.isEmpty then .err (.expectedFurtherInput 0 1)
      else ps.impls.transparent.deserializeBody b) = .ok v ↔ b ≠ [] ∧ _
    cases b with
    | nil => simp
    | cons x r => simpa using body_iff (x :: r) hb ps v

end EnumReads

/-! ## The types of the crate -/

theorem impl_reads (E : Env) (t : Ty) (hl : Legal t) (hf : Fits t) :
    Reads (t.impl E).toSerializable ⟨isVar t, fixedLen t, Accepts t⟩ where
  isVariableSize := impl_isVar E t
  sizeHint := impl_sizeHint E t hf
  size_lt := fixedLen_lt t hf
  size_pos := fixedLen_pos t hl
  length hvar b v hb ha := de_fixed_length E hl hf hb hvar ((de_iff E t b v hl hf hb).mpr ha)
  deserialize b v hb := de_iff E t b v hl hf hb

end Ssz
