import Verif.Model.PartsCost
import Verif.Proofs.DecodeCost

/-! # The counters of `Model/PartsCost.lean` -/

namespace Ssz

open Timed Spec

/-- The counted `deserialize` returns what the implementation's returns. -/
def TimedImpl.Same {α : Type} (T : TimedImpl α) : Prop := ∀ b, (T.de b).2 = T.impl.deserialize b

/-- `deserialize` takes four steps for each input byte and each of `s` types (an empty input counting as
one byte), less three, or fewer. -/
def TimedImpl.Linear {α : Type} (T : TimedImpl α) (s : Nat) : Prop :=
  ∀ b, (T.de b).1 + 3 ≤ 4 * (s * max 1 b.length)

/-- All fields have `P`. -/
def TimedFields.All (P : {α : Type} → TimedImpl α → Prop) : {α : Type} → TimedFields α → Prop
  | _, .nil => True
  | _, .cons _ T rest => P T ∧ rest.All P

/-- The variants of an enum that have a payload have `P`. -/
def TimedVariants.All (P : {α : Type} → TimedImpl α → Prop) : {α : Type} → TimedVariants α → Prop
  | _, .nil => True
  | _, .unit rest => rest.All P
  | _, .data T rest => P T ∧ rest.All P

/-- All variants have `P`. -/
def TimedPayloads.All (P : {α : Type} → TimedImpl α → Prop) : {α : Type} → TimedPayloads α → Prop
  | _, .nil => True
  | _, .cons T rest => P T ∧ rest.All P

/-- The fields are linear with sizes that add up to `s`. -/
def TimedFields.Linear : {α : Type} → TimedFields α → Nat → Prop
  | _, .nil, s => s = 0
  | _, .cons _ T rest, s => ∃ s1 s2, s = s1 + s2 ∧ T.Linear s1 ∧ rest.Linear s2

/-- The variants are linear with sizes that add up to `s`; a variant without payload counts as one. -/
def TimedVariants.Linear : {α : Type} → TimedVariants α → Nat → Prop
  | _, .nil, s => s = 0
  | _, .unit rest, s => ∃ s2, s = 1 + s2 ∧ rest.Linear s2
  | _, .data T rest, s => ∃ s1 s2, s = s1 + s2 ∧ T.Linear s1 ∧ rest.Linear s2

/-- The variants are linear with sizes that add up to `s`. -/
def TimedPayloads.Linear : {α : Type} → TimedPayloads α → Nat → Prop
  | _, .nil, s => s = 0
  | _, .cons T rest, s => ∃ s1 s2, s = s1 + s2 ∧ T.Linear s1 ∧ rest.Linear s2

namespace TimedImpl

variable {α : Type}

theorem Linear.pos {T : TimedImpl α} {s : Nat} (h : T.Linear s) : 1 ≤ s := by
  rcases Nat.eq_zero_or_pos s with rfl | h1
  · have := h []
    simp at this
  · exact h1

end TimedImpl

/-! ## Without counters -/

theorem partsInitC_res (b : Bytes) : ∀ {α : Type} (fs : TimedFields α) (_ : fs.All TimedImpl.Same)
    (spans : List Nat) (i : Nat), (fs.initC b spans i).2 = fs.impls.initFields b spans i
  | _, .nil, _, _, _ => rfl
  | _, .cons _ T rest, h, spans, i => by
    simp only [TimedFields.initC, TimedFields.impls, FieldImpls.initFields, bind_res, step_res,
      Res.ok_bind, free_res, show ∀ b, (T.de b).2 = T.impl.deserialize b from h.1,
      partsInitC_res b rest h.2 spans]

theorem partsVariantsC_res (x : Byte) (rest b : Bytes) : ∀ {α : Type} (vs : TimedVariants α)
    (_ : vs.All TimedImpl.Same) (i : Nat),
    (vs.deC x rest b i).2 = vs.impls.deserialize x rest b i
  | _, .nil, _, _ => rfl
  | _, .unit vs, h, i => by
    simp only [TimedVariants.deC, TimedVariants.impls, VariantImpls.deserialize, bind_res, step_res,
      Res.ok_bind]
    split
    · split <;> rfl
    · simp only [bind_res, free_res, partsVariantsC_res x rest b vs h (i + 1)]
      cases vs.impls.deserialize x rest b (i + 1) <;> rfl
  | _, .data T vs, h, i => by
    simp only [TimedVariants.deC, TimedVariants.impls, VariantImpls.deserialize, bind_res, step_res,
      Res.ok_bind]
    split
    · simp only [bind_res, free_res, show ∀ b, (T.de b).2 = T.impl.deserialize b from h.1]
      cases T.impl.deserialize rest <;> rfl
    · simp only [bind_res, free_res, partsVariantsC_res x rest b vs h.2 (i + 1)]
      cases vs.impls.deserialize x rest b (i + 1) <;> rfl

theorem ifOk_res {α β : Type} (x : Timed α) (f : α → β) (y : Timed β) :
    (x.ifOk f y).2 = match x.2 with
      | .ok a => .ok (f a)
      | .panic => .panic
      | .err _ => y.2 := by
  unfold Timed.ifOk
  split <;> simp_all

theorem bodyC_res (b : Bytes) : ∀ {α : Type} (ps : TimedPayloads α) (_ : ps.All TimedImpl.Same),
    (ps.bodyC b).2 = ps.impls.transparent.deserializeBody b
  | _, .nil, _ => rfl
  | _, .cons T rest, h => by
    have h1 : (T.de b).2 = T.impl.deserialize b := h.1 b
    simp only [TimedPayloads.bodyC, TimedPayloads.impls, PayloadImpls.transparent,
      TransparentImpls.deserializeBody, ifOk_res, bind_res, step_res, Res.ok_bind, h1,
      bodyC_res b rest h.2]
    rfl

namespace TimedImpl

variable {α : Type} {T : TimedImpl α}

theorem Same.array (E : Env) (n : Nat) (h : T.Same) : (T.array E n).Same := fun b => by
  show _ = (Serializable.array E T.impl.toSerializable n).deserialize b
  simp only [TimedImpl.array, Serializable.array, bind_res, step_res, Res.ok_bind]
  split
  · rfl
  · simp only [bind_res, free_res, homogeneousC_res E _ h]
    congr 1; funext _
    congr 1; funext xs
    split <;> rfl

theorem Same.vector (E : Env) (n : Nat) (h : T.Same) : (T.vector E n).Same := fun b => by
  show _ = (Serializable.vector E T.impl.toSerializable n).deserialize b
  simp only [TimedImpl.vector, Serializable.vector, bind_res, step_res, Res.ok_bind]
  split
  · rfl
  · simp only [bind_res, free_res, homogeneousC_res E _ h]
    congr 1; funext _
    congr 1; funext xs
    rcases SszVector.tryFromVec n xs with v | ⟨_, _ | _ | _⟩ | _ <;> rfl

theorem Same.list (E : Env) (n : Nat) (h : T.Same) : (T.list E n).Same := fun b => by
  show _ = (Serializable.list E T.impl.toSerializable n).deserialize b
  simp only [TimedImpl.list, Serializable.list, bind_res, step_res, Res.ok_bind, free_res,
    homogeneousC_res E _ h]
  congr 1; funext _
  congr 1; funext xs
  split
  · rfl
  · rcases SszList.tryFromVec n xs with v | ⟨_, _ | _ | _⟩ | _ <;> rfl

theorem Same.option (E : Env) (h : T.Same) : (T.option E).Same := fun b => by
  show _ = (Serializable.option T.impl.toSerializable).deserialize b
  simp only [TimedImpl.option, Serializable.option, bind_res, step_res, Res.ok_bind]
  cases b with
  | nil => rfl
  | cons x rest =>
    dsimp only
    split
    · split <;> rfl
    · split
      · simp only [bind_res, free_res, h rest]
      · rfl

theorem Same.newtype (E : Env) (h : T.Same) : (T.newtype E).Same := fun b => by
  show _ = (SimpleSerialize.newtype E T.impl).deserialize b
  simp only [TimedImpl.newtype, SimpleSerialize.newtype, bind_res, step_res, Res.ok_bind, free_res, h b]

theorem Same.container (E : Env) {fs : TimedFields α} (h : fs.All TimedImpl.Same) :
    (TimedImpl.container E fs).Same := fun b => by
  show _ = (SimpleSerialize.container E fs.impls).deserialize b
  simp only [TimedImpl.container, SimpleSerialize.container, bind_res, step_res, Res.ok_bind,
    parseAllC_res, finalizeC_res, partsInitC_res b fs h]

theorem Same.union (E : Env) {vs : TimedVariants α} (h : vs.All TimedImpl.Same) :
    (TimedImpl.union E vs).Same := fun b => by
  show _ = (SimpleSerialize.union E vs.impls).deserialize b
  simp only [TimedImpl.union, SimpleSerialize.union, bind_res, step_res, Res.ok_bind]
  cases b with
  | nil => rfl
  | cons x rest => exact partsVariantsC_res x rest _ vs h 0

theorem Same.transparent (E : Env) {ps : TimedPayloads α} (h : ps.All TimedImpl.Same) :
    (TimedImpl.transparent E ps).Same := fun b => by
  show _ = ps.impls.transparent.deserialize b
  simp only [TimedImpl.transparent, TransparentImpls.deserialize, bind_res, step_res, Res.ok_bind]
  split
  · rfl
  · exact bodyC_res b ps h

end TimedImpl

/-! ## Bounds -/

theorem linear_takes {α : Type} {T : TimedImpl α} {s : Nat} (h : T.Linear s) (b : Bytes) :
    Takes (T.de b) (4 * (s * max 1 b.length) - 3) :=
  Nat.le_sub_of_add_le (h b)

theorem linear_of_takes {α : Type} {T : TimedImpl α} {s : Nat} (hs : 1 ≤ s)
    (h : ∀ b, Takes (T.de b) (4 * (s * max 1 b.length) - 3)) : T.Linear s := fun b => by
  have h1 : (T.de b).1 ≤ _ := h b
  have h2 : 1 ≤ s * max 1 b.length := Nat.mul_pos hs (by omega)
  omega

theorem fields_count : ∀ {α : Type} {fs : TimedFields α} {s : Nat}, fs.Linear s →
    fs.impls.count ≤ s
  | _, .nil, _, _ => Nat.zero_le _
  | _, .cons _ T rest, _, h => by
    obtain ⟨s1, s2, e, h1, h2⟩ := h
    have h3 := h1.pos
    have h4 := fields_count h2
    simp only [TimedFields.impls, FieldImpls.count]
    omega

theorem partsParseAllC_takes (E : Env) (b : Bytes) : ∀ {α : Type} (fs : FieldImpls α)
    (d : ContainerDeserializer), Takes (fs.parseAllC E b d) fs.count ∧
    ∀ d', (fs.parseAllC E b d).2 = .ok d' → d'.segments.length = d.segments.length + fs.count
  | _, .nil, d => ⟨takes_free _ _, fun d' h => by cases h; rfl⟩
  | _, .cons _ T rest, d => by
    constructor
    · exact takes_mono (takes_step_bind (takes_free_bind fun d1 _ =>
        (partsParseAllC_takes E b rest d1).1)) (by simp only [FieldImpls.count]; omega)
    · intro d' h
      rw [FieldImpls.parseAllC, bind_res, step_res, Res.ok_bind, bind_res, free_res] at h
      obtain ⟨d1, h1, h2⟩ := Res.bind_eq_ok.1 h
      have h3 := (partsParseAllC_takes E b rest d1).2 d' h2
      have h4 := parse_segments h1
      simp only [FieldImpls.count]
      omega

theorem partsInitC_takes (b : Bytes) : ∀ {α : Type} {fs : TimedFields α} {s : Nat}, fs.Linear s →
    ∀ (spans : List Nat) (i : Nat),
    Takes (fs.initC b spans i) (4 * (s * max 1 b.length) - 2 * fs.impls.count)
  | _, .nil, _, _, _, _ => takes_free _ _
  | _, .cons _ T rest, _, h, spans, i => by
    obtain ⟨s1, s2, e, h1, h2⟩ := h
    have h4 : rest.impls.count * 3 ≤ 4 * (s2 * max 1 b.length) := by
      have := fields_count h2
      have : s2 ≤ s2 * max 1 b.length := Nat.le_mul_of_pos_right _ (by omega)
      omega
    have h3 : 1 ≤ s1 * max 1 b.length := Nat.mul_pos h1.pos (by omega)
    rw [TimedFields.initC, e]
    simp only [TimedFields.impls, FieldImpls.count]
    refine takes_mono (takes_step_bind (takes_free_bind fun start _ => takes_free_bind fun stop _ =>
      takes_free_bind fun piece hp => takes_bind (n := 4 * (s1 * max 1 b.length) - 3) ?_
      fun _ _ => takes_bind (partsInitC_takes b h2 spans (i + 1)) fun _ _ => takes_free _ 0)) ?_
    · refine takes_mono (linear_takes h1 piece) ?_
      have h1 : piece.length ≤ b.length := by
        unfold slice at hp
        split at hp
        · cases hp
          rw [List.length_take, List.length_drop]
          omega
        · nomatch hp
      have : s1 * max 1 piece.length ≤ s1 * max 1 b.length :=
        Nat.mul_le_mul_left _ (by omega)
      omega
    · rw [Nat.add_mul]
      omega

theorem partsVariantsC_takes (x : Byte) (rest b : Bytes) : ∀ {α : Type} {vs : TimedVariants α}
    {s : Nat}, vs.Linear s → ∀ i : Nat,
    Takes (vs.deC x rest b i) (4 * ((1 + s) * max 1 rest.length) - 4)
  | _, .nil, _, _, _ => takes_free _ _
  | _, .unit vs, _, h, i => by
    obtain ⟨s, e, h⟩ := h
    rw [TimedVariants.deC, e]
    refine takes_mono (takes_step_bind (n := 4 * ((1 + s) * max 1 rest.length) - 4) ?_) ?_
    · split
      · split <;> exact takes_free _ _
      · exact takes_mono (takes_bind (partsVariantsC_takes x rest b h (i + 1)) fun _ _ =>
          takes_free _ 0) (Nat.le_refl _)
    · have h1 : 1 ≤ (1 + s) * max 1 rest.length := Nat.mul_pos (by omega) (by omega)
      rw [Nat.add_mul 1 (1 + s), Nat.one_mul]
      generalize (1 + s) * max 1 rest.length = x at h1 ⊢
      omega
  | _, .data T vs, _, h, i => by
    obtain ⟨s1, s2, e, h1, h2⟩ := h
    have h3 : 1 ≤ s1 * max 1 rest.length := Nat.mul_pos h1.pos (by omega)
    rw [TimedVariants.deC, e]
    refine takes_mono (takes_step_bind
      (n := 4 * ((1 + (s1 + s2)) * max 1 rest.length) - 5) ?_) ?_
    · split
      · refine takes_mono (takes_bind (linear_takes h1 rest) fun _ _ => takes_free _ 0) ?_
        rw [Nat.add_mul, Nat.add_mul]
        omega
      · refine takes_mono (takes_bind (partsVariantsC_takes x rest b h2 (i + 1)) fun _ _ =>
          takes_free _ 0) ?_
        rw [Nat.add_mul, Nat.add_mul, Nat.add_mul]
        omega
    · rw [Nat.add_mul, Nat.add_mul]
      omega

theorem ifOk_takes {α β : Type} {x : Timed α} {f : α → β} {y : Timed β} {n m : Nat}
    (h1 : Takes x n) (h2 : Takes y m) : Takes (x.ifOk f y) (n + m) := by
  unfold Timed.ifOk Takes at *
  split
  · exact Nat.le_trans h1 (Nat.le_add_right _ _)
  · exact Nat.le_trans h1 (Nat.le_add_right _ _)
  · exact Nat.add_le_add h1 h2

theorem bodyC_takes (b : Bytes) : ∀ {α : Type} {ps : TimedPayloads α} {s : Nat}, ps.Linear s →
    Takes (ps.bodyC b) (4 * (s * max 1 b.length))
  | _, .nil, _, _ => takes_free _ _
  | _, .cons T rest, _, h => by
    obtain ⟨s1, s2, e, h1, h2⟩ := h
    have h3 : 1 ≤ s1 * max 1 b.length := Nat.mul_pos h1.pos (by omega)
    rw [e]
    refine takes_mono (ifOk_takes (bodyC_takes b h2)
      (ifOk_takes (takes_step_bind (linear_takes h1 b)) (takes_free _ 0))) ?_
    rw [Nat.add_mul]
    omega

namespace TimedImpl

variable {α : Type} {T : TimedImpl α} {s : Nat}

theorem Linear.array (E : Env) (n : Nat) (h : T.Linear s) : (T.array E n).Linear (1 + s) :=
  linear_of_takes (by omega) fun b => by
    have h := collectionC_takes (homogeneousC_takes E T.impl.toSerializable h.pos (linear_takes h) b)
    refine takes_mono (takes_step_bind (n := 4 * ((1 + s) * max 1 b.length) - 4) ?_)
      (by rw [Nat.add_mul]; omega)
    split
    · exact takes_free _ _
    · refine takes_free_bind fun _ _ => takes_mono (takes_bind h (m := 0) fun xs _ => ?_) (by omega)
      split <;> exact takes_free _ _

theorem Linear.vector (E : Env) (n : Nat) (h : T.Linear s) : (T.vector E n).Linear (1 + s) :=
  linear_of_takes (by omega) fun b => by
    have h := collectionC_takes (homogeneousC_takes E T.impl.toSerializable h.pos (linear_takes h) b)
    refine takes_mono (takes_step_bind (n := 4 * ((1 + s) * max 1 b.length) - 4) ?_)
      (by rw [Nat.add_mul]; omega)
    split
    · exact takes_free _ _
    · refine takes_free_bind fun _ _ => takes_mono (takes_bind h (m := 0) fun xs _ => ?_) (by omega)
      split <;> exact takes_free _ _

theorem Linear.list (E : Env) (n : Nat) (h : T.Linear s) : (T.list E n).Linear (1 + s) :=
  linear_of_takes (by omega) fun b => by
    have h := collectionC_takes (homogeneousC_takes E T.impl.toSerializable h.pos (linear_takes h) b)
    refine takes_mono (takes_step_bind (n := 4 * ((1 + s) * max 1 b.length) - 4) ?_)
      (by rw [Nat.add_mul]; omega)
    refine takes_free_bind fun _ _ => takes_mono (takes_bind h (m := 0) fun xs _ => ?_) (by omega)
    split
    · exact takes_free _ _
    · split <;> exact takes_free _ _

theorem Linear.option (E : Env) (h : T.Linear s) : (T.option E).Linear (1 + s) :=
  linear_of_takes (by omega) fun b => by
    refine takes_mono (takes_step_bind (n := 4 * ((1 + s) * max 1 b.length) - 4) ?_)
      (by rw [Nat.add_mul]; omega)
    cases b with
    | nil => exact takes_free _ _
    | cons x rest =>
      dsimp only
      split
      · split <;> exact takes_free _ _
      split
      · have h1 : s * max 1 rest.length ≤ s * max 1 (x :: rest).length :=
          Nat.mul_le_mul_left _ (by rw [List.length_cons]; omega)
        refine takes_mono (takes_bind (linear_takes h rest) fun _ _ => takes_free _ 0) ?_
        rw [Nat.add_mul]
        omega
      · exact takes_free _ _

theorem Linear.newtype (E : Env) (h : T.Linear s) : (T.newtype E).Linear (1 + s) :=
  linear_of_takes (by omega) fun b => by
    refine takes_mono (takes_step_bind (takes_bind (linear_takes h b) fun _ _ => takes_free _ 0)) ?_
    rw [Nat.add_mul]
    omega

theorem Linear.container (E : Env) {fs : TimedFields α} (h : fs.Linear s) :
    (TimedImpl.container E fs).Linear (1 + s) :=
  linear_of_takes (by omega) fun b => by
    have h0 := partsInitC_takes b h
    have h2 : fs.impls.count * 3 ≤ 4 * (s * max 1 b.length) := by
      have := fields_count h
      have : s ≤ s * max 1 b.length := Nat.le_mul_of_pos_right _ (by omega)
      omega
    refine takes_mono (takes_step_bind (takes_bind (partsParseAllC_takes E b fs.impls {}).1 fun d hd =>
      takes_bind (n := fs.impls.count) ?_ fun spans _ => h0 spans 0)) ?_
    · have h1 := (partsParseAllC_takes E b fs.impls {}).2 d hd
      refine takes_mono (takes_bind (finalizeSegmentsC_takes E _ d.segments _ _) (m := 0)
        fun x _ => ?_) (by rw [h1]; simp)
      dsimp only
      split
      · exact takes_free _ _
      · split <;> exact takes_free _ _
    · rw [Nat.add_mul]
      omega

theorem Linear.union (E : Env) {vs : TimedVariants α} (h : vs.Linear s) :
    (TimedImpl.union E vs).Linear (1 + s) :=
  linear_of_takes (by omega) fun b => by
    refine takes_mono (takes_step_bind (n := 4 * ((1 + s) * max 1 b.length) - 4) ?_)
      (by rw [Nat.add_mul]; omega)
    cases b with
    | nil => exact takes_free _ _
    | cons x rest =>
      refine takes_mono (partsVariantsC_takes x rest _ h 0) ?_
      have : (1 + s) * max 1 rest.length ≤ (1 + s) * max 1 (x :: rest).length :=
        Nat.mul_le_mul_left _ (by rw [List.length_cons]; omega)
      omega

theorem Linear.transparent (E : Env) {ps : TimedPayloads α} (h : ps.Linear s) :
    (TimedImpl.transparent E ps).Linear (1 + s) :=
  linear_of_takes (by omega) fun b => by
    refine takes_mono (takes_step_bind (n := 4 * (s * max 1 b.length)) ?_)
      (by rw [Nat.add_mul]; omega)
    split
    · exact takes_free _ _
    · exact bodyC_takes b h

end TimedImpl

/-! ## The exact number of steps of a transparent enum -/

/-- What each variant does with the input, in declaration order: the number of steps, and whether it
returns an error. -/
def TimedPayloads.outcomes (b : Bytes) : {α : Type} → TimedPayloads α → List (Nat × Bool)
  | _, .nil => []
  | _, .cons T rest =>
    ((T.de b).1, match (T.de b).2 with | .err _ => true | _ => false) :: rest.outcomes b

/-- Up to the first that returns no error, that one included. -/
def triedOf : List (Nat × Bool) → List (Nat × Bool)
  | [] => []
  | x :: xs => if x.2 then x :: triedOf xs else [x]

theorem triedOf_append (xs : List (Nat × Bool)) (y : Nat × Bool) :
    triedOf (xs ++ [y]) = if ∀ x ∈ xs, x.2 = true then xs ++ [y] else triedOf xs := by
  induction xs with
  | nil => cases y with | mk a c => cases c <;> rfl
  | cons x xs ih =>
    rw [List.cons_append, triedOf, triedOf, ih]
    by_cases h : x.2 = true
    · by_cases h2 : ∀ x ∈ xs, x.2 = true
      · rw [if_pos h, if_pos h2, if_pos (by simpa using ⟨h, by simpa using h2⟩)]
      · rw [if_pos h, if_neg h2, if_neg (by simpa [h] using h2), if_pos h]
    · rw [if_neg h, if_neg (by simp [h]), if_neg h]

theorem triedOf_all {xs : List (Nat × Bool)} (h : ∀ x ∈ xs, x.2 = true) : triedOf xs = xs := by
  induction xs with
  | nil => rfl
  | cons x xs ih =>
    rw [triedOf, if_pos (h x (by simp)), ih fun y hy => h y (by simp [hy])]

theorem bodyC_exact (b : Bytes) : ∀ {α : Type} (ps : TimedPayloads α),
    (ps.bodyC b).1 = ((triedOf (ps.outcomes b).reverse).map fun x => x.1 + 1).sum ∧
    ((∃ e, (ps.bodyC b).2 = .err e) ↔ ∀ x ∈ ps.outcomes b, x.2 = true)
  | _, .nil => ⟨rfl, by simp [TimedPayloads.bodyC, TimedPayloads.outcomes, free]⟩
  | _, .cons (α := α) (β := β) T rest => by
    obtain ⟨h1, h2⟩ := bodyC_exact b rest
    have hs : ∀ α : Type, ∀ x : Timed α, (do step; x : Timed α).1 = x.1 + 1 ∧
        (do step; x : Timed α).2 = x.2 := fun α x => ⟨Nat.add_comm _ _, rfl⟩
    simp only [TimedPayloads.outcomes, List.reverse_cons, triedOf_append, List.mem_reverse,
      TimedPayloads.bodyC]
    by_cases hr : ∃ e, (rest.bodyC b).2 = .err e
    · rw [if_pos (h2.1 hr)]
      have h3 := triedOf_all (xs := (rest.outcomes b).reverse) fun x hx =>
        h2.1 hr x (List.mem_reverse.1 hx)
      rw [h3] at h1
      obtain ⟨e, he⟩ := hr
      have h4 : ∀ y : Timed (α ⊕ β), (rest.bodyC b).ifOk Sum.inr y =
          ((rest.bodyC b).1 + y.1, y.2) := fun y => by
        unfold Timed.ifOk
        rw [he]
      rw [h4]
      simp only [List.map_append, List.sum_append, List.map_cons, List.map_nil, List.sum_cons,
        List.sum_nil, Nat.add_zero, ← h1, List.forall_mem_cons]
      unfold Timed.ifOk
      simp only [(hs _ (T.de b)).1, (hs _ (T.de b)).2]
      cases T.de b with
      | mk k r =>
        cases r with
        | ok v => simp
        | panic => simp
        | err e2 =>
          refine ⟨by simp [free], fun _ => ⟨rfl, h2.1 ⟨e, he⟩⟩, fun _ => ⟨_, rfl⟩⟩
    · rw [if_neg fun hx => hr (h2.2 hx), ← h1]
      have hn : ¬ ∀ x ∈ rest.outcomes b, x.2 = true := fun hx => hr (h2.2 hx)
      simp only [List.forall_mem_cons, hn, and_false, iff_false]
      unfold Timed.ifOk
      cases hb : (rest.bodyC b).2 with
      | ok v => simp
      | panic => simp
      | err e => exact absurd ⟨e, hb⟩ hr

end Ssz
