import Verif.Proofs.PartsCost
import Verif.Props.DecodeCost

/-!
# C82: what decoding a transparent enum costs

`T.Same`: the counted `deserialize` of `T` returns what the implementation returns. `T.Linear s`: it
takes at most `4 * (s * max 1 length) - 3` steps. For an enum with `#[ssz(transparent)]` the size `s` is
that of all its variants together, and it counts every occurrence of a type, not every declaration.
-/

namespace Ssz

open Spec

/-- C82: the types of C77. -/
theorem C82_crate (E : Env) (t : Ty) :
    (TimedImpl.crate E t).Same ∧ (TimedImpl.crate E t).Linear (typeSize t) :=
  ⟨fun b => deC_res E t b, linear_of_takes (typeSize_pos t) fun b => deC_takes E t b⟩

/-- C82: lists of parts. -/
theorem C82_list {α : Type} (E : Env) (T : TimedImpl α) (n : Nat) :
    (T.Same → (T.list E n).Same) ∧ ∀ s, T.Linear s → (T.list E n).Linear (1 + s) :=
  ⟨fun h => h.list E n, fun _ h => h.list E n⟩

/-- C82: vectors of parts. -/
theorem C82_vector {α : Type} (E : Env) (T : TimedImpl α) (n : Nat) :
    (T.Same → (T.vector E n).Same) ∧ ∀ s, T.Linear s → (T.vector E n).Linear (1 + s) :=
  ⟨fun h => h.vector E n, fun _ h => h.vector E n⟩

/-- C82: arrays of parts. -/
theorem C82_array {α : Type} (E : Env) (T : TimedImpl α) (n : Nat) :
    (T.Same → (T.array E n).Same) ∧ ∀ s, T.Linear s → (T.array E n).Linear (1 + s) :=
  ⟨fun h => h.array E n, fun _ h => h.array E n⟩

/-- C82: options. -/
theorem C82_option {α : Type} (E : Env) (T : TimedImpl α) :
    (T.Same → (T.option E).Same) ∧ ∀ s, T.Linear s → (T.option E).Linear (1 + s) :=
  ⟨fun h => h.option E, fun _ h => h.option E⟩

/-- C82: newtypes. -/
theorem C82_newtype {α : Type} (E : Env) (T : TimedImpl α) :
    (T.Same → (T.newtype E).Same) ∧ ∀ s, T.Linear s → (T.newtype E).Linear (1 + s) :=
  ⟨fun h => h.newtype E, fun _ h => h.newtype E⟩

/-- C82: structs; the sizes of the fields add up. -/
theorem C82_struct {α : Type} (E : Env) (fs : TimedFields α) :
    (fs.All TimedImpl.Same → (TimedImpl.container E fs).Same) ∧
    ∀ s, fs.Linear s → (TimedImpl.container E fs).Linear (1 + s) :=
  ⟨fun h => TimedImpl.Same.container E h, fun _ h => TimedImpl.Linear.container E h⟩

/-- C82: enums. -/
theorem C82_union {α : Type} (E : Env) (vs : TimedVariants α) :
    (vs.All TimedImpl.Same → (TimedImpl.union E vs).Same) ∧
    ∀ s, vs.Linear s → (TimedImpl.union E vs).Linear (1 + s) :=
  ⟨fun h => TimedImpl.Same.union E h, fun _ h => TimedImpl.Linear.union E h⟩

/-- C82: transparent enums; the sizes of the variants add up. -/
theorem C82_transparent {α : Type} (E : Env) (ps : TimedPayloads α) :
    (ps.All TimedImpl.Same → (TimedImpl.transparent E ps).Same) ∧
    ∀ s, ps.Linear s → (TimedImpl.transparent E ps).Linear (1 + s) :=
  ⟨fun h => TimedImpl.Same.transparent E h, fun _ h => TimedImpl.Linear.transparent E h⟩

/-- C82: the exact number of steps of a transparent enum. The variants are tried from the last to the
first until one does not return an error; each variant tried costs what its `deserialize` costs on the
whole input, and one. Of an empty input no variant is tried. -/
theorem C82_steps {α : Type} (E : Env) (ps : TimedPayloads α) (b : Bytes) :
    ((TimedImpl.transparent E ps).de b).1 =
      if b = [] then 1
      else 1 + ((triedOf (ps.outcomes b).reverse).map fun x => x.1 + 1).sum := by
  have h : ((TimedImpl.transparent E ps).de b).1 = 1 + (if b.isEmpty
      then Timed.free (.err (.expectedFurtherInput 0 1)) else ps.bodyC b : Timed α).1 := rfl
  rw [h]
  cases b with
  | nil => rfl
  | cons x rest =>
    rw [if_neg (by simp), if_neg (by simp), (bodyC_exact _ ps).1]

/-! ## Transparent enums inside transparent enums -/

/-- The values of `k` enums of two variants, each enum with the one before it in both variants. -/
def NestVal (α : Type) : Nat → Type
  | 0 => α
  | k + 1 => NestVal α k ⊕ (NestVal α k ⊕ Empty)

/-- `k` transparent enums: `enum E1 { A(T), B(T) }`, `enum E2 { A(E1), B(E1) }` and so on. -/
def nestTransparent {α : Type} (E : Env) (T : TimedImpl α) : (k : Nat) → TimedImpl (NestVal α k)
  | 0 => T
  | k + 1 => .transparent E (.cons (nestTransparent E T k) (.cons (nestTransparent E T k) .nil))

/-- The same enums without the attribute. -/
def nestUnion {α : Type} (E : Env) (T : TimedImpl α) : (k : Nat) → TimedImpl (NestVal α k)
  | 0 => T
  | k + 1 => .union E (.data (nestUnion E T k) (.data (nestUnion E T k) .nil))

theorem outcomes_two {α : Type} (T : TimedImpl α) (b : Bytes) (e : DeError) (h : (T.de b).2 = .err e) :
    (TimedPayloads.cons T (.cons T .nil)).outcomes b = [((T.de b).1, true), ((T.de b).1, true)] := by
  simp only [TimedPayloads.outcomes, h]

/-- C82: an input that the innermost type rejects: the number of steps doubles with each enum, so it is
exponential in the number of declarations. The input may be of one byte. -/
theorem C82_nested_rejected {α : Type} (E : Env) (T : TimedImpl α) (b : Bytes) (e : DeError)
    (hb : b ≠ []) (h : (T.de b).2 = .err e) (k : Nat) :
    ((nestTransparent E T k).de b).1 + 3 = 2 ^ k * ((T.de b).1 + 3) ∧
    ((nestTransparent E T k).de b).2 = .err (if k = 0 then e else .noMatchingVariant) := by
  induction k with
  | zero => exact ⟨by rw [Nat.pow_zero, Nat.one_mul]; rfl, h⟩
  | succ k ih =>
    obtain ⟨h1, h2⟩ := ih
    have hC := C82_steps E
      (TimedPayloads.cons (nestTransparent E T k) (.cons (nestTransparent E T k) .nil)) b
    rw [if_neg hb] at hC
    constructor
    · refine Eq.trans (congrArg (· + 3) hC) ?_
      rw [outcomes_two _ _ _ h2]
      rw [Nat.pow_succ, Nat.mul_comm (2 ^ k) 2, Nat.mul_assoc, ← h1]
      simp only [List.reverse_cons, List.reverse_nil, List.nil_append, List.cons_append, triedOf,
        if_true, List.map_cons, List.map_nil, List.sum_cons, List.sum_nil]
      omega
    · have h3 : ((nestTransparent E T (k + 1)).de b).2 = ((if b.isEmpty
          then Timed.free (.err (.expectedFurtherInput 0 1)) else
            (TimedPayloads.cons (nestTransparent E T k) (.cons (nestTransparent E T k) .nil)).bodyC b :
            Timed _)).2 := rfl
      rw [h3, if_neg (by simpa using hb)]
      simp only [TimedPayloads.bodyC, ifOk_res, Timed.bind_res, Timed.step_res, Res.ok_bind, h2,
        Timed.free_res]
      rw [if_neg (by omega)]
      rfl

/-- C82: an input that the innermost type accepts costs two steps for each enum. -/
theorem C82_nested_accepted {α : Type} (E : Env) (T : TimedImpl α) (b : Bytes) (v : α)
    (hb : b ≠ []) (h : (T.de b).2 = .ok v) (k : Nat) :
    ((nestTransparent E T k).de b).1 = 2 * k + (T.de b).1 ∧
    ∃ w, ((nestTransparent E T k).de b).2 = .ok w := by
  induction k with
  | zero => exact ⟨by simp [nestTransparent], v, h⟩
  | succ k ih =>
    obtain ⟨h1, w, h2⟩ := ih
    have hC := C82_steps E
      (TimedPayloads.cons (nestTransparent E T k) (.cons (nestTransparent E T k) .nil)) b
    rw [if_neg hb] at hC
    constructor
    · refine Eq.trans hC ?_
      simp only [TimedPayloads.outcomes, h2, List.reverse_cons, List.reverse_nil, List.nil_append,
        List.cons_append, triedOf, h1]
      simp
      omega
    · refine ⟨.inr (.inl w), ?_⟩
      have h3 : ((nestTransparent E T (k + 1)).de b).2 = ((if b.isEmpty
          then Timed.free (.err (.expectedFurtherInput 0 1)) else
            (TimedPayloads.cons (nestTransparent E T k) (.cons (nestTransparent E T k) .nil)).bodyC b :
            Timed _)).2 := rfl
      rw [h3, if_neg (by simpa using hb)]
      simp only [TimedPayloads.bodyC, ifOk_res, Timed.bind_res, Timed.step_res, Res.ok_bind, h2,
        Timed.free_res]
      rfl

/-- C82: without the attribute, `k` enums cost at most three steps each, whether or not the input is
accepted. -/
theorem C82_nested_union {α : Type} (E : Env) (T : TimedImpl α) (c : Nat) (h : ∀ b, (T.de b).1 ≤ c)
    (k : Nat) (b : Bytes) : ((nestUnion E T k).de b).1 ≤ 3 * k + c := by
  induction k generalizing b with
  | zero => exact Nat.le_trans (h b) (by omega)
  | succ k ih =>
    show Timed.Takes ((nestUnion E T (k + 1)).de b) _
    have hk : ∀ b, Timed.Takes ((nestUnion E T k).de b) (3 * k + c) := ih
    refine Timed.takes_mono (Timed.takes_step_bind (n := 3 * k + c + 2) ?_) (by omega)
    cases b with
    | nil => exact Timed.takes_free _ _
    | cons x rest =>
      simp only [TimedVariants.deC]
      refine Timed.takes_mono (Timed.takes_step_bind (n := 3 * k + c + 1) ?_) (by omega)
      split
      · exact Timed.takes_mono (Timed.takes_bind (hk rest) (m := 0) fun _ _ => Timed.takes_free _ _)
          (by omega)
      · refine Timed.takes_mono (Timed.takes_bind (n := 3 * k + c + 1) (m := 0)
          (Timed.takes_step_bind (n := 3 * k + c) ?_) fun _ _ => Timed.takes_free _ _) (by omega)
        split
        · exact Timed.takes_mono (Timed.takes_bind (hk rest) (m := 0) fun _ _ => Timed.takes_free _ _)
            (by omega)
        · exact Timed.takes_mono (Timed.takes_bind (n := 0) (m := 0) (Timed.takes_free _ _)
            fun _ _ => Timed.takes_free _ _) (by omega)

/-! ## Examples -/

/-- `u64`, with its counter. -/
def timedU64 (E : Env) : TimedImpl (BitVec 64) := .crate E (.uint .u64)

/-- Thirty enums around `u64`, and an input of one byte: more than four thousand million steps. Without
the attribute, at most 91. -/
example (E : Env) : ((nestTransparent E (timedU64 E) 30).de [0]).1 = 4 * 2 ^ 30 - 3 ∧
    ((nestUnion E (timedU64 E) 30).de [0]).1 ≤ 91 := by
  have h := (C82_nested_rejected E (timedU64 E) [0] (.expectedFurtherInput 1 8) (by simp) rfl 30).1
  have h1 : ((timedU64 E).de [0]).1 = 1 := rfl
  rw [h1] at h
  exact ⟨by omega, C82_nested_union E (timedU64 E) 1 (fun _ => Nat.le_refl _) 30 [0]⟩

example (E : Env) : ((nestTransparent E (timedU64 E) 30).de [1, 0, 0, 0, 0, 0, 0, 0]).1 = 61 :=
  (C82_nested_accepted E (timedU64 E) [1, 0, 0, 0, 0, 0, 0, 0] 1 (by simp) rfl 30).1

/-- A list of transparent enums of a `u64` and a list of `u64`: size 5. -/
example (E : Env) : ((TimedImpl.transparent E (.cons (timedU64 E)
      (.cons (.crate E (.list (.uint .u64) 4)) .nil))).list E 8).Linear 5 ∧
    ((TimedImpl.transparent E (.cons (timedU64 E)
      (.cons (.crate E (.list (.uint .u64) 4)) .nil))).list E 8).Same := by
  refine ⟨(C82_list E _ 8).2 4 ((C82_transparent E _).2 3 ?_),
    (C82_list E _ 8).1 ((C82_transparent E _).1 ?_)⟩
  · exact ⟨1, 2, rfl, (C82_crate E _).2, 2, 0, rfl, (C82_crate E _).2, rfl⟩
  · exact ⟨(C82_crate E _).1, (C82_crate E _).1, trivial⟩

end Ssz
