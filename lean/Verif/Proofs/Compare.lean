import Verif.Model.Compare
import Verif.Spec.Compare
import Verif.Spec.Encoding

/-!
# Comparisons follow the numbers of `sortKey`
-/

namespace Ssz

open Spec

theorem compare_cons (x y : Nat) (xs ys : List Nat) :
    compare (x :: xs) (y :: ys) = (compare x y).then (compare xs ys) :=
  List.compareLex_cons_cons

theorem compare_self (x : Nat) : compare x x = .eq := Nat.compare_eq_eq.mpr rfl

theorem cmpBool_eq (x y : Bool) : cmpBool x y = compare x.toNat y.toNat := by
  cases x <;> cases y <;> rfl

/-- A comparison that follows keys, even if more numbers come behind. -/
def Keyed {α : Type} (k : α → List Nat) (cmp : α → α → Ordering) : Prop :=
  ∀ v w r s, compare (k v ++ r) (k w ++ s) = (cmp v w).then (compare r s)

theorem keyed_one {α : Type} (f : α → Nat) (v w : α) (r s : List Nat) :
    compare ([f v] ++ r) ([f w] ++ s) = (compare (f v) (f w)).then (compare r s) :=
  compare_cons ..

theorem keyed_slice {α : Type} {k : α → List Nat} {cmp : α → α → Ordering} (h : Keyed k cmp) :
    Keyed (sortKeys k) (cmpSlice cmp)
  | [], [], r, s => by
    show compare (0 :: r) (0 :: s) = _
    rw [compare_cons, compare_self]
    rfl
  | [], y :: ys, r, s => by
    show compare (0 :: r) (1 :: _) = _
    rw [compare_cons]
    rfl
  | x :: xs, [], r, s => by
    show compare (1 :: _) (0 :: s) = _
    rw [compare_cons]
    rfl
  | x :: xs, y :: ys, r, s => by
    have e : ∀ (x : α) xs r, sortKeys k (x :: xs) ++ r = 1 :: (k x ++ (sortKeys k xs ++ r)) := by
      intro x xs r
      simp only [sortKeys, List.flatMap_cons, List.append_assoc, List.cons_append]
    rw [e, e, compare_cons, compare_self, Ordering.then, h, keyed_slice h xs ys, cmpSlice]
    cases cmp x y <;> rfl

theorem keyed_bytes : ∀ (v w : Bytes) (r s : List Nat), v.length = w.length →
    compare (v.map BitVec.toNat ++ r) (w.map BitVec.toNat ++ s) =
      (cmpSlice (fun x y : Byte => compare x.toNat y.toNat) v w).then (compare r s)
  | [], [], _, _, _ => rfl
  | x :: v, y :: w, r, s, h => by
    simp only [List.map_cons, List.cons_append, compare_cons, cmpSlice]
    rw [keyed_bytes v w r s (Nat.succ.inj h)]
    cases compare x.toNat y.toNat <;> rfl

theorem sortKeyV_cons : ∀ (vs : Variants) (i : Nat) (v : vs.Val),
    ∃ j rest, sortKeyV vs i v = j :: rest ∧ i ≤ j
  | .nil, _, v => Empty.elim v
  | .unit _, i, .inl _ => ⟨i, [], rfl, Nat.le_refl i⟩
  | .unit vs, i, .inr v =>
    have ⟨j, rest, h, hj⟩ := sortKeyV_cons vs (i + 1) v
    ⟨j, rest, h, Nat.le_of_succ_le hj⟩
  | .data _ _, i, .inl _ => ⟨i, _, rfl, Nat.le_refl i⟩
  | .data _ vs, i, .inr v =>
    have ⟨j, rest, h, hj⟩ := sortKeyV_cons vs (i + 1) v
    ⟨j, rest, h, Nat.le_of_succ_le hj⟩

theorem below {l q : List Nat} {i j : Nat} (h : l = j :: q) (hj : i + 1 ≤ j) (p r s : List Nat) :
    compare (i :: p ++ r) (l ++ s) = .lt := by
  rw [h, List.cons_append, List.cons_append, compare_cons, Nat.compare_eq_lt.mpr hj]
  rfl

theorem above {l q : List Nat} {i j : Nat} (h : l = j :: q) (hj : i + 1 ≤ j) (p r s : List Nat) :
    compare (l ++ r) (i :: p ++ s) = .gt := by
  rw [h, List.cons_append, List.cons_append, compare_cons, Nat.compare_eq_gt.mpr hj]
  rfl

mutual

theorem keyed : ∀ t : Ty, Keyed (sortKey t) t.cmp
  | .uint u => keyed_one (α := BitVec u.bits) BitVec.toNat
  | .u256 => keyed_one (α := BitVec 256) BitVec.toNat
  | .bool => fun v w r s => by
    exact (keyed_one Bool.toNat v w r s).trans
      (congrArg (Ordering.then · (compare r s)) (cmpBool_eq v w).symm)
  | .node => fun v w r s => keyed_bytes v.1 w.1 r s (v.2.trans w.2.symm)
  | .array t _ => fun v w r s => keyed_slice (keyed t) v.1 w.1 r s
  | .vector t _ => keyed_slice (keyed t)
  | .list t _ => keyed_slice (keyed t)
  | .bitvector _ => fun v w r s => keyed_slice (fun x y r s => by
      rw [cmpBool_eq]; exact keyed_one Bool.toNat x y r s) v.live w.live r s
  | .bitlist _ => fun v w r s => keyed_slice (fun x y r s => by
      rw [cmpBool_eq]; exact keyed_one Bool.toNat x y r s) v.live w.live r s
  | .option t => fun v w r s => by
    cases v with
    | none =>
      cases w with
      | none => exact keyed_one (fun _ : Unit => 0) () () r s
      | some y => exact compare_cons 0 1 r _
    | some x =>
      cases w with
      | none => exact compare_cons 1 0 _ s
      | some y => exact (compare_cons 1 1 _ _).trans (keyed t x y r s)
  | .newtype t => keyed t
  | .container fs => keyedF fs
  | .union vs => fun v w r s => keyedV vs 0 v w r s

theorem keyedF : ∀ fs : Fields, Keyed (sortKeyF fs) fs.cmp
  | .nil => fun _ _ _ _ => rfl
  | .cons _ t rest => fun v w r s => by
    show compare ((sortKey t v.1 ++ sortKeyF rest v.2) ++ r) ((sortKey t w.1 ++ sortKeyF rest w.2) ++ s)
      = Ordering.then (match t.cmp v.1 w.1 with | .eq => rest.cmp v.2 w.2 | o => o) (compare r s)
    rw [List.append_assoc, List.append_assoc, keyed t, keyedF rest]
    cases t.cmp v.1 w.1 <;> rfl

theorem keyedV : ∀ (vs : Variants) (i : Nat), Keyed (sortKeyV vs i) vs.cmp
  | .nil, _ => fun v _ _ _ => Empty.elim v
  | .unit vs, i => fun v w r s => by
    match v, w with
    | .inl _, .inl _ => exact keyed_one (fun _ : Unit => i) () () r s |>.trans (by rw [compare_self]; rfl)
    | .inr v, .inr w => exact keyedV vs (i + 1) v w r s
    | .inl _, .inr w =>
      obtain ⟨j, q, h, hj⟩ := sortKeyV_cons vs (i + 1) w
      exact below (show sortKeyV (.unit vs) i (.inr w) = j :: q from h) hj [] r s
    | .inr v, .inl _ =>
      obtain ⟨j, q, h, hj⟩ := sortKeyV_cons vs (i + 1) v
      exact above (show sortKeyV (.unit vs) i (.inr v) = j :: q from h) hj [] r s
  | .data t vs, i => fun v w r s => by
    match v, w with
    | .inl v, .inl w =>
      exact (compare_cons i i _ _).trans (by rw [compare_self]; exact keyed t v w r s)
    | .inr v, .inr w => exact keyedV vs (i + 1) v w r s
    | .inl v, .inr w =>
      obtain ⟨j, q, h, hj⟩ := sortKeyV_cons vs (i + 1) w
      exact below (show sortKeyV (.data t vs) i (.inr w) = j :: q from h) hj (sortKey t v) r s
    | .inr v, .inl w =>
      obtain ⟨j, q, h, hj⟩ := sortKeyV_cons vs (i + 1) v
      exact above (show sortKeyV (.data t vs) i (.inr v) = j :: q from h) hj (sortKey t w) r s

end

theorem cmp_key (t : Ty) (v w : t.Val) : t.cmp v w = compare (sortKey t v) (sortKey t w) := by
  have := keyed t v w [] []
  rw [List.append_nil, List.append_nil] at this
  rw [this]
  cases t.cmp v w <;> rfl

/-! ## Equality -/

/-- A test that decides whether `f` maps both values to the same. -/
def Decides {α β : Type} (f : α → β) (eq : α → α → Bool) : Prop :=
  ∀ v w, eq v w = true ↔ f v = f w

theorem decides_slice {α β : Type} {f : α → β} {eq : α → α → Bool} (h : Decides f eq) :
    Decides (List.map f) (eqSlice eq)
  | [], [] => by simp [eqSlice]
  | [], _ :: _ => by simp [eqSlice]
  | _ :: _, [] => by simp [eqSlice]
  | x :: xs, y :: ys => by
    rw [eqSlice, Bool.and_eq_true, h x y, decides_slice h xs ys, List.map_cons, List.map_cons,
      List.cons.injEq]

theorem decides_beq {α : Type} [BEq α] [LawfulBEq α] : Decides (id : α → α) (· == ·) :=
  fun _ _ => beq_iff_eq

theorem decides_list {α : Type} [BEq α] [LawfulBEq α] (v w : List α) :
    eqSlice (· == ·) v w = true ↔ v = w := by
  have := decides_slice (decides_beq (α := α)) v w
  rwa [List.map_id, List.map_id] at this

theorem bits_eq (v w : Bits) : eqSlice (· == ·) v.live w.live = true ↔
    (⟨v.live, padBits v.live.length⟩ : Bits) = ⟨w.live, padBits w.live.length⟩ := by
  rw [decides_list]
  constructor
  · intro h; rw [h]
  · intro h; injection h

mutual

theorem eq_norm : ∀ t : Ty, Decides (norm t) t.eq
  | .uint u => fun v w => beq_iff_eq (α := BitVec u.bits)
  | .u256 => fun v w => beq_iff_eq (α := BitVec 256)
  | .bool => fun v w => beq_iff_eq (α := Bool)
  | .node => fun v w => (decides_list v.1 w.1).trans (Subtype.ext_iff (a1 := v) (a2 := w)).symm
  | .array t n => fun v w => (decides_slice (eq_norm t) v.1 w.1).trans
      (Subtype.ext_iff (a1 := norm (.array t n) v) (a2 := norm (.array t n) w)).symm
  | .vector t _ => decides_slice (eq_norm t)
  | .list t _ => decides_slice (eq_norm t)
  | .bitvector _ => bits_eq
  | .bitlist _ => bits_eq
  | .option t => fun v w => by
    cases v with
    | none =>
      cases w with
      | none => exact ⟨fun _ => rfl, fun _ => rfl⟩
      | some y => exact ⟨fun h => (nomatch h), fun h => (nomatch h)⟩
    | some x =>
      cases w with
      | none => exact ⟨fun h => (nomatch h), fun h => (nomatch h)⟩
      | some y => exact (eq_norm t x y).trans ⟨fun h => congrArg some h, fun h => Option.some.inj h⟩
  | .newtype t => eq_norm t
  | .container fs => eq_normF fs
  | .union vs => eq_normV vs

theorem eq_normF : ∀ fs : Fields, Decides (normF fs) fs.eq
  | .nil => fun _ _ => ⟨fun _ => rfl, fun _ => rfl⟩
  | .cons _ t rest => fun v w => by
    show (t.eq v.1 w.1 && rest.eq v.2 w.2) = true ↔
      (norm t v.1, normF rest v.2) = (norm t w.1, normF rest w.2)
    rw [Bool.and_eq_true, eq_norm t, eq_normF rest, Prod.mk.injEq]

theorem eq_normV : ∀ vs : Variants, Decides (normV vs) vs.eq
  | .nil => fun v _ => Empty.elim v
  | .unit vs => fun v w => by
    match v, w with
    | .inl _, .inl _ => exact ⟨fun _ => rfl, fun _ => rfl⟩
    | .inr v, .inr w =>
      exact (eq_normV vs v w).trans ⟨fun h => congrArg Sum.inr h, fun h => Sum.inr.inj h⟩
    | .inl _, .inr w => exact ⟨fun h => (nomatch h), fun h => (nomatch h)⟩
    | .inr v, .inl _ => exact ⟨fun h => (nomatch h), fun h => (nomatch h)⟩
  | .data t vs => fun v w => by
    match v, w with
    | .inl v, .inl w =>
      exact (eq_norm t v w).trans ⟨fun h => congrArg Sum.inl h, fun h => Sum.inl.inj h⟩
    | .inr v, .inr w =>
      exact (eq_normV vs v w).trans ⟨fun h => congrArg Sum.inr h, fun h => Sum.inr.inj h⟩
    | .inl _, .inr w => exact ⟨fun h => (nomatch h), fun h => (nomatch h)⟩
    | .inr v, .inl _ => exact ⟨fun h => (nomatch h), fun h => (nomatch h)⟩

end

/-- A test that agrees with a comparison. -/
def Agree {α : Type} (eq : α → α → Bool) (cmp : α → α → Ordering) : Prop :=
  ∀ v w, cmp v w = .eq ↔ eq v w = true

theorem agree_slice {α : Type} {eq : α → α → Bool} {cmp : α → α → Ordering} (h : Agree eq cmp) :
    Agree (eqSlice eq) (cmpSlice cmp)
  | [], [] => by simp [eqSlice, cmpSlice]
  | [], _ :: _ => by simp [eqSlice, cmpSlice]
  | _ :: _, [] => by simp [eqSlice, cmpSlice]
  | x :: xs, y :: ys => by
    rw [eqSlice, Bool.and_eq_true, ← h x y, ← agree_slice h xs ys, cmpSlice]
    cases cmp x y <;> simp

theorem agree_num {n : Nat} : Agree (α := BitVec n) (· == ·) fun x y => compare x.toNat y.toNat :=
  fun _ _ => Nat.compare_eq_eq.trans (BitVec.toNat_inj.trans beq_iff_eq.symm)

theorem agree_bool : Agree (· == ·) cmpBool := by
  intro x y
  cases x <;> cases y <;> decide

mutual

theorem cmp_eq : ∀ t : Ty, Agree t.eq t.cmp
  | .uint u => agree_num (n := u.bits)
  | .u256 => agree_num (n := 256)
  | .bool => agree_bool
  | .node => fun v w => agree_slice agree_num v.1 w.1
  | .array t _ => fun v w => agree_slice (cmp_eq t) v.1 w.1
  | .vector t _ => agree_slice (cmp_eq t)
  | .list t _ => agree_slice (cmp_eq t)
  | .bitvector _ => fun v w => agree_slice agree_bool v.live w.live
  | .bitlist _ => fun v w => agree_slice agree_bool v.live w.live
  | .option t => fun v w => by
    cases v with
    | none =>
      cases w with
      | none => exact ⟨fun _ => rfl, fun _ => rfl⟩
      | some y => exact ⟨fun h => (nomatch h), fun h => (nomatch h)⟩
    | some x =>
      cases w with
      | none => exact ⟨fun h => (nomatch h), fun h => (nomatch h)⟩
      | some y => exact cmp_eq t x y
  | .newtype t => cmp_eq t
  | .container fs => cmp_eqF fs
  | .union vs => cmp_eqV vs

theorem cmp_eqF : ∀ fs : Fields, Agree fs.eq fs.cmp
  | .nil => fun _ _ => ⟨fun _ => rfl, fun _ => rfl⟩
  | .cons _ t rest => fun v w => by
    show (match t.cmp v.1 w.1 with | .eq => rest.cmp v.2 w.2 | o => o) = .eq ↔
      (t.eq v.1 w.1 && rest.eq v.2 w.2) = true
    rw [Bool.and_eq_true, ← cmp_eq t, ← cmp_eqF rest]
    cases t.cmp v.1 w.1 <;> simp

theorem cmp_eqV : ∀ vs : Variants, Agree vs.eq vs.cmp
  | .nil => fun v _ => Empty.elim v
  | .unit vs => fun v w => by
    match v, w with
    | .inl _, .inl _ => exact ⟨fun _ => rfl, fun _ => rfl⟩
    | .inr v, .inr w => exact cmp_eqV vs v w
    | .inl _, .inr w => exact ⟨fun h => (nomatch h), fun h => (nomatch h)⟩
    | .inr v, .inl _ => exact ⟨fun h => (nomatch h), fun h => (nomatch h)⟩
  | .data t vs => fun v w => by
    match v, w with
    | .inl v, .inl w => exact cmp_eq t v w
    | .inr v, .inr w => exact cmp_eqV vs v w
    | .inl _, .inr w => exact ⟨fun h => (nomatch h), fun h => (nomatch h)⟩
    | .inr v, .inl _ => exact ⟨fun h => (nomatch h), fun h => (nomatch h)⟩

end

end Ssz
