import Verif.Spec.Index
import Verif.Proofs.MultiVerify

/-!
# Generalized indices: concatenation, and positions in full trees
-/

namespace Ssz

open Spec

/-! ## Concatenation -/

theorem exists_pow_add {h : Nat} (hh : 1 ≤ h) : ∃ d i, i < 2 ^ d ∧ h = 2 ^ d + i := by
  have h1 := Nat.log2_self_le (n := h) (by omega)
  have h2 := Nat.lt_log2_self (n := h)
  refine ⟨Nat.log2 h, h - 2 ^ Nat.log2 h, ?_, by omega⟩
  rw [Nat.pow_succ] at h2
  omega

theorem log2_pow_add {d i : Nat} (h : i < 2 ^ d) : Nat.log2 (2 ^ d + i) = d := by
  have := Nat.two_pow_pos d
  rw [log2_spec (by omega), Nat.pow_succ]
  omega

theorem gcat_pow {g d i : Nat} (h : i < 2 ^ d) : gcat g (2 ^ d + i) = g * 2 ^ d + i := by
  rw [gcat, log2_pow_add h]
  omega

@[simp] theorem gcat_one (g : Nat) : gcat g 1 = g := by
  have := gcat_pow (g := g) (d := 0) (i := 0) (by decide)
  simpa using this

theorem one_gcat {h : Nat} (hh : 1 ≤ h) : gcat 1 h = h := by
  obtain ⟨d, i, hi, rfl⟩ := exists_pow_add hh
  rw [gcat_pow hi, Nat.one_mul]

theorem le_gcat (g h : Nat) : g ≤ gcat g h := by
  rw [gcat]
  have := Nat.mul_le_mul_left g (Nat.two_pow_pos (Nat.log2 h))
  omega

theorem gcat_assoc {g h k : Nat} (hh : 1 ≤ h) (hk : 1 ≤ k) :
    gcat (gcat g h) k = gcat g (gcat h k) := by
  obtain ⟨d, i, hi, rfl⟩ := exists_pow_add hh
  obtain ⟨e, j, hj, rfl⟩ := exists_pow_add hk
  have h1 : i * 2 ^ e + j < 2 ^ (d + e) := by
    have := Nat.mul_le_mul_right (2 ^ e) (show i + 1 ≤ 2 ^ d from hi)
    rw [Nat.add_mul] at this
    rw [Nat.pow_add]
    omega
  have h2 : (2 ^ d + i) * 2 ^ e + j = 2 ^ (d + e) + (i * 2 ^ e + j) := by
    rw [Nat.add_mul, Nat.pow_add, Nat.add_assoc]
  rw [gcat_pow hi, gcat_pow hj, gcat_pow hj, h2, gcat_pow h1, Nat.add_mul, Nat.pow_add,
    ← Nat.mul_assoc, Nat.add_assoc]

theorem gcat_half {g h : Nat} (hh : 1 < h) :
    gcat g h / 2 = gcat g (h / 2) ∧ gcat g h % 2 = h % 2 := by
  obtain ⟨d, i, hi, rfl⟩ := exists_pow_add (h := h) (by omega)
  cases d with
  | zero => simp at hi; omega
  | succ d =>
    rw [Nat.pow_succ] at hi hh ⊢
    have h1 : (2 ^ d * 2 + i) / 2 = 2 ^ d + i / 2 := by omega
    rw [h1, gcat_pow (by omega), ← Nat.pow_succ, gcat_pow (by rw [Nat.pow_succ]; omega), Nat.pow_succ,
      ← Nat.mul_assoc]
    constructor <;> omega

/-- A node of a subtree. -/
theorem sub_cat {t : MTree} {g : Nat} (hg : 1 ≤ g) : ∀ {h : Nat}, 1 ≤ h → ∀ {u : MTree},
    (t.sub (gcat g h) = some u ↔ ∃ s, t.sub g = some s ∧ s.sub h = some u) := by
  intro h
  induction h using Nat.strongRecOn with
  | _ h ih =>
    intro hh u
    by_cases h1 : 1 < h
    · obtain ⟨h2, h3⟩ := gcat_half (g := g) h1
      have h4 : 1 < gcat g h := by
        have : 1 ≤ gcat g (h / 2) := Nat.le_trans hg (le_gcat _ _)
        omega
      rw [sub_step h4, h2, h3]
      constructor
      · rintro ⟨l, r, h5, h6⟩
        obtain ⟨s, h7, h8⟩ := (ih (h / 2) (by omega) (by omega)).1 h5
        exact ⟨s, h7, (sub_step h1).2 ⟨l, r, h8, h6⟩⟩
      · rintro ⟨s, h7, h8⟩
        obtain ⟨l, r, h5, h6⟩ := (sub_step h1).1 h8
        exact ⟨l, r, (ih (h / 2) (by omega) (by omega)).2 ⟨s, h7, h5⟩, h6⟩
    · obtain rfl : h = 1 := by omega
      rw [gcat_one]
      constructor
      · intro h; exact ⟨u, h, sub_one u⟩
      · rintro ⟨s, h, h'⟩; rw [sub_one] at h'; cases h'; exact h

theorem branchAt_cat {H : Bytes → Node} {t s : MTree} {g : Nat} (hg : 1 ≤ g)
    (hs : t.sub g = some s) : ∀ {h : Nat}, ∀ {u : MTree}, s.sub h = some u →
    t.branchAt H (gcat g h) = s.branchAt H h ++ t.branchAt H g := by
  intro h
  induction h using Nat.strongRecOn with
  | _ h ih =>
    intro u hu
    by_cases h1 : 1 < h
    · obtain ⟨h2, h3⟩ := gcat_half (g := g) h1
      obtain ⟨l, r, h5, h6⟩ := (sub_step h1).1 hu
      have h4 : 1 < gcat g h := by
        have : 1 ≤ gcat g (h / 2) := Nat.le_trans hg (le_gcat _ _)
        omega
      have h7 : t.sub (gcat g h / 2) = some (.node l r) := by
        rw [h2]
        exact (sub_cat hg (by omega)).2 ⟨s, hs, h5⟩
      rw [branchAt_step h4 h7, branchAt_step h1 h5, h3, h2, ih (h / 2) (by omega) h5]
      rfl
    · have : h ≠ 0 := by rintro rfl; rw [sub_zero] at hu; cases hu
      obtain rfl : h = 1 := by omega
      rw [gcat_one, branchAt_one (Nat.le_refl 1)]
      rfl

/-! ## Full trees -/

theorem node_sub_left {l r : MTree} : (MTree.node l r).sub 2 = some l :=
  (sub_step (by decide)).2 ⟨l, r, sub_one _, rfl⟩

theorem node_sub_right {l r : MTree} : (MTree.node l r).sub 3 = some r :=
  (sub_step (by decide)).2 ⟨l, r, sub_one _, rfl⟩

theorem leaf_sub {n : Node} {g : Nat} (h : g ≠ 1) : (MTree.leaf n).sub g = none := by
  cases hu : (MTree.leaf n).sub g with
  | none => rfl
  | some u =>
    exfalso
    have h0 : g ≠ 0 := by rintro rfl; rw [sub_zero] at hu; cases hu
    obtain ⟨d, i, hi, rfl⟩ := exists_pow_add (h := g) (by omega)
    cases d with
    | zero => simp at hi; omega
    | succ d =>
      have h2 : (2 ^ (d + 1) + i) / 2 ^ (d + 1) = 1 := by
        rw [Nat.add_div_left _ (Nat.two_pow_pos _), Nat.div_eq_of_lt hi]
      obtain ⟨l, r, h1⟩ := sub_ancestor d _ hu (by omega)
      rw [h2, sub_one] at h1
      cases h1

/-- The subtrees at the bottom of a full tree. -/
theorem full_sub {d : Nat} : ∀ {ts : List MTree} {i : Nat}, i < 2 ^ d →
    (full d ts).sub (2 ^ d + i) = some (ts[i]?.getD (.leaf zeroNode)) := by
  induction d with
  | zero =>
    intro ts i hi
    simp at hi
    subst hi
    show (full 0 ts).sub 1 = _
    rw [sub_one]
    cases ts <;> rfl
  | succ d ih =>
    intro ts i hi
    rw [Nat.pow_succ] at hi
    by_cases h : i < 2 ^ d
    · have h1 : 2 ^ (d + 1) + i = gcat 2 (2 ^ d + i) := by rw [gcat_pow h, Nat.pow_succ]; omega
      rw [h1, sub_cat (by decide) (by have := Nat.two_pow_pos d; omega)]
      refine ⟨_, node_sub_left, ?_⟩
      rw [ih h, List.getElem?_take_of_lt h]
    · have h1 : 2 ^ (d + 1) + i = gcat 3 (2 ^ d + (i - 2 ^ d)) := by
        rw [gcat_pow (by omega), Nat.pow_succ]; omega
      rw [h1, sub_cat (by decide) (by have := Nat.two_pow_pos d; omega)]
      refine ⟨_, node_sub_right, ?_⟩
      rw [ih (by omega), List.getElem?_drop, Nat.add_sub_of_le (by omega)]

/-- The interior nodes of a full tree. -/
theorem full_sub_node {d : Nat} {ts : List MTree} {g : Nat} (h1 : 1 ≤ g) (h2 : g < 2 ^ d) :
    ∃ l r, (full d ts).sub g = some (.node l r) := by
  obtain ⟨e, i, hi, rfl⟩ := exists_pow_add h1
  have hed : e < d := by
    by_contra hc
    have := Nat.pow_le_pow_right (n := 2) (by decide) (show d ≤ e by omega)
    omega
  obtain ⟨k, rfl⟩ : ∃ k, d = e + (k + 1) := ⟨d - e - 1, by omega⟩
  have h3 : i * 2 ^ (k + 1) < 2 ^ (e + (k + 1)) := by
    rw [Nat.pow_add 2 e]
    exact Nat.mul_lt_mul_of_pos_right hi (Nat.two_pow_pos _)
  have h4 := full_sub (ts := ts) h3
  have h5 : (2 ^ (e + (k + 1)) + i * 2 ^ (k + 1)) / 2 ^ (k + 1) = 2 ^ e + i := by
    rw [Nat.pow_add 2 e, ← Nat.add_mul, Nat.mul_div_cancel _ (Nat.two_pow_pos _)]
  have := sub_ancestor k _ h4 (by omega)
  rwa [h5] at this

end Ssz
