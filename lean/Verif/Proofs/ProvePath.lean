import Verif.Proofs.Prove

/-!
# The inner proof of the prover
-/

namespace Ssz

open Spec

theorem le_gcat_right {g h : Nat} (hg : 1 ≤ g) (hh : 1 ≤ h) : h ≤ gcat g h := by
  obtain ⟨d, i, hi, rfl⟩ := exists_pow_add hh
  rw [gcat_pow hi]
  have := Nat.mul_le_mul_right (2 ^ d) hg
  omega

/-- The inner proof, for an index below a leaf of the tree built. -/
theorem inner_eq {α : Type} {E : Env} {T : SimpleSerialize α} {v : α} {ts : List MTree} {c : Nat}
    {deco : Option Nat} (h : Pre E T v ts c deco) {pr : Prover} {q b : Nat}
    (hq : q < 2 ^ partsDepth c deco) (hb : 1 < b) (hg : pr.proof.index < 2 ^ 64)
    (hi : pr.proof.index = gcat (2 ^ partsDepth c deco + q) b) :
    computeProof E T v pr =
      (T.proveElement v q { pr with proof := { pr.proof with index := b } } >>= fun p =>
        finishProof E T v (2 ^ partsDepth c deco) pr.proof.index (partsDepth c deco)
          (2 ^ partsDepth c deco + q) { p with proof := { p.proof with index := pr.proof.index } }) := by
  have hd := partsDepth_le h.countLe deco
  obtain ⟨e, r, hr, rfl⟩ := exists_pow_add (h := b) (by omega)
  obtain ⟨k, rfl⟩ : ∃ k, e = k + 1 := by
    cases e with
    | zero => simp at hr; subst hr; exact absurd hb (by decide)
    | succ k => exact ⟨k, rfl⟩
  rw [gcat_pow hr] at hi
  have h0 := Nat.two_pow_pos (partsDepth c deco)
  have h1 := Nat.two_pow_pos k
  have hk1 : 2 ^ (k + 1) = 2 ^ k * 2 := Nat.pow_succ 2 k
  have hqr : q * 2 ^ (k + 1) + r < 2 ^ (partsDepth c deco + (k + 1)) := by
    have := Nat.mul_le_mul_right (2 ^ (k + 1)) (show q + 1 ≤ _ from hq)
    rw [Nat.add_mul] at this
    rw [Nat.pow_add 2 (partsDepth c deco) (k + 1)]
    omega
  have hidx : pr.proof.index = 2 ^ (partsDepth c deco + (k + 1)) + (q * 2 ^ (k + 1) + r) := by
    rw [hi, Nat.add_mul, Nat.pow_add 2 (partsDepth c deco) (k + 1), Nat.add_assoc]
  have hk64 : partsDepth c deco + (k + 1) < 64 :=
    (Nat.pow_lt_pow_iff_right (show 1 < 2 by decide)).1 (by omega)
  have hsh : shrinkIndex (2 ^ (partsDepth c deco + 1) - 1) pr.proof.index =
      2 ^ partsDepth c deco + q := by
    rw [hidx, shrink_pow hqr, Nat.mul_comm, Nat.mul_add_div (Nat.two_pow_pos _),
      Nat.div_eq_of_lt hr, Nat.add_zero]
  have hmod : pr.proof.index % 2 ^ (k + 1) = r := by
    rw [hi, Nat.mul_comm, Nat.mul_add_mod, Nat.mod_eq_of_lt hr]
  have hlt : 2 ^ partsDepth c deco + q < pr.proof.index := by
    rw [hi, hk1]
    have := Nat.mul_le_mul_left (2 ^ partsDepth c deco + q) (show 2 ≤ 2 ^ k * 2 by omega)
    omega
  have hk64' : 2 ^ (k + 1) ≤ 2 ^ 63 := Nat.pow_le_pow_right (by decide) (by omega)
  rw [computeProof_eq h, coordinates_ok E hd (by rw [hsh]; omega) (by rw [hsh]; omega), hsh,
    Res.ok_bind, log2_pow_add hq, Nat.add_mod_left, Nat.mod_eq_of_lt hq]
  simp only [innerProof]
  rw [if_pos hlt, getDepth_ok (by omega)]
  simp only [Res.ok_bind]
  rw [show Nat.log2 pr.proof.index = partsDepth c deco + (k + 1) by rw [hidx, log2_pow_add hqr],
    Env.sub_eq_ok (by omega)]
  simp only [Res.lift_ok, Res.ok_bind]
  rw [show partsDepth c deco + (k + 1) - partsDepth c deco = k + 1 by omega, pow2_ok (by omega)]
  simp only [Res.lift_ok, Res.ok_bind]
  rw [usizeRem_pow, hmod]
  simp only [Res.ok_bind]
  rw [Env.add_eq_ok (by simp only [usizeMod]; omega)]
  simp only [Res.lift_ok, Res.ok_bind, Res.bind_assoc]

/-! ## Paths from numbers -/

theorem number_walk {path : List PathElement} {b : Nat} {w : Ty}
    (h : walkBy prims number path = some (b, w)) : b = 1 := packed_walk (t := number) rfl rfl h

theorem bool_walk {path : List PathElement} {b : Nat} {w : Ty}
    (h : walkBy prims .bool path = some (b, w)) : b = 1 := packed_walk (t := .bool) rfl rfl h

end Ssz
