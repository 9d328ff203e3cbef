import Verif.Spec.Branch
import Verif.Model.Multiproofs
import Verif.Proofs.Binding

/-!
# Verification of single Merkle proofs
-/

namespace Ssz

open Spec

theorem sub_one (t : MTree) : t.sub 1 = some t := by
  rw [MTree.sub]; simp

theorem sub_zero (t : MTree) : t.sub 0 = none := by
  rw [MTree.sub]; simp

/-- The step from a node to its parent. -/
theorem sub_step {t s : MTree} {g : Nat} (hg : 1 < g) :
    t.sub g = some s ↔ ∃ l r, t.sub (g / 2) = some (.node l r) ∧ s = if g % 2 = 0 then l else r := by
  conv => lhs; rw [MTree.sub]
  rw [if_neg (by omega)]
  cases h : t.sub (g / 2) with
  | none => simp
  | some u =>
    cases u with
    | leaf n => simp
    | node l r =>
      simp only [Option.some.injEq, MTree.node.injEq]
      constructor
      · rintro rfl; exact ⟨l, r, ⟨rfl, rfl⟩, rfl⟩
      · rintro ⟨_, _, ⟨rfl, rfl⟩, rfl⟩; rfl

theorem sub_inputs {H : Bytes → Node} {t : MTree} : ∀ {g : Nat} {s : MTree}, t.sub g = some s →
    ∀ x ∈ s.inputs H, x ∈ t.inputs H := by
  intro g
  induction g using Nat.strongRecOn with
  | _ g ih =>
    intro s h x hx
    by_cases hg : 1 < g
    · obtain ⟨l, r, h1, rfl⟩ := (sub_step hg).1 h
      refine ih (g / 2) (by omega) h1 x ?_
      by_cases hp : g % 2 = 0
      · rw [if_pos hp] at hx; exact inputs_left x hx
      · rw [if_neg hp] at hx; exact inputs_right x hx
    · have : g = 0 ∨ g = 1 := by omega
      rcases this with rfl | rfl
      · rw [sub_zero] at h; cases h
      · rw [sub_one] at h; cases h; exact hx

theorem other_lt {g : Nat} (hg : 1 < g) : 1 < other g := by
  rw [other]; split <;> omega

theorem other_half {g : Nat} : other g / 2 = g / 2 := by
  rw [other]; split <;> omega

theorem other_mod {g : Nat} : (other g % 2 = 0) ↔ ¬ g % 2 = 0 := by
  rw [other]; split <;> omega

theorem branchAt_step {H : Bytes → Node} {t : MTree} {g : Nat} (hg : 1 < g) {l r : MTree}
    (h : t.sub (g / 2) = some (.node l r)) : t.branchAt H g =
      (if g % 2 = 0 then r.root H else l.root H) :: t.branchAt H (g / 2) := by
  conv => lhs; rw [MTree.branchAt]
  rw [if_neg (by omega)]
  have : t.sub (other g) = some (if g % 2 = 0 then r else l) := by
    refine (sub_step (other_lt hg)).2 ⟨l, r, ?_, ?_⟩
    · rw [other_half, h]
    · by_cases hp : g % 2 = 0
      · rw [if_pos hp, if_neg (mt other_mod.1 (not_not.2 hp))]
      · rw [if_neg hp, if_pos (other_mod.2 hp)]
  rw [MTree.nodeAt, this]
  split <;> rfl

theorem branchAt_one {H : Bytes → Node} {t : MTree} {g : Nat} (hg : g ≤ 1) :
    t.branchAt H g = [] := by
  rw [MTree.branchAt, if_pos hg]

theorem log2_half {g : Nat} (hg : 1 < g) : Nat.log2 g = Nat.log2 (g / 2) + 1 := by
  rw [Nat.log2_def, if_pos (by omega)]

theorem log2_spec {g d : Nat} (h : g ≠ 0) : Nat.log2 g = d ↔ 2 ^ d ≤ g ∧ g < 2 ^ (d + 1) := by
  rw [Nat.log2_eq_iff h]

/-- Completeness: every node of a tree and its branch give the root. -/
theorem climb_complete {H : Bytes → Node} {t : MTree} : ∀ {g : Nat} {s : MTree}, t.sub g = some s →
    climb H g (s.root H) (t.branchAt H g) = t.root H ∧ (t.branchAt H g).length = Nat.log2 g := by
  intro g
  induction g using Nat.strongRecOn with
  | _ g ih =>
    intro s h
    by_cases hg : 1 < g
    · obtain ⟨l, r, h1, rfl⟩ := (sub_step hg).1 h
      obtain ⟨h2, h3⟩ := ih (g / 2) (by omega) h1
      rw [branchAt_step hg h1]
      constructor
      · rw [climb, ← h2]
        congr 1
        by_cases hp : g % 2 = 0
        · simp only [hp, if_true]; rfl
        · simp only [hp, if_false]; rfl
      · rw [List.length_cons, h3, log2_half hg]
    · have : g = 0 ∨ g = 1 := by omega
      rcases this with rfl | rfl
      · rw [sub_zero] at h; cases h
      · rw [sub_one] at h; cases h
        rw [branchAt_one (Nat.le_refl 1)]
        exact ⟨rfl, by decide⟩

/-- Soundness: a node and a branch that give the root are those of the tree, or there is a
collision. -/
theorem climb_sound {H : Bytes → Node} {t : MTree} : ∀ {g : Nat} {s : MTree} {n : Node}
    {bs : List Node}, t.sub g = some s → bs.length = Nat.log2 g → climb H g n bs = t.root H →
    (n = s.root H ∧ bs = t.branchAt H g) ∨ CollideBranch H t g n bs := by
  intro g
  induction g using Nat.strongRecOn with
  | _ g ih =>
    intro s n bs h hb hc
    by_cases hg : 1 < g
    · obtain ⟨l, r, h1, rfl⟩ := (sub_step hg).1 h
      cases bs with
      | nil => rw [log2_half hg] at hb; simp at hb
      | cons b bs =>
        rw [log2_half hg, List.length_cons, Nat.add_right_cancel_iff] at hb
        rw [branchAt_step hg h1]
        rcases ih (g / 2) (by omega) h1 hb hc with ⟨h2, h3⟩ | ⟨x, hx, y, hy, hxy⟩
        · have hin : ((l.root H).1 ++ (r.root H).1) ∈ t.inputs H :=
            sub_inputs h1 _ (List.mem_cons_self ..)
          by_cases hp : g % 2 = 0
          · rw [if_pos hp] at h2
            by_cases he : n.1 ++ b.1 = (l.root H).1 ++ (r.root H).1
            · obtain ⟨rfl, rfl⟩ := append32_inj he
              rw [if_pos hp, if_pos hp, h3]
              exact .inl ⟨rfl, rfl⟩
            · refine .inr ⟨_, hin, n.1 ++ b.1, ?_, Ne.symm he, h2.symm⟩
              simp [climbInputs, hp]
          · rw [if_neg hp] at h2
            by_cases he : b.1 ++ n.1 = (l.root H).1 ++ (r.root H).1
            · obtain ⟨rfl, rfl⟩ := append32_inj he
              rw [if_neg hp, if_neg hp, h3]
              exact .inl ⟨rfl, rfl⟩
            · refine .inr ⟨_, hin, b.1 ++ n.1, ?_, Ne.symm he, h2.symm⟩
              simp [climbInputs, hp]
        · refine .inr ⟨x, hx, y, ?_, hxy⟩
          rw [climbInputs]
          refine List.mem_cons_of_mem _ ?_
          split at hy <;> rename_i hp
          · rw [if_pos hp]; exact hy
          · rw [if_neg hp]; exact hy
    · have : g = 0 ∨ g = 1 := by omega
      rcases this with rfl | rfl
      · rw [sub_zero] at h; cases h
      · rw [sub_one] at h; cases h
        have : bs = [] := by
          apply List.eq_nil_of_length_eq_zero
          rw [hb]; decide
        subst this
        rw [branchAt_one (Nat.le_refl 1)]
        exact .inl ⟨hc, rfl⟩

/-! ## The code -/

theorem pow2_ok {E : Env} {k : Nat} (h : k < 64) : E.pow2 k = .ok (2 ^ k) := by
  simp [Env.pow2, h]

theorem branchLoop_ok (E : Env) (index : Nat) : ∀ (bs : List Node) (i : Nat) (n : Node),
    i + bs.length ≤ 64 → branchLoop E index i bs n = .ok (climb E.sha256 (index / 2 ^ i) n bs)
  | [], _, _, _ => rfl
  | b :: bs, i, n, h => by
    rw [List.length_cons] at h
    rw [branchLoop, pow2_ok (by omega)]
    have hne : 2 ^ i ≠ 0 := Nat.pos_iff_ne_zero.1 (Nat.two_pow_pos i)
    simp only [Res.lift_ok, Res.ok_bind, usizeDiv, hne, if_false]
    rw [branchLoop_ok E index bs (i + 1) _ (by omega), climb, Nat.pow_succ, ← Nat.div_div_eq_div_mul]
    congr 2
    by_cases hp : index / 2 ^ i % 2 = 0
    · simp [hp]
    · simp [hp]

/-- The root only depends on as many low bits of the index as there are nodes in the branch. -/
theorem climb_mod {H : Bytes → Node} : ∀ (bs : List Node) (g : Nat) (n : Node),
    climb H (g % 2 ^ bs.length) n bs = climb H g n bs
  | [], _, _ => rfl
  | b :: bs, g, n => by
    have h1 : g % 2 ^ (b :: bs).length % 2 = g % 2 := by
      rw [List.length_cons, Nat.pow_succ]
      exact Nat.mod_mod_of_dvd g ⟨2 ^ bs.length, by rw [Nat.mul_comm]⟩
    have h2 : g % 2 ^ (b :: bs).length / 2 = g / 2 % 2 ^ bs.length := by
      rw [List.length_cons, Nat.pow_succ, Nat.mul_comm, Nat.mod_mul_right_div_self]
    rw [climb, climb, h1, h2, climb_mod bs]

theorem isValidMerkleBranch_eq (E : Env) (leaf : Node) (bs : List Node) (d i : Nat) (root : Node)
    (hd : d ≤ 64) : isValidMerkleBranch E leaf bs d i root =
      if bs.length = d ∧ climb E.sha256 i leaf bs = root then .ok () else .err .invalidProof := by
  rw [isValidMerkleBranch]
  by_cases h : bs.length = d
  · rw [if_neg (not_not.2 h), branchLoop_ok E i bs 0 leaf (by omega), Res.ok_bind, Nat.pow_zero,
      Nat.div_one]
    simp only [h, true_and]
  · rw [if_pos h, if_neg (fun hc => h hc.1)]

theorem log2_lt64 {g : Nat} (hg : g < 2 ^ 64) : Nat.log2 g < 64 := by
  by_cases h : g = 0
  · subst h; decide
  · exact (Nat.log2_lt h).2 hg

theorem verify_eq (E : Env) (p : Proof) (root : Node) (hg : p.index < 2 ^ 64) :
    p.verify E root =
      if p.index = 0 then .err .invalidGeneralizedIndex
      else if p.branch.length = Nat.log2 p.index ∧ climb E.sha256 p.index p.leaf p.branch = root
        then .ok () else .err .invalidProof := by
  rw [Proof.verify, isValidMerkleBranchForGeneralizedIndex, getSubtreeIndex, getDepth, log2]
  by_cases h0 : p.index = 0
  · simp [h0]
  · simp only [h0, if_false, Res.ok_bind, getIndex, pow2_ok (log2_lt64 hg), Res.lift_ok, usizeRem,
      Nat.pos_iff_ne_zero.1 (Nat.two_pow_pos _)]
    rw [isValidMerkleBranch_eq E _ _ _ _ _ (Nat.le_of_lt (log2_lt64 hg))]
    by_cases hl : p.branch.length = Nat.log2 p.index
    · rw [← hl, climb_mod]
    · rw [if_neg (fun hc => hl hc.1), if_neg (fun hc => hl hc.1)]

theorem getBit_ok {E : Env} {g i : Nat} (h : i < 64) :
    getBit E g i = .ok (decide (g / 2 ^ i % 2 = 1)) := by
  rw [getBit, if_pos h, Nat.one_shiftLeft, ← Nat.testBit_eq_decide_div_mod_eq]
  congr 1
  cases hb : Nat.testBit g i with
  | true =>
    have : (g &&& 2 ^ i).testBit i = true := by simp [hb]
    refine decide_eq_true (Nat.pos_of_ne_zero fun h0 => ?_)
    rw [h0] at this
    simp at this
  | false =>
    refine decide_eq_false fun h0 => ?_
    obtain ⟨j, hj⟩ := Nat.exists_testBit_of_ne_zero (Nat.pos_iff_ne_zero.1 h0)
    simp only [Nat.testBit_and, Nat.testBit_two_pow, Bool.and_eq_true, decide_eq_true_eq] at hj
    obtain ⟨h1, rfl⟩ := hj
    rw [hb] at h1
    cases h1

theorem merkleRootLoop_ok (E : Env) (index : Nat) : ∀ (bs : List Node) (i : Nat) (n : Node),
    i + bs.length ≤ 64 → merkleRootLoop E index i bs n = .ok (climb E.sha256 (index / 2 ^ i) n bs)
  | [], _, _, _ => rfl
  | b :: bs, i, n, h => by
    rw [List.length_cons] at h
    rw [merkleRootLoop, getBit_ok (by omega)]
    simp only [Res.lift_ok, Res.ok_bind]
    rw [merkleRootLoop_ok E index bs (i + 1) _ (by omega), climb, Nat.pow_succ,
      ← Nat.div_div_eq_div_mul]
    congr 2
    rcases Nat.mod_two_eq_zero_or_one (index / 2 ^ i) with hp | hp <;> simp [hp]

theorem verifyMerkleProof_eq (E : Env) (leaf : Node) (bs : List Node) (g : Nat) (root : Node)
    (hg : g < 2 ^ 64) : verifyMerkleProof E leaf bs g root =
      if g = 0 then .err .invalidGeneralizedIndex
      else if bs.length = Nat.log2 g ∧ climb E.sha256 g leaf bs = root
        then .ok () else .err .invalidProof := by
  rw [verifyMerkleProof, calculateMerkleRoot, getPathLength, getDepth, log2]
  have := log2_lt64 hg
  by_cases h0 : g = 0
  · simp [h0]
  · simp only [h0, if_false, Res.ok_bind]
    by_cases hl : bs.length = Nat.log2 g
    · rw [if_neg (not_not.2 hl.symm), merkleRootLoop_ok E g bs 0 leaf (by omega), Res.ok_bind,
        Nat.pow_zero, Nat.div_one]
      simp only [hl, true_and]
    · rw [if_pos (Ne.symm hl), if_neg (fun hc => hl hc.1)]
      rfl

end Ssz
