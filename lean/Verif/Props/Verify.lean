import Verif.Proofs.Verify
import Verif.Spec.Sha256

/-!
# Properties C40 to C44 and C54: verification of single Merkle proofs

Generalized indices are `usize` values, hence the hypotheses `< 2 ^ 64`.
-/

namespace Ssz

open Spec

/-! ## C40 -/

/-- C40: a proof that verifies against the root of a Merkle tree with a node at the index of the
proof carries that node, and the branch is the branch of that node in the tree; or two different
strings with the same hash are among those hashed in computing the root of the tree and in
verifying the proof. -/
theorem C40_sound (E : Env) (t s : MTree) (p : Proof) (hg : p.index < 2 ^ 64)
    (hs : t.sub p.index = some s) (hv : p.verify E (t.root E.sha256) = .ok ()) :
    (p.leaf = s.root E.sha256 ∧ p.branch = t.branchAt E.sha256 p.index) ∨
      CollideBranch E.sha256 t p.index p.leaf p.branch := by
  rw [verify_eq E p _ hg] at hv
  split at hv
  · cases hv
  · split at hv
    · rename_i h
      exact climb_sound hs h.1 h.2
    · cases hv

/-- The converse: the node of a tree at an index with its branch verifies against the root. -/
theorem C40_complete (E : Env) (t s : MTree) (g : Nat) (hg : g < 2 ^ 64) (hs : t.sub g = some s) :
    Proof.verify E { leaf := s.root E.sha256, branch := t.branchAt E.sha256 g, index := g }
      (t.root E.sha256) = .ok () := by
  rw [verify_eq E _ _ hg]
  obtain ⟨h1, h2⟩ := climb_complete (H := E.sha256) hs
  have h0 : g ≠ 0 := by
    rintro rfl
    rw [sub_zero] at hs
    cases hs
  rw [if_neg h0, if_pos ⟨h2, h1⟩]

/-- A tree with three leaves. -/
def tree3 : MTree := .node (.leaf zeroNode) (.node (numLeaf 1) (numLeaf 2))

example : tree3.sub 7 = some (numLeaf 2) := by
  simp [tree3, MTree.sub]

example (E : Env) : Proof.verify E
    { leaf := pad32 (leBytes 32 2), branch := [pad32 (leBytes 32 1), zeroNode], index := 7 }
    (tree3.root E.sha256) = .ok () := by
  have h := C40_complete E tree3 (numLeaf 2) 7 (by decide) (by simp [tree3, MTree.sub])
  simpa [tree3, MTree.branchAt, MTree.nodeAt, MTree.sub, other, MTree.root, numLeaf] using h

/-! ## C41 -/

/-- C41 for `verify` and `is_valid_merkle_branch_for_generalized_index`: no proof whatever makes
them panic, in any build. -/
theorem C41_no_panic_partial (E : Env) (p : Proof) (root : Node) (hg : p.index < 2 ^ 64) :
    p.verify E root ≠ .panic ∧ isValidMerkleBranchForGeneralizedIndex E p.leaf p.branch p.index root
      ≠ .panic := by
  have : p.verify E root ≠ .panic := by
    rw [verify_eq E p _ hg]
    split
    · simp
    · split <;> simp
  exact ⟨this, this⟩

/-- C41 for `verify_merkle_proof`. -/
theorem C41_no_panic_multi_partial (E : Env) (leaf : Node) (bs : List Node) (g : Nat) (root : Node)
    (hg : g < 2 ^ 64) : verifyMerkleProof E leaf bs g root ≠ .panic := by
  rw [verifyMerkleProof_eq E _ _ _ _ hg]
  split
  · simp
  · split <;> simp

/-- C41 for `is_valid_merkle_branch` up to depth 64. -/
theorem C41_no_panic_depth_partial (E : Env) (leaf : Node) (bs : List Node) (d i : Nat)
    (root : Node) (hd : d ≤ 64) : isValidMerkleBranch E leaf bs d i root ≠ .panic := by
  rw [isValidMerkleBranch_eq E _ _ _ _ _ hd]
  split <;> simp

example (E : Env) : isValidMerkleBranch E zeroNode [] 0 5 zeroNode = .ok () := by
  rw [isValidMerkleBranch_eq E _ _ _ _ _ (by decide), if_pos ⟨rfl, rfl⟩]

theorem branchLoop_panic (E : Env) (index : Nat) : ∀ (bs : List Node) (i : Nat) (n : Node),
    i ≤ 64 → 64 < i + bs.length → branchLoop E index i bs n = .panic
  | [], i, _, h, h' => by
    rw [List.length_nil] at h'
    omega
  | b :: bs, i, n, h, h' => by
    rw [List.length_cons] at h'
    rw [branchLoop]
    by_cases hi : i < 64
    · rw [pow2_ok hi]
      simp only [Res.lift_ok, Res.ok_bind, usizeDiv, Nat.pos_iff_ne_zero.1 (Nat.two_pow_pos i),
        if_false]
      exact branchLoop_panic E index bs (i + 1) _ (by omega) (by omega)
    · rw [Env.pow2, if_neg hi]
      cases E.debug <;> rfl

/-- C41 is false of `is_valid_merkle_branch`: with a branch as long as the given depth, every depth
beyond 64 panics (`2usize.pow(64)` overflows), in debug and in release builds. -/
theorem C41_branch_panics (E : Env) (leaf : Node) (bs : List Node) (i : Nat) (root : Node)
    (hd : 64 < bs.length) : isValidMerkleBranch E leaf bs bs.length i root = .panic := by
  rw [isValidMerkleBranch, if_neg (not_not.2 rfl), branchLoop_panic E i bs 0 leaf (by omega)
    (by omega)]
  rfl

example : 64 < (List.replicate 65 zeroNode).length := by
  rw [List.length_replicate]; decide

/-! ## C42 -/

/-- C42: if the index has depth `d` and the branch has another length, the proof is rejected. -/
theorem C42_length (E : Env) (p : Proof) (root : Node) (d : Nat) (hg : p.index < 2 ^ 64)
    (h1 : 2 ^ d ≤ p.index) (h2 : p.index < 2 ^ (d + 1)) (hb : p.branch.length ≠ d) :
    p.verify E root = .err .invalidProof := by
  have h0 : p.index ≠ 0 := by
    have := Nat.two_pow_pos d
    omega
  rw [verify_eq E p _ hg, if_neg h0, (log2_spec h0).2 ⟨h1, h2⟩, if_neg (fun h => hb h.1)]

/-- C42: every proof for index 0 is rejected. -/
theorem C42_zero (E : Env) (p : Proof) (root : Node) (h : p.index = 0) :
    p.verify E root = .err .invalidGeneralizedIndex := by
  rw [verify_eq E p _ (by rw [h]; decide), if_pos h]

/-- C42 for `is_valid_merkle_branch`, for all lengths and depths. -/
theorem C42_branch_length (E : Env) (leaf : Node) (bs : List Node) (d i : Nat) (root : Node)
    (h : bs.length ≠ d) : isValidMerkleBranch E leaf bs d i root = .err .invalidProof := by
  rw [isValidMerkleBranch, if_pos h]

example : 2 ^ 2 ≤ 7 ∧ 7 < 2 ^ (2 + 1) ∧ [zeroNode].length ≠ 2 := by decide

/-! ## C43 -/

/-- C43: `verify_merkle_proof` and `Proof::verify` return the same result, errors included. -/
theorem C43_verifiers_agree (E : Env) (leaf : Node) (branch : List Node) (g : Nat) (root : Node)
    (hg : g < 2 ^ 64) : verifyMerkleProof E leaf branch g root =
      Proof.verify E { leaf := leaf, branch := branch, index := g } root := by
  rw [verifyMerkleProof_eq E _ _ _ _ hg, verify_eq E _ _ hg]

/-- Both accept: the two leaves of a tree of depth 1. -/
example (E : Env) : verifyMerkleProof E zeroNode [zeroNode] 2 (E.sha256 (zeroNode.1 ++ zeroNode.1)) =
    .ok () := by
  rw [verifyMerkleProof_eq E _ _ _ _ (by decide)]
  simp [climb, Nat.log2_def]

/-! ## C44 -/

/-- C44: verification at depth `d` and index `i` is verification at generalized index `2^d + i`. -/
theorem C44_depth_index (E : Env) (leaf : Node) (branch : List Node) (d i : Nat) (root : Node)
    (hd : d < 64) (hi : i < 2 ^ d) :
    isValidMerkleBranch E leaf branch d i root =
      isValidMerkleBranchForGeneralizedIndex E leaf branch (2 ^ d + i) root := by
  have hlt : 2 ^ d + i < 2 ^ (d + 1) := by rw [Nat.pow_succ]; omega
  have h64 : 2 ^ d + i < 2 ^ 64 := Nat.lt_of_lt_of_le hlt (Nat.pow_le_pow_right (by decide) hd)
  have h0 : 2 ^ d + i ≠ 0 := by have := Nat.two_pow_pos d; omega
  have hv := verify_eq E { leaf := leaf, branch := branch, index := 2 ^ d + i } root h64
  rw [Proof.verify] at hv
  simp only at hv
  rw [hv, isValidMerkleBranch_eq E _ _ _ _ _ (Nat.le_of_lt hd), if_neg h0,
    (log2_spec h0).2 ⟨by omega, hlt⟩]
  by_cases hl : branch.length = d
  · have hm : climb E.sha256 (2 ^ d + i) leaf branch = climb E.sha256 i leaf branch := by
      rw [← climb_mod branch (2 ^ d + i), hl, Nat.add_mod_left, Nat.mod_eq_of_lt hi]
    rw [hm]
  · rw [if_neg (fun h => hl h.1), if_neg (fun h => hl h.1)]

example : (5 : Nat) < 64 ∧ 31 < 2 ^ 5 := by decide

/-! ## C54 -/

/-- C54 is false: a leaf is accepted at index two of a tree of depth one. -/
theorem C54_range_refuted : ∃ (leaf : Node) (branch : List Node) (d i : Nat), 2 ^ d ≤ i ∧
    ∀ E : Env, ∃ root, isValidMerkleBranch E leaf branch d i root = .ok () := by
  refine ⟨zeroNode, [zeroNode], 1, 2, by decide, fun E => ⟨E.sha256 (zeroNode.1 ++ zeroNode.1), ?_⟩⟩
  rw [isValidMerkleBranch_eq E _ _ _ _ _ (by decide), if_pos ⟨rfl, rfl⟩]

/-- C54, what happens instead: the high bits of the index are ignored, for every branch and every
depth on which the function does not panic. -/
theorem C54_low_bits_partial (E : Env) (leaf : Node) (branch : List Node) (d i : Nat) (root : Node)
    (hd : d ≤ 64) :
    isValidMerkleBranch E leaf branch d i root =
      isValidMerkleBranch E leaf branch d (i % 2 ^ d) root := by
  rw [isValidMerkleBranch_eq E _ _ _ _ _ hd, isValidMerkleBranch_eq E _ _ _ _ _ hd]
  by_cases hl : branch.length = d
  · rw [← climb_mod branch i, hl]
  · rw [if_neg (fun h => hl h.1), if_neg (fun h => hl h.1)]

/-- C54, soundness that follows: what is accepted for an index is the leaf at the remainder of the
index, or there is a collision. -/
theorem C54_sound_partial (E : Env) (t : MTree) (leaf : Node) (branch : List Node) (d i : Nat)
    (hd : d < 64) (s : MTree) (hs : t.sub (2 ^ d + i % 2 ^ d) = some s)
    (h : isValidMerkleBranch E leaf branch d i (t.root E.sha256) = .ok ()) :
    leaf = s.root E.sha256 ∨ CollideBranch E.sha256 t (2 ^ d + i % 2 ^ d) leaf branch := by
  have hi := Nat.mod_lt i (Nat.two_pow_pos d)
  rw [C54_low_bits_partial E _ _ _ _ _ (Nat.le_of_lt hd), C44_depth_index E _ _ _ _ _ hd hi] at h
  have hlt : 2 ^ d + i % 2 ^ d < 2 ^ (d + 1) := by rw [Nat.pow_succ]; omega
  have h64 := Nat.lt_of_lt_of_le hlt (Nat.pow_le_pow_right (by decide : 0 < 2) hd)
  exact (C40_sound E t s { leaf := leaf, branch := branch, index := 2 ^ d + i % 2 ^ d } h64 hs h).imp
    And.left id

example : 2 ^ 3 ≤ 13 ∧ 13 % 2 ^ 3 = 5 ∧ 3 ≤ 64 := by decide

end Ssz
