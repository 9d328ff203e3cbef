import Verif.Proofs.VerifyCost
import Verif.Props.Multi

/-!
# C78: verification of a proof takes as many hash calls as the tree is deep

`Verif.Model.VerifyCost` has the functions that verify proofs with two counters: calls of the hash
function and loop iterations.
-/

namespace Ssz

open Spec Counted

/-- C78: the functions with counters return what those without return, for every input. -/
theorem C78_same (E : Env) (root : Node) :
    (∀ p : Proof, (p.verifyC E root).2 = p.verify E root) ∧
    (∀ leaf branch depth index, (isValidMerkleBranchC E leaf branch depth index root).2 =
      isValidMerkleBranch E leaf branch depth index root) ∧
    (∀ leaf proof index, (verifyMerkleProofC E leaf proof index root).2 =
      verifyMerkleProof E leaf proof index root) ∧
    (∀ leaves proof is, (verifyMerkleMultiproofC E leaves proof is root).2 =
      verifyMerkleMultiproof E leaves proof is root) :=
  ⟨fun p => verifyC_res E p root, fun _ _ _ _ => isValidC_res E _ _ _ _ _,
    fun _ _ _ => verifyMerkleProofC_res E _ _ _ _, fun _ _ _ => verifyMultiC_res E _ _ _ _⟩

/-- C78: `Proof::verify` calls the hash function once for each level above the node, and never if the
branch has another length: a long branch is rejected before it is read. -/
theorem C78_verify (E : Env) (p : Proof) (root : Node) (hg : p.index < 2 ^ 64) :
    (p.verifyC E root).1.hashes =
      if p.index ≠ 0 ∧ p.branch.length = Nat.log2 p.index then Nat.log2 p.index else 0 :=
  verifyC_hashes E p root hg

/-- C78: so at most 63 calls, whatever the proof. -/
theorem C78_verify_63 (E : Env) (p : Proof) (root : Node) (hg : p.index < 2 ^ 64) :
    (p.verifyC E root).1.hashes ≤ 63 := by
  rw [C78_verify E p root hg]
  have := log2_lt64 hg
  split <;> omega

/-- C78: `is_valid_merkle_branch` and `verify_merkle_proof`, also where they panic: calls and iterations
at most the length of the branch, and at most the depth. -/
theorem C78_branch (E : Env) (root : Node) :
    (∀ leaf branch depth index,
      (isValidMerkleBranchC E leaf branch depth index root).1.hashes ≤ min branch.length depth ∧
      (isValidMerkleBranchC E leaf branch depth index root).1.steps ≤ min branch.length depth) ∧
    (∀ leaf proof index,
      (verifyMerkleProofC E leaf proof index root).1.hashes ≤ min proof.length (Nat.log2 index) ∧
      (verifyMerkleProofC E leaf proof index root).1.steps ≤ min proof.length (Nat.log2 index)) :=
  ⟨fun _ _ _ _ => isValidC_within E _ _ _ _ _, fun _ _ _ => verifyMerkleProofC_within E _ _ _ _⟩

/-- C78: where the numbers of leaves and of proof nodes are right, `verify_merkle_multiproof` calls the
hash function exactly once for each node that is above one of the indices and is not an index itself:
where paths meet, their common part is hashed once. -/
theorem C78_multi (E : Env) (leaves proof : List Node) (is : List Nat) (root : Node)
    (hl : leaves.length = is.length) (hp : proof.length = (getHelperIndices is).length) :
    ∃ xs : List Nat, xs.Nodup ∧
      (∀ g, g ∈ xs ↔ 1 ≤ g ∧ g ∉ is ∧ ∃ i ∈ is, ∃ k, i / 2 ^ (k + 1) = g) ∧
      (verifyMerkleMultiproofC E leaves proof is root).1.hashes = xs.length := by
  obtain ⟨xs, h1, h2, h3, -⟩ := calcC_spec E hl hp
  refine ⟨xs, h1, h2, ?_⟩
  rw [← h3, verifyMerkleMultiproofC]
  show (Counted.bind _ _).1.hashes = _
  unfold Counted.bind
  split
  · dsimp only
    split <;> rfl
  · rfl
  · rfl

/-- C78: whatever the input, at most one call for each level above each index, so at most 63 for each
index, and at most 571 iterations. -/
theorem C78_multi_bound (E : Env) (leaves proof : List Node) (is : List Nat) (root : Node) :
    (verifyMerkleMultiproofC E leaves proof is root).1.hashes ≤ (is.map Nat.log2).sum ∧
    ((∀ i ∈ is, i < 2 ^ 64) →
      (verifyMerkleMultiproofC E leaves proof is root).1.hashes ≤ 63 * is.length ∧
      (verifyMerkleMultiproofC E leaves proof is root).1.steps ≤ 571 * is.length) := by
  obtain ⟨h1, h2⟩ := verifyMultiC_within E leaves proof is root
  refine ⟨h1, fun h => ?_⟩
  have h3 : depths is ≤ 63 * is.length := by
    unfold depths
    clear h1 h2
    induction is with
    | nil => exact Nat.le_refl _
    | cons i is ih =>
      have h4 := log2_lt64 (h i (by simp))
      have h5 := ih fun j hj => h j (by simp [hj])
      rw [List.map_cons, List.sum_cons, List.length_cons]
      omega
  omega

/-- Numbers: a branch of three nodes for a node at depth 3; a branch that is one short. -/
example (E : Env) (a b c d root : Node) :
    ((⟨a, [b, c, d], 13⟩ : Proof).verifyC E root).1.hashes = 3 ∧
    ((⟨a, [b, c], 13⟩ : Proof).verifyC E root).1.hashes = 0 := by
  constructor
  · rw [C78_verify E _ _ (by decide : 13 < 2 ^ 64)]
    exact (by decide +kernel : (if 13 ≠ 0 ∧ 3 = Nat.log2 13 then Nat.log2 13 else 0) = 3)
  · rw [C78_verify E _ _ (by decide : 13 < 2 ^ 64)]
    exact (by decide +kernel : (if 13 ≠ 0 ∧ 2 = Nat.log2 13 then Nat.log2 13 else 0) = 0)

/-- The indices 2 and 7, with the proof node 6: nodes 3 and 1 are computed. -/
example (E : Env) (a b c root : Node) :
    (verifyMerkleMultiproofC E [a, b] [c] [2, 7] root).1.hashes = 2 := by
  obtain ⟨xs, h1, h2, h3⟩ := C78_multi E [a, b] [c] [2, 7] root rfl (by rw [helpers_2_7]; rfl)
  rw [h3]
  have hsub : ∀ x, x ∈ xs ↔ x = 3 ∨ x = 1 := by
    intro x
    rw [h2]
    constructor
    · rintro ⟨h4, h5, i, hi, k, rfl⟩
      have : i = 2 ∨ i = 7 := by simpa using hi
      rcases this with rfl | rfl
      · match k with
        | 0 => exact .inr rfl
        | k + 1 =>
          rw [Nat.div_eq_of_lt (Nat.lt_of_lt_of_le (by decide : 2 < 2 ^ 2)
            (Nat.pow_le_pow_right (by decide) (by omega)))] at h4
          omega
      · match k with
        | 0 => exact .inl rfl
        | 1 => exact .inr rfl
        | k + 2 =>
          rw [Nat.div_eq_of_lt (Nat.lt_of_lt_of_le (by decide : 7 < 2 ^ 3)
            (Nat.pow_le_pow_right (by decide) (by omega)))] at h4
          omega
    · rintro (rfl | rfl)
      · exact ⟨by decide, by decide, 7, by decide, 0, by decide⟩
      · exact ⟨by decide, by decide, 7, by decide, 1, by decide⟩
  have hp : xs.Perm [3, 1] :=
    (List.perm_ext_iff_of_nodup h1 (by decide)).2 fun x => by rw [hsub]; simp
  exact hp.length_eq

end Ssz
