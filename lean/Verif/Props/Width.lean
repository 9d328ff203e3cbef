import Verif.Proofs.Width
import Verif.Props.GenIndex
import Verif.Props.Demo

/-!
# C83: targets with a smaller `usize`

The crate can be built where `usize` has 32 bits. `Verif.Model.Width` has the computation of generalized
indices and the verification of proofs for any number of bits.
-/

namespace Ssz

open Spec

/-- C83: with 64 bits these are the functions of the other theorems. -/
theorem C83_same (E : Env) :
    (∀ (t : Ty) (path : List PathElement),
      t.indexW ⟨64, E.debug⟩ 1 path = generalizedIndex (t.impl E) path) ∧
    (∀ (p : Proof) (root : Node), p.index < 2 ^ 64 →
      p.verifyW ⟨64, E.debug⟩ E.sha256 root = p.verify E root) ∧
    (∀ (leaf : Node) (branch : List Node) (g : Nat) (root : Node), g < 2 ^ 64 →
      verifyMerkleProofW ⟨64, E.debug⟩ E.sha256 leaf branch g root =
        verifyMerkleProof E leaf branch g root) :=
  ⟨fun t path => indexW_64 E t 1 path,
   fun p root h => verifyW_eq ⟨64, E.debug⟩ E (Nat.le_refl _) p root h,
   fun leaf bs g root h => verifyMerkleProofW_eq ⟨64, E.debug⟩ E (Nat.le_refl _) leaf bs g root h⟩

/-- C83: a single proof is accepted or rejected, by both verifiers, as on a 64-bit target. The index is
a `usize` value of the target. -/
theorem C83_verify (W : Target) (hW : W.bits ≤ 64) (E : Env) :
    (∀ (p : Proof) (root : Node), p.index < 2 ^ W.bits →
      p.verifyW W E.sha256 root = p.verify E root) ∧
    (∀ (leaf : Node) (branch : List Node) (g : Nat) (root : Node), g < 2 ^ W.bits →
      verifyMerkleProofW W E.sha256 leaf branch g root = verifyMerkleProof E leaf branch g root) :=
  ⟨fun p root h => verifyW_eq W E hW p root h,
   fun leaf bs g root h => verifyMerkleProofW_eq W E hW leaf bs g root h⟩

/-- C83, `is_valid_merkle_branch`: the same as on a 64-bit target for branches with at most as many
nodes as `usize` has bits. -/
theorem C83_branch_partial (W : Target) (hW : W.bits ≤ 64) (E : Env) (leaf : Node) (branch : List Node)
    (depth index : Nat) (root : Node) (hd : depth ≤ W.bits) :
    isValidMerkleBranchW W E.sha256 leaf branch depth index root =
      isValidMerkleBranch E leaf branch depth index root :=
  isValidMerkleBranchW_eq W E hW leaf branch depth index root hd

/-- C83, `is_valid_merkle_branch`, refuted for longer branches: always a panic, with overflow checks and
without. -/
theorem C83_branch_refuted (W : Target) (H : Bytes → Node) (leaf : Node) (branch : List Node)
    (index : Nat) (root : Node) (hb : W.bits < branch.length) :
    isValidMerkleBranchW W H leaf branch branch.length index root = .panic := by
  unfold isValidMerkleBranchW
  rw [if_neg (not_not.2 rfl), branchLoopW_panic W H index branch 0 leaf (Nat.zero_le _) (by omega)]
  rfl

/-- The branch of a deposit in Ethereum has 33 nodes (`DEPOSIT_CONTRACT_TREE_DEPTH + 1`). With 64 bits
it is accepted or rejected, with 32 bits there is a panic for each. -/
theorem C83_deposit_refuted (E : Env) (leaf : Node) (branch : List Node) (index : Nat) (root : Node)
    (hb : branch.length = 33) :
    isValidMerkleBranch E leaf branch 33 index root ≠ .panic ∧
    isValidMerkleBranchW ⟨32, E.debug⟩ E.sha256 leaf branch 33 index root = .panic := by
  refine ⟨?_, ?_⟩
  · rw [isValidMerkleBranch_eq E leaf branch 33 index root (by decide)]
    split <;> exact fun h => by cases h
  · have h := C83_branch_refuted ⟨32, E.debug⟩ E.sha256 leaf branch index root (by rw [hb]; exact (by decide : 32 < 33))
    rwa [hb] at h

/-- C83: the generalized index without overflow checks is that of the 64-bit target modulo `2^b`, and the
same paths are refused with the same errors. -/
theorem C83_release_partial (E : Env) (hE : E.debug = false) (b : Nat) (hb : b ≤ 64) (h1 : 1 ≤ b) (t : Ty)
    (ht : FitsWidth b t) (path : List PathElement) :
    t.indexW ⟨b, false⟩ 1 path = (generalizedIndex (t.impl E) path).map (· % 2 ^ b) := by
  have h := indexW_R hb t ht 1 path
  have h2 : 1 % 2 ^ b = 1 := Nat.mod_eq_of_lt (Nat.one_lt_two_pow (by omega))
  have h3 := indexW_64 E t 1 path
  rw [hE] at h3
  rw [h2] at h
  exact h.trans (congrArg _ h3)

/-- C83: with overflow checks the result is that of the 64-bit target, or a panic; not a panic if the
index fits. -/
theorem C83_debug_partial (E : Env) (hE : E.debug = true) (b : Nat) (hb : b ≤ 64) (t : Ty)
    (ht : FitsWidth b t) (path : List PathElement) :
    (t.indexW ⟨b, true⟩ 1 path = .panic ∨ t.indexW ⟨b, true⟩ 1 path = generalizedIndex (t.impl E) path) ∧
    ∀ g, generalizedIndex (t.impl E) path = .ok g → g < 2 ^ b → t.indexW ⟨b, true⟩ 1 path = .ok g := by
  have h := indexW_D hb t ht 1 path
  have h3 := indexW_64 E t 1 path
  rw [hE] at h3
  rw [h3] at h
  exact ⟨h.1, fun g hg => (h.2 g (Nat.le_refl 1) hg).2⟩

/-- C83: what happens for every valid path that does not take the length of a `Bitlist`, if the sizes of
collections fit in `b` bits and their elements are not `usize`. An index that fits is returned; one that
does not fit makes a build with overflow checks panic, and comes out modulo `2^b` otherwise. -/
theorem C83_outcome_partial (W : Target) (hb : W.bits ≤ 64) (h1 : 1 ≤ W.bits) (t : Ty)
    (ht : FitsWidth W.bits t) (path : List PathElement) (i : Nat) (w : Ty)
    (h : walkBy prims t path = some (i, w)) (hl : lengthOfBits t path = false) :
    t.indexW W 1 path =
      if i < 2 ^ W.bits then .ok i else if W.debug then .panic else .ok (i % 2 ^ W.bits) := by
  obtain ⟨b, d⟩ := W
  dsimp only at hb h1 ht ⊢
  have hle : 2 ^ b ≤ 2 ^ 64 := Nat.pow_le_pow_right (by decide) hb
  have h64 := C34_outcome_partial ⟨d, fun _ => zeroNode⟩ t path i w (countable_of_width hb ht) h hl
  dsimp only at h64
  cases d with
  | false =>
    have h2 := C83_release_partial ⟨false, fun _ => zeroNode⟩ rfl b hb h1 t ht path
    rw [h2, h64]
    by_cases h3 : i < 2 ^ b
    · rw [if_pos h3, if_pos (by omega), Res.map, Nat.mod_eq_of_lt h3]
    · rw [if_neg h3]
      split
      · rfl
      · simp only [Bool.false_eq_true, if_false, Res.map]
        rw [Nat.mod_mod_of_dvd _ (Nat.pow_dvd_pow 2 hb)]
  | true =>
    have h2 := C83_debug_partial ⟨true, fun _ => zeroNode⟩ rfl b hb t ht path
    by_cases h3 : i < 2 ^ b
    · rw [if_pos h3]
      rw [if_pos (by omega)] at h64
      exact h2.2 i h64 h3
    · rw [if_neg h3, if_pos rfl]
      rcases h2.1 with h4 | h4
      · exact h4
      · rw [h64] at h4
        split at h4
        · exact absurd (indexW_lt ⟨b, true⟩ t 1 (Nat.one_lt_two_pow (show b ≠ 0 by omega)) path i h4) h3
        · exact h4.trans (if_pos rfl)

/-- `List<List<u8, 2^30>, 2^20>`, the transactions of a block in Ethereum. -/
def transactions : Ty := .list (.list (.uint .u8) (2 ^ 30)) (2 ^ 20)

theorem transactions_fit : FitsWidth 32 transactions := by
  refine ⟨⟨?_, by decide +kernel⟩, ⟨?_, by decide +kernel⟩, trivial⟩
  · intro h; cases h
  · intro h; cases h

/-- C83, that indices are the same on all targets, refuted. Byte 32 of the first transaction has the
index `2^47 + 1`, and this is what a 64-bit target computes. With 32 bits and without overflow checks it
is 1, the index of the whole list; with overflow checks there is a panic. -/
theorem C83_index_refuted : FitsWidth 32 transactions ∧
    (∀ E : Env, generalizedIndex (transactions.impl E) [.index 0, .index 32] = .ok (2 ^ 47 + 1)) ∧
    transactions.indexW ⟨32, false⟩ 1 [.index 0, .index 32] = .ok 1 ∧
    transactions.indexW ⟨32, true⟩ 1 [.index 0, .index 32] = .panic := by
  refine ⟨transactions_fit, fun E => ?_, by decide +kernel, by decide +kernel⟩
  rw [← (C83_same E).1]
  generalize E.debug = d
  cases d <;> decide +kernel

/-- C83, for collections of `usize`, refuted: a `usize` has 4 bytes on a 32-bit target, so eight of them
fill one chunk and not two. -/
theorem C83_usize_refuted :
    (∀ E : Env, generalizedIndex ((Ty.vector (.uint .usize) 8).impl E) [.index 7] = .ok 3) ∧
    ∀ d, (Ty.vector (.uint .usize) 8).indexW ⟨32, d⟩ 1 [.index 7] = .ok 1 := by
  refine ⟨fun E => ?_, fun d => by cases d <;> decide +kernel⟩
  rw [← (C83_same E).1]
  generalize E.debug = d
  cases d <;> decide +kernel

/-- The theorems apply to the type of `Verif.Props.Demo` on 32-bit targets. -/
example : FitsWidth 32 Demo.ty ∧ ∀ d, Demo.ty.indexW ⟨32, d⟩ 1 [.field "b", .index 1] =
    Demo.ty.indexW ⟨64, d⟩ 1 [.field "b", .index 1] := by
  refine ⟨by simp [Demo.ty, Demo.unionTy, UintTy.bits, FitsWidth, FitsWidthF, FitsWidthV, widthItems, itemLen, prims, fixedLen], ?_⟩
  intro d
  cases d <;> decide +kernel

/-- The transactions meet the conditions of `C83_outcome_partial`. -/
example : transactions.indexW ⟨32, false⟩ 1 [.index 5] = .ok (2 ^ 21 + 5) := by decide +kernel

end Ssz
