import Verif.Proofs.Builds
import Verif.Props.Encoding
import Verif.Props.Types
import Verif.Props.Prove

/-!
# Property C50: debug and release builds agree

Whenever the build with overflow checks and debug assertions returns (does not panic), the build
without them returns the same.
-/

namespace Ssz

open Spec

variable (H : Bytes → Node)

/-- Serialization: the result, and everything written to the buffer. -/
theorem C50_serialize (t : Ty) (v : t.Val) (buf : Bytes)
    (h : ((t.impl ⟨true, H⟩).serialize v buf).2 ≠ .panic) :
    (t.impl ⟨false, H⟩).serialize v buf = (t.impl ⟨true, H⟩).serialize v buf :=
  (((refines H t).serialize v buf).resolve_left h).symm

/-- Decoding. -/
theorem C50_deserialize (t : Ty) (b : Bytes)
    (h : deserialize (t.impl ⟨true, H⟩).toSerializable b ≠ .panic) :
    deserialize (t.impl ⟨false, H⟩).toSerializable b = deserialize (t.impl ⟨true, H⟩).toSerializable b :=
  ((refines H t).deserialize b).eq h

/-- Roots. -/
theorem C50_root (t : Ty) (v : t.Val) (h : (t.impl ⟨true, H⟩).hashTreeRoot v ≠ .panic) :
    (t.impl ⟨false, H⟩).hashTreeRoot v = (t.impl ⟨true, H⟩).hashTreeRoot v :=
  ((refines H t).hashTreeRoot v).eq h

/-- Generalized indices. -/
theorem C50_index (t : Ty) (path : List PathElement)
    (h : generalizedIndex (t.impl ⟨true, H⟩) path ≠ .panic) :
    generalizedIndex (t.impl ⟨false, H⟩) path = generalizedIndex (t.impl ⟨true, H⟩) path :=
  ((refines H t).index 1 path).eq h

/-- Proofs. -/
theorem C50_prove (t : Ty) (v : t.Val) (path : List PathElement)
    (h : prove ⟨true, H⟩ (t.impl ⟨true, H⟩) v path ≠ .panic) :
    prove ⟨false, H⟩ (t.impl ⟨false, H⟩) v path = prove ⟨true, H⟩ (t.impl ⟨true, H⟩) v path :=
  (below_prove (refines H t) v path).eq h

/-- Verification of proofs, by generalized index. -/
theorem C50_verify (p : Proof) (root : Node) (h : p.verify ⟨true, H⟩ root ≠ .panic) :
    p.verify ⟨false, H⟩ root = p.verify ⟨true, H⟩ root :=
  (below_branchIndex H p.leaf p.branch p.index root).eq h

/-- Verification of proofs, by depth and index. -/
theorem C50_branch (leaf : Node) (branch : List Node) (depth i : Nat) (root : Node)
    (h : isValidMerkleBranch ⟨true, H⟩ leaf branch depth i root ≠ .panic) :
    isValidMerkleBranch ⟨false, H⟩ leaf branch depth i root =
      isValidMerkleBranch ⟨true, H⟩ leaf branch depth i root :=
  (below_branch H leaf branch depth i root).eq h

/-- Verification of proofs, by the functions next to multiproofs. -/
theorem C50_merkleProof (leaf : Node) (proof : List Node) (i : Nat) (root : Node)
    (h : verifyMerkleProof ⟨true, H⟩ leaf proof i root ≠ .panic) :
    verifyMerkleProof ⟨false, H⟩ leaf proof i root = verifyMerkleProof ⟨true, H⟩ leaf proof i root :=
  Below.eq (Below.seq (below_calculateRoot H leaf proof i) fun _ => Below.rfl') h

/-- Multiproofs do not depend on the build at all. -/
theorem C50_multiproof (leaves proof : List Node) (indices : List Nat) (root : Node) :
    verifyMerkleMultiproof ⟨false, H⟩ leaves proof indices root =
      verifyMerkleMultiproof ⟨true, H⟩ leaves proof indices root := by
  unfold verifyMerkleMultiproof
  rw [show calculateMultiMerkleRoot ⟨true, H⟩ leaves proof indices =
    calculateMultiMerkleRoot ⟨false, H⟩ leaves proof indices from multiRoot_same H leaves proof indices]

theorem below_transparentSerialize : ∀ (ts : List Ty) (v : TVal ts),
    BelowB ((transparentImpls ⟨true, H⟩ ts).serialize v) ((transparentImpls ⟨false, H⟩ ts).serialize v)
  | [], v => v.elim
  | t :: _, .inl v => (refines H t).serialize v
  | _ :: ts, .inr v => below_transparentSerialize ts v

theorem below_transparentBody (b : Bytes) : ∀ ts : List Ty,
    Below ((transparentImpls ⟨true, H⟩ ts).deserializeBody b)
      ((transparentImpls ⟨false, H⟩ ts).deserializeBody b)
  | [] => Below.rfl'
  | t :: ts => by
    simp only [transparentImpls, TransparentImpls.deserializeBody]
    rcases below_transparentBody b ts with h | h <;> rw [h]
    · exact Below.panic
    · cases (transparentImpls ⟨false, H⟩ ts).deserializeBody b with
      | ok v => exact Below.rfl'
      | panic => exact Below.rfl'
      | err e =>
        rcases (refines H t).deserialize b with h | h <;> rw [h]
        · exact Below.panic
        · exact Below.rfl'

theorem below_transparentRoot : ∀ (ts : List Ty) (v : TVal ts),
    Below ((transparentImpls ⟨true, H⟩ ts).hashTreeRoot v) ((transparentImpls ⟨false, H⟩ ts).hashTreeRoot v)
  | [], v => v.elim
  | t :: _, .inl v => (refines H t).hashTreeRoot v
  | _ :: ts, .inr v => below_transparentRoot ts v

/-- Transparent enums: serialization, decoding and roots. -/
theorem C50_transparent (ts : List Ty) (v : TVal ts) (b buf : Bytes) :
    (((transparentImpls ⟨true, H⟩ ts).serialize v buf).2 ≠ .panic →
      (transparentImpls ⟨false, H⟩ ts).serialize v buf =
        (transparentImpls ⟨true, H⟩ ts).serialize v buf) ∧
    ((transparentImpls ⟨true, H⟩ ts).deserialize b ≠ .panic →
      (transparentImpls ⟨false, H⟩ ts).deserialize b =
        (transparentImpls ⟨true, H⟩ ts).deserialize b) ∧
    ((transparentImpls ⟨true, H⟩ ts).hashTreeRoot v ≠ .panic →
      (transparentImpls ⟨false, H⟩ ts).hashTreeRoot v =
        (transparentImpls ⟨true, H⟩ ts).hashTreeRoot v) :=
  ⟨fun h => ((below_transparentSerialize H ts v buf).resolve_left h).symm,
    fun h => Below.eq (Below.ite' Below.rfl' (below_transparentBody H b ts)) h,
    fun h => (below_transparentRoot H ts v).eq h⟩

/-- The build with overflow checks does return results: the decoded value, the root and the
index of a path of the demonstration value. -/
example : deserialize (Demo.ty.impl ⟨true, H⟩).toSerializable (enc Demo.ty Demo.val) ≠ .panic ∧
    (Demo.ty.impl ⟨true, H⟩).hashTreeRoot Demo.val ≠ .panic ∧
    generalizedIndex (Demo.ty.impl ⟨true, H⟩) Demo.path ≠ .panic := by
  refine ⟨?_, ?_, ?_⟩
  · rw [C05_decode_conforms _ _ _ Demo.ty_legal Demo.ty_fits Demo.val_valid Demo.val_length]
    simp
  · rw [htr_ok _ _ _ Demo.ty_legal Demo.ty_bounded Demo.val_valid Demo.val_inMemory]
    simp
  · rw [Demo.gi_path]; simp

/-- The hypothesis is needed: the builds differ where the one with overflow checks panics. -/
example : generalizedIndex (nestedLists.impl ⟨true, H⟩) [.index 0, .index 0] = .panic ∧
    generalizedIndex (nestedLists.impl ⟨false, H⟩) [.index 0, .index 0] = .ok 0 :=
  ⟨(C34_overflow_refuted.2 _).2 rfl, (C34_overflow_refuted.2 _).1 rfl⟩

end Ssz
