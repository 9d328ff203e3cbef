import Verif.Proofs.ProverState
import Verif.Props.Demo
import Verif.Spec.Sha256

/-!
# C81: using a prover more than once

`Prover` and `Prover::compute_proof` are public, and `compute_proof` takes `&mut self`.
`Verif.Model.ProverState` has the prover with what it leaves behind, also when it fails.
-/

namespace Ssz

/-- C81: apart from what it leaves behind when it fails, this is the prover of the other theorems. -/
theorem C81_same (E : Env) (t : Ty) (v : t.Val) (p : Prover) :
    (∀ q, computeProof E (t.impl E) v p = .ok q ↔ t.computeProofS E v p = (q, .ok ())) ∧
    (∀ e, computeProof E (t.impl E) v p = .err e ↔ (t.computeProofS E v p).2 = .err e) ∧
    (computeProof E (t.impl E) v p = .panic ↔ (t.computeProofS E v p).2 = .panic) := by
  rw [← tyComputeProofS_of]
  obtain ⟨q, r⟩ := t.computeProofS E v p
  cases r <;> simp [proverOf]

/-- C81: a proof with a prover that was used before has the outcome of one with a new prover for the
same index, but with its branch behind the branch that was there. -/
theorem C81_again_partial (E : Env) (t : Ty) (v : t.Val) (p : Prover) :
    computeProof E (t.impl E) v p = (computeProof E (t.impl E) v (Prover.ofIndex p.proof.index)).map
      fun q => { q with proof := { q.proof with branch := p.proof.branch ++ q.proof.branch } } :=
  tyComputeProof_again E t v p

/-- C81: a prover that succeeds has its index as before, and the branch is longer by the depth of the
index. -/
theorem C81_success (E : Env) (t : Ty) (v : t.Val) (p q : Prover) (hg : p.proof.index < 2 ^ 64)
    (h : computeProof E (t.impl E) v p = .ok q) : q.proof.index = p.proof.index ∧
      q.proof.branch.length = p.proof.branch.length + Nat.log2 p.proof.index := by
  have h1 := ((C81_same E t v p).1 q).1 h
  have h2 := (tyComputeProof_tracks E t v p hg).success (by rw [h1])
  rwa [h1] at h2

/-- C81, that a prover can be used for a second proof, refuted for all values: if there are nodes in
the branch of a prover, no proof that it makes verifies, against any root. -/
theorem C81_used_refuted (E : Env) (t : Ty) (v : t.Val) (p q : Prover) (hg : p.proof.index < 2 ^ 64)
    (hb : p.proof.branch ≠ []) (h : computeProof E (t.impl E) v p = .ok q) (root : Node) :
    q.proof.verify E root = .err .invalidProof := by
  obtain ⟨h1, h2⟩ := C81_success E t v p q hg h
  have h3 : 0 < p.proof.branch.length := List.length_pos_of_ne_nil hb
  have h0 : p.proof.index ≠ 0 := by
    intro h0
    rw [computeProof_unfold] at h
    obtain ⟨_, _, h⟩ := Res.bind_eq_ok.1 h
    obtain ⟨_, _, h⟩ := Res.bind_eq_ok.1 h
    obtain ⟨_, _, h⟩ := Res.bind_eq_ok.1 h
    obtain ⟨c, hc, h⟩ := Res.bind_eq_ok.1 h
    have := local_spec hc
    omega
  rw [verify_eq E _ _ (by rw [h1]; exact hg), h1, if_neg h0, if_neg]
  rintro ⟨h4, _⟩
  omega

/-- C81, the same proof twice with one prover: it succeeds the second time, with every node of the
branch twice, and does not verify, except for the root. -/
theorem C81_twice_refuted (E : Env) (t : Ty) (v : t.Val) (g : Nat) (q : Prover) (hg : g < 2 ^ 64)
    (h : computeProof E (t.impl E) v (Prover.ofIndex g) = .ok q) :
    computeProof E (t.impl E) v q =
      .ok { q with proof := { q.proof with branch := q.proof.branch ++ q.proof.branch } } ∧
    (g ≠ 1 → ∀ root, ({ q.proof with branch := q.proof.branch ++ q.proof.branch } : Proof).verify E root =
      .err .invalidProof) := by
  have h1 := C81_success E t v _ q hg h
  have h2 : computeProof E (t.impl E) v q =
      .ok { q with proof := { q.proof with branch := q.proof.branch ++ q.proof.branch } } := by
    rw [C81_again_partial, h1.1]
    exact congrArg _ h
  refine ⟨h2, fun h3 root => C81_used_refuted E t v q _ (by rw [h1.1]; exact hg) ?_ h2 root⟩
  intro hb
  have h4 : Nat.log2 g = 0 := by
    have := h1.2
    rw [hb] at this
    exact (Nat.zero_add _).symm.trans this.symm
  have h0 : g ≠ 0 := by
    intro h0
    rw [computeProof_unfold] at h
    obtain ⟨_, _, h⟩ := Res.bind_eq_ok.1 h
    obtain ⟨_, _, h⟩ := Res.bind_eq_ok.1 h
    obtain ⟨_, _, h⟩ := Res.bind_eq_ok.1 h
    obtain ⟨c, hc, h⟩ := Res.bind_eq_ok.1 h
    have := local_spec hc
    have : c.2.2 ≤ g := this.2.1
    omega
  have := (log2_spec h0).1 h4
  omega

/-- C81, what is left behind when a proof fails (or succeeds): the branch was only extended, and the
index is what it was or that of the same node in the tree of a part, the last `k` of its bits. -/
theorem C81_left_partial (E : Env) (t : Ty) (v : t.Val) (p : Prover) (hg : p.proof.index < 2 ^ 64) :
    p.proof.branch <+: (t.computeProofS E v p).1.proof.branch ∧
    ((t.computeProofS E v p).1.proof.index = p.proof.index ∨ ∃ k < Nat.log2 p.proof.index,
      (t.computeProofS E v p).1.proof.index = 2 ^ k + p.proof.index % 2 ^ k) :=
  have h := tyComputeProof_tracks E t v p hg
  ⟨h.branch, h.index⟩

/-- Two numbers in a struct. -/
def twoNumbers : Ty := .container (.cons "a" (.uint .u64) (.cons "b" (.uint .u64) .nil))

def twoNumbersVal : twoNumbers.Val := ((7 : BitVec 64), (8 : BitVec 64), ())

/-- C81, that a failure leaves the prover as it was, refuted. The index 4 would be inside the first
number: an error. Then the prover has the index 2, and asked again it makes a proof, which verifies, for
this index. -/
theorem C81_left_refuted (E : Env) (hE : E.sha256 = Sha256.sha256) : ∃ p q : Prover,
    twoNumbers.computeProofS E twoNumbersVal (Prover.ofIndex 4) = (p, .err .noInnerElement) ∧
    p.proof.index = 2 ∧ twoNumbers.computeProofS E twoNumbersVal p = (q, .ok ()) ∧
    q.proof.index = 2 ∧ q.proof.verify E q.witness = .ok () := by
  obtain ⟨d, H⟩ := E
  have hE : H = Sha256.sha256 := hE
  subst hE
  refine ⟨Prover.ofIndex 2,
    (twoNumbers.computeProofS ⟨d, Sha256.sha256⟩ twoNumbersVal (Prover.ofIndex 2)).1, ?_⟩
  cases d <;> decide +kernel

/-- Is there a proof with this prover, does it have a branch of this length, and does it verify? -/
def provesWith (E : Env) (p : Prover) (n : Nat) : Option (Prover × Bool) :=
  match computeProof E (Demo.ty.impl E) Demo.val p with
  | .ok q => if q.proof.branch.length = n then some (q, q.proof.verify E q.witness = .ok ()) else none
  | _ => none

/-- The theorems apply to the value of `Verif.Props.Demo` and the index of the numbers in its list: a
proof with five nodes that verifies, and again with the same prover one with ten that does not. -/
example : (provesWith (releaseBuild Sha256.sha256) (Prover.ofIndex 34) 5).map (·.2) = some true ∧
    ((provesWith (releaseBuild Sha256.sha256) (Prover.ofIndex 34) 5).bind fun q =>
      (provesWith (releaseBuild Sha256.sha256) q.1 10).map (·.2)) = some false := by decide +kernel

/-- A proof that fails inside a part, in the field `b`: the index left behind is one in the list. -/
example : ((Demo.ty.computeProofS (releaseBuild Sha256.sha256) Demo.val (Prover.ofIndex 69)).1.proof.index,
    (Demo.ty.computeProofS (releaseBuild Sha256.sha256) Demo.val (Prover.ofIndex 69)).2) =
    (3, .err .noInnerElement) := by decide +kernel

end Ssz
