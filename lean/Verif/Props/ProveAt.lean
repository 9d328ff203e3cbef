import Verif.Props.Prove

/-!
# Property C57: proving at any generalized index

`Prover::from(index)` and `Prover::compute_proof` are public: the index need not come from a path.
-/

namespace Ssz

open Spec

/-- C57 for types without collections of arrays of packed elements, where the tree has a node at the
index: the prover returns the node, its branch and the root. -/
theorem C57_node_partial (E : Env) (t : Ty) (v : t.Val) (g : Nat) (u : MTree) (hl : Legal t)
    (hb : Bounded t) (hs : Shallow t) (hf : Flat t) (hv : Valid t v) (hm : InMemory t v)
    (hu : (treeBy packs t v).sub g = some u) (hg : g < 2 ^ 64) :
    computeProof E (t.impl E) v (Prover.ofIndex g) =
      .ok { proof := { leaf := u.root E.sha256
                       branch := (treeBy packs t v).branchAt E.sha256 g
                       index := g }
            witness := (treeBy packs t v).root E.sha256 } := by
  rw [(has_parts E t v hl hb hs hf hv hm).proves (Prover.ofIndex g) u hu hg]
  simp [Prover.ofIndex]

/-- C57, what the prover does at any index, for every type and value: the answer of the layers of the
value. -/
theorem C57_exact_partial (E : Env) (t : Ty) (v : t.Val) (g : Nat) (hl : Legal t) (hb : Bounded t)
    (hs : Shallow t) (hv : Valid t v) (hm : InMemory t v) (hg : g < 2 ^ 64) :
    computeProof E (t.impl E) v (Prover.ofIndex g) =
      (answer E.sha256 t v g >>= fun a =>
        .ok { proof := { leaf := a.1, branch := a.2, index := g }
              witness := (layer t v).tree.root E.sha256 }) := by
  rw [computeProof_answer E t v hl hb hs hv hm (Prover.ofIndex g) hg]
  show outcome _ _ (answer E.sha256 t v g) = _
  cases answer E.sha256 t v g <;> rfl

/-- The specification of the answers agrees with the tree where it has a node. -/
theorem answer_node (H : Bytes → Node) (t : Ty) (v : t.Val) (g : Nat) (u : MTree) (hl : Legal t)
    (hb : Bounded t) (hs : Shallow t) (hf : Flat t) (hv : Valid t v) (hm : InMemory t v)
    (hu : (treeBy packs t v).sub g = some u) (hg : g < 2 ^ 64) :
    answer H t v g = .ok (u.root H, (treeBy packs t v).branchAt H g) := by
  have h1 := C57_node_partial ⟨false, H⟩ t v g u hl hb hs hf hv hm hu hg
  rw [C57_exact_partial ⟨false, H⟩ t v g hl hb hs hv hm hg] at h1
  obtain ⟨a, h2, h3⟩ := Res.bind_eq_ok.1 h1
  obtain ⟨x, y⟩ := a
  have h4 := (Res.ok.inj h3)
  simp only [Prover.mk.injEq, Proof.mk.injEq] at h4
  obtain ⟨⟨rfl, rfl, _⟩, _⟩ := h4
  exact h2

/-- C57 for index 0, of which there is no node: an error, for every type and value. -/
theorem C57_zero (E : Env) (t : Ty) (v : t.Val) (hl : Legal t) (hb : Bounded t)
    (hs : Shallow t) (hv : Valid t v) (hm : InMemory t v) :
    computeProof E (t.impl E) v (Prover.ofIndex 0) = .err .invalidGeneralizedIndex := by
  rw [C57_exact_partial E t v 0 hl hb hs hv hm (by decide), answer, Layer.answer, if_pos rfl]
  rfl

/-- The node of the field `b` of a `Demo` value: an inner node of the tree, to which no path leads. -/
example : (treeBy packs Demo.ty Demo.val).sub 2 ≠ none := by decide +kernel

/-- A list of one number, with room for eight. -/
def shortList : (Ty.list (.uint .u64) 8).Val := ([(5 : BitVec 64)] : List (BitVec 64))

theorem shortList_ok : Legal (.list (.uint .u64) 8) ∧ Bounded (.list (.uint .u64) 8) ∧
    Shallow (.list (.uint .u64) 8) ∧ Std (.list (.uint .u64) 8) ∧
    Valid (.list (.uint .u64) 8) shortList ∧ InMemory (.list (.uint .u64) 8) shortList :=
  ⟨trivial, ⟨trivial, fun _ => by decide, by decide⟩, ⟨by decide, trivial⟩, ⟨rfl, trivial⟩,
    ⟨by decide, fun _ _ => trivial⟩, ⟨⟨by decide, fun _ => by decide⟩, fun _ _ => trivial⟩⟩

/-- C57 is false: below the length of a list the tree has no nodes, but the prover returns a proof
there, and it does not verify. -/
theorem C57_below_length_refuted : ∃ (t : Ty) (v : t.Val) (g : Nat), Legal t ∧ Bounded t ∧ Shallow t ∧
    Std t ∧ Valid t v ∧ InMemory t v ∧ g < 2 ^ 64 ∧ (treeBy packs t v).sub g = none ∧
    ∀ E : Env, E.sha256 = Sha256.sha256 → ∃ p, computeProof E (t.impl E) v (Prover.ofIndex g) = .ok p ∧
      p.proof.verify E p.witness = .err .invalidProof := by
  obtain ⟨h1, h2, h3, h4, h5, h6⟩ := shortList_ok
  refine ⟨_, shortList, 6, h1, h2, h3, h4, h5, h6, by decide, by decide +kernel, fun E hE => ?_⟩
  have ha : ∃ a, answer Sha256.sha256 (.list (.uint .u64) 8) shortList 6 = .ok a ∧
      ¬ (a.2.length = 2 ∧ climb Sha256.sha256 6 a.1 a.2 =
        (layer (.list (.uint .u64) 8) shortList).tree.root Sha256.sha256) := by
    refine ⟨_, rfl, ?_⟩
    decide +kernel
  obtain ⟨a, ha, hc⟩ := ha
  rw [← hE] at ha hc
  refine ⟨_, by rw [C57_exact_partial E _ shortList 6 h1 h2 h3 h5 h6 (by decide), ha]; rfl, ?_⟩
  rw [verify_eq E _ _ (by show 6 < 2 ^ 64; decide), if_neg (by simp), if_neg]
  rw [show Nat.log2 6 = 2 by decide +kernel]
  exact hc

/-- C57 is also false because the prover panics below a missing element. -/
theorem C57_missing_refuted : ∃ (t : Ty) (v : t.Val) (g : Nat), Legal t ∧ Bounded t ∧ Shallow t ∧
    Std t ∧ Valid t v ∧ InMemory t v ∧ g < 2 ^ 64 ∧ (treeBy packs t v).sub g = none ∧
    ∀ E : Env, computeProof E (t.impl E) v (Prover.ofIndex g) = .panic := by
  refine ⟨.list (.list (.uint .u8) 4) 2, ([] : List (List (BitVec 8))), 8, trivial,
    ⟨⟨trivial, fun _ => by decide, by decide⟩, fun h => by simp [packs] at h,
      by decide⟩, ⟨by decide, by decide, trivial⟩, ⟨rfl, rfl, trivial⟩,
    ⟨by decide, fun x hx => absurd hx List.not_mem_nil⟩,
    ⟨⟨by decide, fun h => by simp [packs] at h⟩, fun x hx => absurd hx List.not_mem_nil⟩,
    by decide, by decide +kernel, fun E => ?_⟩
  obtain ⟨d, H⟩ := E
  cases d <;> with_unfolding_all rfl

end Ssz
