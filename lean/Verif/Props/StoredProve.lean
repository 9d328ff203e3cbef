import Verif.Props.Stored
import Verif.Props.PartTrees
import Verif.Proofs.StoredTrees

/-!
# C36 to C38 for values whose `Bitlist`s have any unused bits

The prover reads the storage of a `Bitlist` as `hash_tree_root` does, so that the proofs for a value
with stale bits fit its root. These theorems say so for values of every type.
-/

namespace Ssz

open Spec

/-- C67, the values of the types of the crate whose `Bitlist`s have any unused bits: they hash and
prove by the same tree. -/
theorem C67_stored (E : Env) (t : Ty) (v : t.Val) (hl : Legal t) (hb : Bounded t) (hs : Shallow t)
    (hf : Flat t) (hv : Proper t v) (hm : InMemory t v) : TreeOf E (t.impl E) v (rawTree t v) :=
  ⟨raw_htr E t v hl hb hv hm, (raw_has_parts E t v hl hb hs hf hv hm).proves⟩

/-- C36 for values with any unused bits: the witness is the root that `hash_tree_root` computes. -/
theorem C36_stored_partial (E : Env) (t : Ty) (v : t.Val) (path : List PathElement) (p : Proof)
    (w : Node) (hl : Legal t) (hb : Bounded t) (hs : Shallow t) (hf : Flat t) (hv : Proper t v)
    (hm : InMemory t v) (h : prove E (t.impl E) v path = .ok (p, w)) :
    (t.impl E).hashTreeRoot v = .ok w := by
  obtain ⟨g, pr, _, h2, rfl, rfl⟩ := prove_eq_ok.1 h
  rw [raw_htr E t v hl hb hv hm, (raw_has_parts E t v hl hb hs hf hv hm).witness h2]

/-- C37 for values with any unused bits, wherever the tree has a node at the index of the proof: the
proof verifies against the root. -/
theorem C37_stored_partial (E : Env) (t : Ty) (v : t.Val) (path : List PathElement) (p : Proof)
    (w : Node) (hl : Legal t) (hb : Bounded t) (hs : Shallow t) (hf : Flat t) (hv : Proper t v)
    (hm : InMemory t v) (h : prove E (t.impl E) v path = .ok (p, w))
    (hn : (rawTree t v).sub p.index ≠ none) : p.verify E w = .ok () := by
  obtain ⟨g, pr, h1, h2, rfl, rfl⟩ := prove_eq_ok.1 h
  have hP := raw_has_parts E t v hl hb hs hf hv hm
  have hi : pr.proof.index = g := by
    obtain ⟨_, _, _, hP, _⟩ := hP
    exact computeProof_index hP h2
  rw [hi] at hn
  obtain ⟨u, hu⟩ := Option.ne_none_iff_exists'.1 hn
  have hlt := gi_lt E (show 1 < 2 ^ 64 by decide) h1
  have h3 := hP.proves (Prover.ofIndex g) u hu hlt
  rw [h2, Res.ok.injEq] at h3
  rw [h3, verify_eq E _ _ hlt]
  obtain ⟨h4, h5⟩ := climb_complete (H := E.sha256) hu
  exact (if_neg (by have := sub_pos hu; simp only [Prover.ofIndex]; omega)).trans
    (if_pos ⟨h5, h4⟩)

/-- C38 for values with any unused bits: for a path to an existing part (other than the length of a
`Bitlist`, see C33) whose index fits in 64 bits, the prover returns the node at the index of the path,
that node is the part or the chunk containing it, and the proof verifies against the root. -/
theorem C38_stored_partial (E : Env) (t : Ty) (v : t.Val) (path : List PathElement) (f : Found)
    (i : Nat) (w : Ty) (hl : Legal t) (hb : Bounded t) (hs : Shallow t) (hf : Flat t)
    (hv : Proper t v) (hm : InMemory t v) (hi : walkBy prims t path = some (i, w)) (hfit : i < 2 ^ 64)
    (hbits : lengthOfBits t path = false) (hp : rawPart t v path = some f) :
    ∃ u p r, prove E (t.impl E) v path = .ok (p, r) ∧ p.index = i ∧ (rawTree t v).sub i = some u ∧
      f.In u ∧ p.leaf = u.root E.sha256 ∧ p.branch = (rawTree t v).branchAt E.sha256 i ∧
      (t.impl E).hashTreeRoot v = .ok r ∧ p.verify E r = .ok () := by
  obtain ⟨u, h1, h2⟩ := raw_points t v hf hv path i w f hi hp
  obtain ⟨p, r, h3, h4, h5, h6, h7, h8⟩ := C67_prove E (t.impl E) v (crateWalk t) (rawTree t v) u path i
    (C66_crate E t hs) (C67_stored E t v hl hb hs hf hv hm) (by rw [crateWalk, hbits, hi]; rfl) hfit h1
  exact ⟨u, p, r, h3, h6, h1, h2, h4, h5, h7, h8⟩

theorem stale_walk : ∃ w, walkBy prims stale [.field "b", .index 1, .index 8] = some (50, w) := by
  have h : (walkBy prims stale [.field "b", .index 1, .index 8]).map (·.1) = some 50 := by
    decide +kernel
  obtain ⟨⟨_, w⟩, h, rfl⟩ := Option.map_eq_some_iff.1 h
  exact ⟨w, h⟩

/-- The hypotheses of these theorems hold for the value of `stale` with set unused bits and the path
to the last bit of the second list, whose chunk has stale bits. -/
example : Shallow stale ∧ Flat stale ∧
    (∃ w, walkBy prims stale [.field "b", .index 1, .index 8] = some (50, w)) ∧
    lengthOfBits stale [.field "b", .index 1, .index 8] = false ∧
    rawPart stale staleVal [.field "b", .index 1, .index 8] = some (.bit 8 true) ∧
    (rawTree stale staleVal).sub 50 = some (.leaf (pad32 [0xff, 7])) ∧
    (treeBy packs stale staleVal).sub 50 = some (.leaf (pad32 [0xff, 1])) := by
  have h2 : Nat.clog 2 2 = 1 := by decide +kernel
  have h4 : Nat.clog 2 4 = 2 := by decide +kernel
  refine ⟨?_, ?_, stale_walk, by decide +kernel, rfl, ?_, ?_⟩
  · simp [stale, Shallow, ShallowF, countF, itemCount, itemLen, prims]
  · simp [stale, Flat, FlatF, flatElem]
  · simp [MTree.sub, rawTree, stale, staleVal, rawTreesF, countF, depthFor, full, packs,
      chunkCountBy, h2, h4]
    rfl
  · simp [MTree.sub, treeBy, stale, staleVal, treesByF, countF, depthFor, full, packs,
      chunkCountBy, h2, h4]
    rfl

end Ssz
