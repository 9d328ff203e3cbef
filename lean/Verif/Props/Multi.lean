import Verif.Proofs.MultiExact
import Verif.Props.Verify

/-!
# Properties C45 to C49: multiproofs
-/

namespace Ssz

open Spec

/-! ## C45 -/

/-- C45: the nodes of a tree at any positions, with the nodes at the helper indices (which all
exist), verify against the root. -/
theorem C45_complete (E : Env) (t : MTree) (is : List Nat) (hne : is ≠ [])
    (hs : ∀ i ∈ is, ∃ s, t.sub i = some s) :
    ∃ leaves proof : List Node,
      leaves.map some = is.map (t.nodeAt E.sha256) ∧
      proof.map some = (getHelperIndices is).map (t.nodeAt E.sha256) ∧
      verifyMerkleMultiproof E leaves proof is (t.root E.sha256) = .ok () := by
  have hex : ∀ js : List Nat, (∀ i ∈ js, ∃ s, t.sub i = some s) →
      ∀ i ∈ js, ∃ n, t.nodeAt E.sha256 i = some n := fun js h i hi => by
    obtain ⟨s, hs⟩ := h i hi
    exact ⟨s.root E.sha256, by rw [MTree.nodeAt, hs]; rfl⟩
  obtain ⟨leaves, hl⟩ := map_some_exists (hex is hs)
  obtain ⟨proof, hp⟩ := map_some_exists (hex _ (helper_sub hs))
  exact ⟨leaves, proof, hl, hp, verify_multi_ok.2 (calc_complete E hne hs hl hp)⟩

theorem tree3_sub : tree3.sub 2 = some (.leaf zeroNode) ∧ tree3.sub 7 = some (numLeaf 2) := by
  constructor <;> simp [tree3, MTree.sub]

theorem helpers_2_7 : getHelperIndices [2, 7] = [6] := by
  have h : getBranchIndices 2 = [3] ∧ getBranchIndices 7 = [6, 2] := by
    constructor <;> simp [getBranchIndices_step, getBranchIndices_small, other]
  have h' : getPathIndices 2 = [2] ∧ getPathIndices 7 = [7, 3] := by
    constructor <;> simp [getPathIndices_step, getPathIndices_small]
  simp [getHelperIndices, h, h', sortDesc]

example : ([2, 7] : List Nat) ≠ [] ∧ ∀ i ∈ [2, 7], ∃ s, tree3.sub i = some s := by
  refine ⟨by simp, ?_⟩
  intro i hi
  simp only [List.mem_cons, List.not_mem_nil, or_false] at hi
  rcases hi with rfl | rfl
  · exact ⟨_, tree3_sub.1⟩
  · exact ⟨_, tree3_sub.2⟩

/-! ## C46 -/

/-- C46 is false when an index occurs twice: at the root index, any node passes next to the true
one. No hash is computed at all, so there is no collision to blame. -/
theorem C46_duplicate_refuted (E : Env) (t : MTree) (x : Node) :
    verifyMerkleMultiproof E [x, t.root E.sha256] [] [1, 1] (t.root E.sha256) = .ok () := by
  have hh : getHelperIndices [1, 1] = [] := by
    simp [getHelperIndices, getBranchIndices_small, sortDesc]
  obtain ⟨r, hr, hQ⟩ := calc_ok E (leaves := [x, t.root E.sha256]) (proof := []) (is := [1, 1]) rfl
    (by rw [hh]; rfl) ⟨1, by simp, by simp⟩ (fun g n => g = 1 → n = t.root E.sha256)
    (fun g n hg h1 => by
      rw [startMap_get, hh] at hg
      subst h1
      simpa using hg.symm)
    (fun p l r h1 hno _ _ hp => by
      subst hp
      rw [startMap_get, hh] at hno
      simp at hno)
  rw [verify_multi_ok, hr, hQ rfl]

theorem helpers_1_2 : getHelperIndices [1, 2] = [3] := by
  have h : getBranchIndices 1 = [] ∧ getBranchIndices 2 = [3] := by
    constructor <;> simp [getBranchIndices_step, getBranchIndices_small, other]
  have h' : getPathIndices 1 = [] ∧ getPathIndices 2 = [2] := by
    constructor <;> simp [getPathIndices_step, getPathIndices_small]
  simp [getHelperIndices, h, h', sortDesc]

/-- C46 is false when one index is an ancestor of another: next to the true node at the root,
anything passes as its child, without any hash being compared. -/
theorem C46_ancestor_refuted (E : Env) (t : MTree) (x y : Node) :
    verifyMerkleMultiproof E [t.root E.sha256, x] [y] [1, 2] (t.root E.sha256) = .ok () := by
  have hget : ∀ g, (startMap [t.root E.sha256, x] [y] [1, 2]).get g = if g = 1 then
      some (t.root E.sha256) else if g = 2 then some x else if g = 3 then some y else none := by
    intro g
    rw [startMap_get, helpers_1_2]
    simp only [List.zip_cons_cons, List.zip_nil_right, List.reverse_cons, List.reverse_nil,
      List.nil_append, List.cons_append, List.lookup_cons, List.lookup_nil]
    by_cases h3 : g = 3
    · subst h3; rfl
    · by_cases h2 : g = 2
      · subst h2; rfl
      · by_cases h1 : g = 1
        · subst h1; rfl
        · have b1 : (g == 1) = false := by simpa using h1
          have b2 : (g == 2) = false := by simpa using h2
          have b3 : (g == 3) = false := by simpa using h3
          simp [h1, h2, h3, b1, b2, b3]
  obtain ⟨r, hr, hQ⟩ := calc_ok E (leaves := [t.root E.sha256, x]) (proof := [y]) (is := [1, 2])
    rfl (by rw [helpers_1_2]; rfl) ⟨1, by simp, by simp⟩ (fun g n => g = 1 → n = t.root E.sha256)
    (fun g n hg h1 => by
      rw [hget, if_pos h1] at hg
      cases hg
      rfl)
    (fun p l r h1 hno _ _ hp => by
      rw [hget, if_pos hp] at hno
      cases hno)
  rw [verify_multi_ok, hr, hQ rfl]

/-- C46 for distinct positions none of which is an ancestor of another: all claimed leaves, and all
nodes of the proof, are nodes of the tree, or two different strings with the same hash are among
those hashed in computing the root of the tree and the root of the claimed tree (the one tree `s`
with the claimed leaves and proof nodes at their indices, see `claims_unique`). -/
theorem C46_sound_partial (E : Env) (t : MTree) (leaves proof : List Node) (is : List Nat)
    (ha : Antichain is) (hs : ∀ i ∈ is, ∃ s, t.sub i = some s)
    (hv : verifyMerkleMultiproof E leaves proof is (t.root E.sha256) = .ok ()) :
    (leaves.map some = is.map (t.nodeAt E.sha256) ∧
      proof.map some = (getHelperIndices is).map (t.nodeAt E.sha256)) ∨
    ∃ s, Claims (claimed (is ++ getHelperIndices is) (leaves ++ proof)) 1 s ∧
      Collide E.sha256 t s :=
  calc_sound E ha hs (verify_multi_ok.1 hv)

theorem antichain_2_7 : Antichain [2, 7] := by
  have h : ∀ a b : Nat, 1 ≤ a → ¬ a = b → ¬ a = b / 2 → ¬ a = b / 4 → b < 8 → ¬ AncestorEq a b := by
    rintro a b h0 h1 h2 h3 h4 ⟨k, rfl⟩
    have hk : k < 3 := by
      by_contra hk
      have : 2 ^ 3 ≤ 2 ^ k := Nat.pow_le_pow_right (by decide) (by omega)
      have : b / 2 ^ k = 0 := Nat.div_eq_of_lt (by omega)
      omega
    have : k = 0 ∨ k = 1 ∨ k = 2 := by omega
    rcases this with rfl | rfl | rfl
    · exact h1 (by simp)
    · exact h2 (by simp)
    · exact h3 (by simp)
  simp only [Antichain, List.pairwise_cons, List.mem_singleton, forall_eq, List.not_mem_nil,
    false_implies, implies_true, List.Pairwise.nil, and_true]
  exact ⟨h 2 7 (by decide) (by decide) (by decide) (by decide) (by decide),
    h 7 2 (by decide) (by decide) (by decide) (by decide) (by decide)⟩

/-- The hypotheses of `C46_sound_partial` are met by the nodes at 2 and 7 of a tree. -/
example (E : Env) : ∃ leaves proof, Antichain [2, 7] ∧ leaves.length = 2 ∧ proof.length = 1 ∧
    verifyMerkleMultiproof E leaves proof [2, 7] (tree3.root E.sha256) = .ok () := by
  obtain ⟨leaves, proof, h1, h2, h3⟩ := C45_complete E tree3 [2, 7] (by simp) (by
    intro i hi
    simp only [List.mem_cons, List.not_mem_nil, or_false] at hi
    rcases hi with rfl | rfl
    · exact ⟨_, tree3_sub.1⟩
    · exact ⟨_, tree3_sub.2⟩)
  refine ⟨leaves, proof, antichain_2_7, ?_, ?_, h3⟩
  · simpa using congrArg List.length h1
  · simpa [helpers_2_7] using congrArg List.length h2

/-- Exactly when a multiproof verifies, for every list of indices: the numbers of nodes are right
and the claimed tree has the given root. The claimed tree has a leaf at each index for which a node
is given and no node is given above it; the last node counts. -/
theorem C46_exact_partial (E : Env) (leaves proof : List Node) (is : List Nat) (root : Node) :
    verifyMerkleMultiproof E leaves proof is root = .ok () ↔
      leaves.length = is.length ∧ proof.length = (getHelperIndices is).length ∧
        ∃ s, Claims (lastClaimed (is ++ getHelperIndices is) (leaves ++ proof)) 1 s ∧
          s.root E.sha256 = root := by
  rw [verify_multi_ok, calc_exact]

/-- C46 for every list of positions, also with repetitions and positions below others: at every
index without another above it, the last claimed leaf, or the node of the proof, is the node of the
tree, or there is a collision as in `C46_sound_partial`. -/
theorem C46_topmost_partial (E : Env) (t : MTree) (leaves proof : List Node) (is : List Nat)
    (hs : ∀ i ∈ is, ∃ s, t.sub i = some s)
    (hv : verifyMerkleMultiproof E leaves proof is (t.root E.sha256) = .ok ()) :
    (∀ g ∈ is ++ getHelperIndices is, (∀ a ∈ is, AncestorEq a g → a = g) →
      lastClaimed (is ++ getHelperIndices is) (leaves ++ proof) g = t.nodeAt E.sha256 g) ∨
    ∃ s, Claims (lastClaimed (is ++ getHelperIndices is) (leaves ++ proof)) 1 s ∧
      Collide E.sha256 t s :=
  calc_sound_top E hs (verify_multi_ok.1 hv)

/-- C46 cannot be had for more leaves: one whose index recurs later, or lies below another index,
can be replaced by anything without changing the result of verification. -/
theorem C46_unchecked_refuted (E : Env) (leaves proof : List Node) (is : List Nat) (root x : Node)
    (p i : Nat) (hi : is[p]? = some i)
    (h : (∃ q, p < q ∧ is[q]? = some i) ∨ ∃ a ∈ is, 1 ≤ a ∧ AncestorEq a i ∧ a ≠ i) :
    verifyMerkleMultiproof E (leaves.set p x) proof is root =
      verifyMerkleMultiproof E leaves proof is root := by
  rw [verifyMerkleMultiproof, verifyMerkleMultiproof, calc_shadowed E x hi h]

/-- The hypotheses of `C46_topmost_partial` are met with a repeated index and one below another. -/
example (E : Env) : ∃ leaves proof, leaves.length = 4 ∧
    (∀ i ∈ [2, 7, 3, 2], ∃ s, tree3.sub i = some s) ∧
    verifyMerkleMultiproof E leaves proof [2, 7, 3, 2] (tree3.root E.sha256) = .ok () := by
  have hs : ∀ i ∈ [2, 7, 3, 2], ∃ s, tree3.sub i = some s := by
    intro i hi
    simp only [List.mem_cons, List.not_mem_nil, or_false] at hi
    obtain ⟨l, r, h, _⟩ := (sub_step (by decide)).1 tree3_sub.2
    rcases hi with rfl | rfl | rfl | rfl
    · exact ⟨_, tree3_sub.1⟩
    · exact ⟨_, tree3_sub.2⟩
    · exact ⟨_, h⟩
    · exact ⟨_, tree3_sub.1⟩
  obtain ⟨leaves, proof, h1, h2, h3⟩ := C45_complete E tree3 [2, 7, 3, 2] (by simp) hs
  exact ⟨leaves, proof, by simpa using congrArg List.length h1, hs, h3⟩

/-- The hypotheses of `C46_unchecked_refuted` are met by the leaf at 7, which lies below 3, and by
the first of the leaves at 2. -/
example : ([2, 7, 3, 2] : List Nat)[1]? = some 7 ∧
    (∃ a ∈ [2, 7, 3, 2], 1 ≤ a ∧ AncestorEq a 7 ∧ a ≠ 7) ∧
    ∃ q, 0 < q ∧ ([2, 7, 3, 2] : List Nat)[q]? = some 2 :=
  ⟨rfl, ⟨3, by simp, by decide, ⟨1, by decide⟩, by decide⟩, 3, by decide, rfl⟩

/-! ## C47 -/

/-- C47 is false: without any indices, leaves and proof nodes, verification panics. -/
theorem C47_panics (E : Env) (root : Node) : verifyMerkleMultiproof E [] [] [] root = .panic := by
  rw [verify_multi_panic]
  refine calc_zero E rfl ?_ (fun i hi => by cases hi)
  have : getHelperIndices [] = [] := by simp [getHelperIndices, sortDesc]
  rw [this]; rfl

/-- C47, exactly when verification panics: when the numbers of leaves and proof nodes are right and
there is no index but 0. -/
theorem C47_no_panic_partial (E : Env) (leaves proof : List Node) (is : List Nat) (root : Node) :
    verifyMerkleMultiproof E leaves proof is root = .panic ↔
      leaves.length = is.length ∧ proof.length = (getHelperIndices is).length ∧
        ∀ i ∈ is, i = 0 := by
  rw [verify_multi_panic, calc_panic_iff]

/-- In particular it never panics when some index is at least 1. -/
theorem C47_no_panic_index_partial (E : Env) (leaves proof : List Node) (is : List Nat)
    (root : Node) (h : ∃ i ∈ is, 1 ≤ i) : verifyMerkleMultiproof E leaves proof is root ≠ .panic := by
  rw [Ne, C47_no_panic_partial]
  rintro ⟨_, _, hz⟩
  obtain ⟨i, hi, h1⟩ := h
  have := hz i hi
  omega

example : ∃ i ∈ [0, 5], 1 ≤ i := ⟨5, by simp, by decide⟩

/-! ## C48 -/

/-- C48: the helper indices are the siblings of the nodes on the paths from the positions to the
root (`i / 2^k` for a position `i`) which are not themselves on such a path, in strictly descending
order. -/
theorem C48_helpers (is : List Nat) :
    (∀ g, g ∈ getHelperIndices is ↔
      (∃ i ∈ is, ∃ k, 1 < i / 2 ^ k ∧ g = other (i / 2 ^ k)) ∧
        ¬ ∃ i ∈ is, ∃ k, i / 2 ^ k = g) ∧
      (getHelperIndices is).Pairwise (· > ·) :=
  ⟨fun _ => mem_getHelperIndices, getHelperIndices_sorted is⟩

example : getHelperIndices [2, 7] = [6] := helpers_2_7

/-! ## C49 -/

/-- C49: with one index (at least 1), the multiproof verifier and the single-proof verifier return
the same result, errors included. -/
theorem C49_single (E : Env) (leaf : Node) (proof : List Node) (g : Nat) (root : Node) (h1 : 1 ≤ g)
    (hg : g < 2 ^ 64) :
    verifyMerkleMultiproof E [leaf] proof [g] root = verifyMerkleProof E leaf proof g root := by
  rw [verifyMerkleProof_eq E _ _ _ _ hg, if_neg (by omega), verifyMerkleMultiproof,
    calc_single E leaf proof g h1]
  by_cases hp : proof.length = Nat.log2 g
  · rw [if_pos hp, Res.ok_bind]
    simp only [hp, true_and]
  · rw [if_neg hp, if_neg (fun h => hp h.1)]
    rfl

example : 1 ≤ 7 ∧ 7 < 2 ^ 64 := by decide

end Ssz
