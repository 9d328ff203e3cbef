import Verif.Proofs.Consistent
import Verif.Proofs.Index
import Verif.Proofs.ProvePath
import Verif.Props.Multi

/-!
# Property C70: proofs accepted for the same root

No tree is given here: the root is any 32 bytes.
-/

namespace Ssz

open Spec

/-- The arguments of `verify_merkle_multiproof` other than the root. -/
structure Multiproof where
  leaves : List Node
  nodes : List Node
  indices : List Nat

/-- The node that a multiproof gives for a generalized index, as a leaf or as a proof node; the last
one counts. -/
def Multiproof.given (m : Multiproof) : Nat → Option Node :=
  lastClaimed (m.indices ++ getHelperIndices m.indices) (m.leaves ++ m.nodes)

/-- A string hashed in verifying one of the proofs. -/
def HashedBy (H : Bytes → Node) (ps : List Proof) (ms : List Multiproof) (x : Bytes) : Prop :=
  (∃ p ∈ ps, x ∈ climbInputs H p.index p.leaf p.branch) ∨
    ∃ m ∈ ms, ∃ s, Claims m.given 1 s ∧ x ∈ s.inputs H

/-- Two different strings with the same hash are among those hashed in verifying the proofs. -/
def CollideIn (H : Bytes → Node) (ps : List Proof) (ms : List Multiproof) : Prop :=
  ∃ x y, HashedBy H ps ms x ∧ HashedBy H ps ms y ∧ x ≠ y ∧ H x = H y

/-- C70: all proofs and multiproofs that are accepted for the same root are read off one Merkle tree
with that root: it has the leaf of each proof at the index of the proof, and the branch is that of
the index; it has every node given by a multiproof at the index it is given for, unless another
index of the multiproof is above. Or else two of the strings hashed in verifying the proofs
collide. -/
theorem C70_consistent (E : Env) (root : Node) (ps : List Proof) (ms : List Multiproof)
    (hg : ∀ p ∈ ps, p.index < 2 ^ 64) (hp : ∀ p ∈ ps, p.verify E root = .ok ())
    (hm : ∀ m ∈ ms, verifyMerkleMultiproof E m.leaves m.nodes m.indices root = .ok ()) :
    (∃ t : MTree, t.root E.sha256 = root ∧
      (∀ p ∈ ps, t.nodeAt E.sha256 p.index = some p.leaf ∧
        t.branchAt E.sha256 p.index = p.branch) ∧
      ∀ m ∈ ms, ∀ g ∈ m.indices ++ getHelperIndices m.indices, 1 ≤ g →
        (∀ a ∈ m.indices, AncestorEq a g → a = g) →
          t.nodeAt E.sha256 g = m.given g) ∨
    CollideIn E.sha256 ps ms := by
  have hp' : ∀ p ∈ ps, p.index ≠ 0 ∧ p.branch.length = Nat.log2 p.index ∧
      climb E.sha256 p.index p.leaf p.branch = root := by
    intro p h
    have hv := hp p h
    rw [verify_eq E p _ (hg p h)] at hv
    split at hv
    · cases hv
    · rename_i h0
      split at hv
      · rename_i h1
        exact ⟨h0, h1.1, h1.2⟩
      · cases hv
  have hm' : ∀ m ∈ ms, m.leaves.length = m.indices.length ∧
      m.nodes.length = (getHelperIndices m.indices).length ∧ ∃ s, Claims m.given 1 s ∧
        s.root E.sha256 = root := fun m h => (calc_exact E).1 (verify_multi_ok.1 (hm m h))
  have hms : ∃ ts : List MTree, (∀ s ∈ ts, s.root E.sha256 = root) ∧
      (∀ m ∈ ms, ∃ s ∈ ts, Claims m.given 1 s) ∧ ∀ s ∈ ts, ∃ m ∈ ms, Claims m.given 1 s := by
    clear hm
    induction ms with
    | nil => exact ⟨[], by simp, by simp, by simp⟩
    | cons m ms ih =>
      obtain ⟨ts, h1, h2, h3⟩ := ih (fun m h => hm' m (List.mem_cons_of_mem _ h))
      obtain ⟨_, _, s, h4, h5⟩ := hm' m (List.mem_cons_self ..)
      refine ⟨s :: ts, ?_, ?_, ?_⟩
      · intro u hu
        rcases List.mem_cons.1 hu with rfl | hu
        · exact h5
        · exact h1 u hu
      · intro k hk
        rcases List.mem_cons.1 hk with rfl | hk
        · exact ⟨s, List.mem_cons_self .., h4⟩
        · obtain ⟨u, hu, h⟩ := h2 k hk
          exact ⟨u, List.mem_cons_of_mem _ hu, h⟩
      · intro u hu
        rcases List.mem_cons.1 hu with rfl | hu
        · exact ⟨m, List.mem_cons_self .., h4⟩
        · obtain ⟨k, hk, h⟩ := h3 u hu
          exact ⟨k, List.mem_cons_of_mem _ hk, h⟩
  obtain ⟨ts, ht1, ht2, ht3⟩ := hms
  have hashed : ∀ s ∈ ps.map (fun p => spine p.index (.leaf p.leaf) p.branch) ++ ts,
      ∀ x ∈ s.inputs E.sha256, HashedBy E.sha256 ps ms x := by
    intro s hs x hx
    rcases List.mem_append.1 hs with hs | hs
    · obtain ⟨p, h, rfl⟩ := List.mem_map.1 hs
      rcases (spine_inputs _ _ _ _).1 hx with h' | h'
      · cases h'
      · exact .inl ⟨p, h, h'⟩
    · obtain ⟨m, h, h'⟩ := ht3 s hs
      exact .inr ⟨m, h, s, h', hx⟩
  rcases merge_all (H := E.sha256) (r := root)
      (ps.map (fun p => spine p.index (.leaf p.leaf) p.branch) ++ ts) (by
        intro s hs
        rcases List.mem_append.1 hs with hs | hs
        · obtain ⟨p, h, rfl⟩ := List.mem_map.1 hs
          rw [spine_root]
          exact (hp' p h).2.2
        · exact ht1 s hs) with ⟨t, h1, h2, _⟩ | ⟨s, hs, u, hu, x, hx, y, hy, hne, he⟩
  · refine .inl ⟨t, h1, fun p h => ?_, fun m h g hgm hg1 htop => ?_⟩
    · have ho := h2 _ (List.mem_append_left _ (List.mem_map_of_mem h))
      obtain ⟨h0, hb, _⟩ := hp' p h
      exact ⟨over_nodeAt ho (spine_sub _ _ _ h0 hb), spine_branch _ _ _ h0 hb ho⟩
    · obtain ⟨hl, hn, _⟩ := hm' m h
      obtain ⟨s, hs, hcl⟩ := ht2 m h
      obtain ⟨n, hgn⟩ := lastClaimed_isSome (ns := m.leaves ++ m.nodes) (by simp [hl, hn]) hgm
      have hsub := claims_sub hcl hg1 hgn (by
        intro a _ hag hne
        cases ha : m.given a with
        | none => rfl
        | some k =>
          exfalso
          rcases List.mem_append.1 (lastClaimed_mem ha) with h1 | h1
          · exact hne (htop a h1 hag)
          · exact helper_not_above hgm hag hne h1)
      rw [over_nodeAt (h2 s (List.mem_append_right _ hs)) hsub]
      exact hgn.symm
  · exact .inr ⟨x, y, hashed s hs x hx, hashed u hu y hy, hne, he⟩

/-- Proofs and a multiproof for the root of `tree3`: the hypotheses of `C70_consistent` are met. -/
example (E : Env) : ∃ (ps : List Proof) (ms : List Multiproof), ps.length = 2 ∧ ms.length = 1 ∧
    (∀ p ∈ ps, p.index < 2 ^ 64) ∧ (∀ p ∈ ps, p.verify E (tree3.root E.sha256) = .ok ()) ∧
    ∀ m ∈ ms, verifyMerkleMultiproof E m.leaves m.nodes m.indices (tree3.root E.sha256) = .ok () := by
  obtain ⟨leaves, proof, _, _, h3⟩ := C45_complete E tree3 [2, 7] (by simp) (by
    intro i hi
    simp only [List.mem_cons, List.not_mem_nil, or_false] at hi
    rcases hi with rfl | rfl
    · exact ⟨_, tree3_sub.1⟩
    · exact ⟨_, tree3_sub.2⟩)
  refine ⟨[⟨zeroNode, tree3.branchAt E.sha256 2, 2⟩,
    ⟨(numLeaf 2).root E.sha256, tree3.branchAt E.sha256 7, 7⟩], [⟨leaves, proof, [2, 7]⟩],
    rfl, rfl, ?_, ?_, ?_⟩
  rotate_left
  · intro p hp
    simp only [List.mem_cons, List.not_mem_nil, or_false] at hp
    rcases hp with rfl | rfl
    · exact C40_complete E tree3 _ 2 (by decide) tree3_sub.1
    · exact C40_complete E tree3 _ 7 (by decide) tree3_sub.2
  · intro m hm
    simp only [List.mem_cons, List.not_mem_nil, or_false] at hm
    subst hm
    exact h3
  · intro p hp
    simp only [List.mem_cons, List.not_mem_nil, or_false] at hp
    rcases hp with rfl | rfl
    · exact (by decide : 2 < 2 ^ 64)
    · exact (by decide : 7 < 2 ^ 64)

/-- The nodes given by a multiproof, from what holds at each index. -/
theorem given_nodes (E : Env) {root : Node} {m : Multiproof} {f : Nat → Option Node}
    (ha : Antichain m.indices) (h1 : ∀ i ∈ m.indices, 1 ≤ i)
    (h : ∀ g ∈ m.indices ++ getHelperIndices m.indices, 1 ≤ g →
      (∀ a ∈ m.indices, AncestorEq a g → a = g) → f g = m.given g)
    (hm : verifyMerkleMultiproof E m.leaves m.nodes m.indices root = .ok ()) :
    m.leaves.map some = m.indices.map f ∧
      m.nodes.map some = (getHelperIndices m.indices).map f := by
  obtain ⟨hl, hn, _⟩ := (calc_exact E).1 (verify_multi_ok.1 hm)
  have hnd : (m.indices ++ getHelperIndices m.indices).Nodup :=
    (antichain_nodup ha).append (getHelperIndices_nodup _) (fun g hg hg2 =>
      (mem_getHelperIndices.1 hg2).2 ⟨g, hg, 0, by simp⟩)
  have hall : ∀ g n, (g, n) ∈ (m.indices ++ getHelperIndices m.indices).zip (m.leaves ++ m.nodes) →
      f g = some n := by
    intro g n hgn
    have hg := (List.of_mem_zip hgn).1
    have hg1 : 1 ≤ g := by
      rcases List.mem_append.1 hg with hg | hg
      · exact h1 g hg
      · obtain ⟨⟨i, _, k, hk, rfl⟩, _⟩ := mem_getHelperIndices.1 hg
        rw [other]
        split <;> omega
    rw [h g hg hg1 (fun a ham hag => helpers_antichain ha h1 (.inl ham) (List.mem_append.1 hg) hag)]
    exact lookup_of_mem (by
      rw [List.map_reverse, List.nodup_reverse, zip_map_fst (by simp [hl, hn])]
      exact hnd) (List.mem_reverse.2 hgn)
  rw [List.zip_append hl.symm] at hall
  exact ⟨map_some_of hl (fun x y hxy => hall x y (List.mem_append_left _ hxy)),
    map_some_of hn (fun x y hxy => hall x y (List.mem_append_right _ hxy))⟩

/-- C70: an accepted proof cannot be altered. Two proofs for the same index that are accepted for
the same root have the same leaf and the same branch. -/
theorem C70_unique (E : Env) (root : Node) (p q : Proof) (hg : p.index < 2 ^ 64)
    (hi : p.index = q.index) (hp : p.verify E root = .ok ()) (hq : q.verify E root = .ok ()) :
    p = q ∨ CollideIn E.sha256 [p, q] [] := by
  rcases C70_consistent E root [p, q] [] (by simp [← hi, hg]) (by simp [hp, hq]) (by simp) with
    ⟨t, _, h, _⟩ | h
  · left
    obtain ⟨h1, h2⟩ := h p (by simp)
    obtain ⟨h3, h4⟩ := h q (by simp)
    rw [← hi] at h3 h4
    rw [h1, Option.some.injEq] at h3
    rw [h2] at h4
    cases p; cases q
    simp_all
  · exact .inr h

/-- An accepted proof for index 7. -/
example (E : Env) : (7 : Nat) < 2 ^ 64 ∧ Proof.verify E
    ⟨(numLeaf 2).root E.sha256, tree3.branchAt E.sha256 7, 7⟩ (tree3.root E.sha256) = .ok () :=
  ⟨by decide, C40_complete E tree3 _ 7 (by decide) tree3_sub.2⟩

/-- C70: an accepted multiproof cannot be altered either, if its indices are distinct, at least 1,
and none is above another. -/
theorem C70_unique_multi (E : Env) (root : Node) (m k : Multiproof) (hi : m.indices = k.indices)
    (ha : Antichain m.indices) (h1 : ∀ i ∈ m.indices, 1 ≤ i)
    (hm : verifyMerkleMultiproof E m.leaves m.nodes m.indices root = .ok ())
    (hk : verifyMerkleMultiproof E k.leaves k.nodes k.indices root = .ok ()) :
    m = k ∨ CollideIn E.sha256 [] [m, k] := by
  rcases C70_consistent E root [] [m, k] (by simp) (by simp) (by simp [hm, hk]) with
    ⟨t, _, _, h⟩ | h
  · left
    have hm' := given_nodes E ha h1 (h m (by simp)) hm
    have hk' := given_nodes E (hi ▸ ha) (hi ▸ h1) (h k (by simp)) hk
    rw [← hi] at hk'
    have hl := hm'.1.trans hk'.1.symm
    have hn := hm'.2.trans hk'.2.symm
    rw [List.map_inj_right (fun _ _ => Option.some.inj)] at hl hn
    cases m; cases k
    simp_all
  · exact .inr h

/-- The nodes at 2 and 7 of a tree as in `C46_sound_partial` meet the hypotheses. -/
example : Antichain [2, 7] ∧ ∀ i ∈ [2, 7], 1 ≤ i := ⟨antichain_2_7, by simp⟩

/-- C70: a proof below the index of another one extends it. If `p` and `q` are accepted for the same
root, and the index of `q` is the index `i` below that of `p`, then the branch of `q` ends with the
branch of `p`, and what comes before is the branch of an accepted proof for `i` against the leaf of
`p`. -/
theorem C70_below (E : Env) (root : Node) (p q : Proof) (i : Nat) (hi : 1 ≤ i)
    (hg : q.index < 2 ^ 64) (hq' : q.index = gcat p.index i) (hp : p.verify E root = .ok ())
    (hq : q.verify E root = .ok ()) :
    (∃ b, q.branch = b ++ p.branch ∧ Proof.verify E ⟨q.leaf, b, i⟩ p.leaf = .ok ()) ∨
      CollideIn E.sha256 [p, q] [] := by
  have hpg : p.index < 2 ^ 64 := Nat.lt_of_le_of_lt (hq' ▸ le_gcat _ _) hg
  rcases C70_consistent E root [p, q] [] (by simp [hg, hpg]) (by simp [hp, hq]) (by simp) with
    ⟨t, _, h, _⟩ | h
  · left
    obtain ⟨h1, h2⟩ := h p (by simp)
    obtain ⟨h3, h4⟩ := h q (by simp)
    have hp1 : 1 ≤ p.index := by
      by_contra h0
      have : p.index = 0 := by omega
      rw [verify_eq E p _ hpg, if_pos this] at hp
      cases hp
    rw [MTree.nodeAt, Option.map_eq_some_iff] at h1 h3
    obtain ⟨u, hu, hur⟩ := h1
    obtain ⟨w, hw, hwr⟩ := h3
    rw [hq'] at hw h4
    obtain ⟨u', hu', hw'⟩ := (sub_cat hp1 hi).1 hw
    rw [hu] at hu'
    cases hu'
    refine ⟨u.branchAt E.sha256 i, ?_, ?_⟩
    · rw [← h4, branchAt_cat hp1 hu hw', h2]
    · rw [← hur, ← hwr]
      exact C40_complete E u w i (Nat.lt_of_le_of_lt (hq' ▸ le_gcat_right hp1 hi) hg) hw'
  · exact .inr h

/-- Accepted proofs for index 3 and, below it, for index 7. -/
example (E : Env) : 7 = gcat 3 3 ∧
    Proof.verify E ⟨(MTree.node (numLeaf 1) (numLeaf 2)).root E.sha256, tree3.branchAt E.sha256 3, 3⟩
      (tree3.root E.sha256) = .ok () ∧
    Proof.verify E ⟨(numLeaf 2).root E.sha256, tree3.branchAt E.sha256 7, 7⟩
      (tree3.root E.sha256) = .ok () :=
  ⟨by decide +kernel, C40_complete E tree3 _ 3 (by decide) (by
    rw [MTree.sub, MTree.sub]
    rfl), C40_complete E tree3 _ 7 (by decide) tree3_sub.2⟩

end Ssz
