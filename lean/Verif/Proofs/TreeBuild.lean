import Verif.Proofs.Index
import Verif.Proofs.Root

/-!
# The materialised tree of the prover
-/

namespace Ssz

open Spec

/-- The nodes, in breadth-first order, include all those of the tree to depth `d`. -/
def Heap (H : Bytes → Node) (d : Nat) (t : MTree) (ns : List Node) : Prop :=
  ns.length = 2 ^ (d + 1) - 1 ∧
    ∀ g u, t.sub g = some u → g < 2 ^ (d + 1) → ns[g - 1]? = some (u.root H)

theorem sub_pos {t u : MTree} {g : Nat} (h : t.sub g = some u) : 1 ≤ g := by
  rcases Nat.eq_zero_or_pos g with rfl | h'
  · rw [sub_zero] at h; cases h
  · exact h'

theorem copyInto_flats {ε : Type} {ns ms : List Node} {s e i : Nat}
    (hi : i + ms.length ≤ ns.length) (hs : s = i * 32) (he : e = s + (flat ms).length) :
    (copyInto (flat ns) s e (flat ms) : Res ε Bytes) =
      .ok (flat (ns.take i ++ ms ++ ns.drop (i + ms.length))) := by
  unfold copyInto
  rw [flat_length] at he
  rw [if_pos ⟨by omega, by rw [flat_length]; omega, by rw [flat_length]; omega⟩]
  congr 1
  rw [he, hs, Nat.mul_comm i, ← Nat.mul_add, flat_take, flat_drop, flat_append, flat_append]

/-- The nodes computed from the bottom. -/
theorem treeLoop_ok (E : Env) {d : Nat} {V : Nat → Node}
    (hV : ∀ g, 1 ≤ g → g < 2 ^ d → V g = E.sha256 ((V (2 * g)).1 ++ (V (2 * g + 1)).1)) :
    ∀ (k : Nat) (ns : List Node), ns.length = 2 ^ (d + 1) - 1 → k < 2 ^ d →
    (∀ q, k ≤ q → q < 2 ^ (d + 1) - 1 → ns[q]? = some (V (q + 1))) →
    ∃ ms, treeLoop E (2 * k) (flat ns) = .ok (flat ms) ∧ ms.length = 2 ^ (d + 1) - 1 ∧
      ∀ q, q < 2 ^ (d + 1) - 1 → ms[q]? = some (V (q + 1))
  | 0, ns, hl, _, h => ⟨ns, by rw [Nat.mul_zero, treeLoop], hl, fun q hq => h q (Nat.zero_le q) hq⟩
  | k + 1, ns, hl, hk, h => by
    have hp : 2 ^ (d + 1) = 2 ^ d * 2 := Nat.pow_succ 2 d
    have hlen : 2 * k + 3 ≤ ns.length := by omega
    have h1 := h (2 * k + 1) (by omega) (by omega)
    have h2 := h (2 * k + 2) (by omega) (by omega)
    have hpar : (2 * k + 1) / 2 = k := by omega
    have hgoal : ∀ q, k ≤ q → q < 2 ^ (d + 1) - 1 →
        (ns.set k (V (k + 1)))[q]? = some (V (q + 1)) := by
      intro q h3 h4
      by_cases hq : q = k
      · subst hq; rw [List.getElem?_set_self (by omega)]
      · rw [List.getElem?_set_ne (by omega), h q (by omega) h4]
    obtain ⟨ms, h5, h6⟩ := treeLoop_ok E hV k (ns.set k (V (k + 1))) (by rw [List.length_set, hl])
      (by omega) hgoal
    refine ⟨ms, ?_, h6⟩
    rw [show 2 * (k + 1) = (2 * k + 1) + 1 by omega, treeLoop, hpar,
      slice_flat_all (i := k) (j := 2 * k + 1 + 2) rfl rfl (by omega) (by omega)]
    simp only [Res.ok_bind]
    rw [slice_flat (i := 2 * k + 1) h1 rfl rfl, Res.ok_bind,
      slice_flat (i := 2 * k + 2) h2 rfl rfl, Res.ok_bind,
      copyInto_flat (ns := ns) (i := k) (V (k + 1)) (by omega) rfl (by omega)
        (by rw [hV (k + 1) (by omega) (by omega)]; rfl), Res.ok_bind,
      show 2 * k + 1 - 1 = 2 * k by omega, h5]

theorem depthFor_pow (d : Nat) : depthFor (2 ^ d) = d := Nat.clog_pow 2 d (by decide)

theorem pow57 {d : Nat} (h : d ≤ 57) : 2 ^ d ≤ 144115188075855872 :=
  Nat.le_trans (Nat.pow_le_pow_right (by decide) h) (by decide)

/-- `compute_merkle_tree` gives the nodes of the full tree. -/
theorem computeMerkleTree_ok (E : Env) {d : Nat} {ts : List MTree} (hd : d ≤ 57)
    (hl : ts.length ≤ 2 ^ d) :
    ∃ ns, computeMerkleTree E (flat (ts.map (·.root E.sha256))) (2 ^ d) = .ok (flat ns) ∧
      Heap E.sha256 d (full d ts) ns := by
  have hp : 2 ^ (d + 1) = 2 ^ d * 2 := Nat.pow_succ 2 d
  have h0 := Nat.two_pow_pos d
  have h57 := pow57 hd
  let V : Nat → Node := fun g => (((full d ts).sub g).map (·.root E.sha256)).getD zeroNode
  have hV : ∀ g, 1 ≤ g → g < 2 ^ d → V g = E.sha256 ((V (2 * g)).1 ++ (V (2 * g + 1)).1) := by
    intro g h1 h2
    obtain ⟨l, r, h3⟩ := full_sub_node (ts := ts) h1 h2
    have h4 : (full d ts).sub (2 * g) = some l := (sub_step (by omega)).2 ⟨l, r, by
      rw [Nat.mul_div_cancel_left _ (by decide), h3], by rw [if_pos (by omega)]⟩
    have h5 : (full d ts).sub (2 * g + 1) = some r := (sub_step (by omega)).2 ⟨l, r, by
      rw [show (2 * g + 1) / 2 = g by omega, h3], by rw [if_neg (by omega)]⟩
    simp only [V, h3, h4, h5]
    rfl
  have hleaf : ∀ j, j < 2 ^ d → V (2 ^ d + j) =
      ((ts.map (·.root E.sha256))[j]?).getD zeroNode := by
    intro j hj
    simp only [V, full_sub hj, List.getElem?_map]
    cases ts[j]? <;> rfl
  have hstart : ∀ q, 2 ^ d - 1 ≤ q → q < 2 ^ (d + 1) - 1 →
      ((List.replicate (2 * 2 ^ d - 1) zeroNode).take (2 ^ d - 1) ++ ts.map (·.root E.sha256) ++
        (List.replicate (2 * 2 ^ d - 1) zeroNode).drop (2 ^ d - 1 + (ts.map (·.root E.sha256)).length))[q]? =
      some (V (q + 1)) := by
    intro q h1 h2
    have h3 := hleaf (q + 1 - 2 ^ d) (by omega)
    rw [show 2 ^ d + (q + 1 - 2 ^ d) = q + 1 by omega] at h3
    rw [h3, List.append_assoc, List.getElem?_append_right (by simp; omega), List.length_take,
      List.length_replicate, Nat.min_eq_left (by omega), show q + 1 - 2 ^ d = q - (2 ^ d - 1) by omega]
    by_cases hq : q - (2 ^ d - 1) < (ts.map (·.root E.sha256)).length
    · rw [List.getElem?_append_left hq, List.getElem?_eq_getElem hq]; rfl
    · rw [List.getElem?_append_right (by omega), List.getElem?_eq_none (by omega : _ ≤ q - (2 ^ d - 1)),
        List.drop_replicate, List.getElem?_replicate, if_pos]
      · rfl
      · rw [List.length_map] at hq ⊢; omega
  obtain ⟨ns, h1, h2, h3⟩ := treeLoop_ok E hV (2 ^ d - 1) _ (by
    simp only [List.length_append, List.length_take, List.length_drop, List.length_replicate,
      List.length_map]; omega) (by omega) hstart
  refine ⟨ns, ?_, h2, fun g u hu hg => ?_⟩
  · unfold computeMerkleTree
    rw [show ((flat (ts.map (·.root E.sha256))).length % 32 == 0) = true by
      rw [flat_length]; simp, Env.debugAssert_true]
    rw [nextPowerOfTwo_ok (by omega), depthFor_pow]
    simp only [Res.lift_ok, Res.ok_bind, beq_self_eq_true, Env.debugAssert_true, ite_self]
    rw [Env.mul_eq_ok (by simp only [usizeMod]; omega)]
    simp only [Res.lift_ok, Res.ok_bind]
    rw [Env.sub_eq_ok (by omega)]
    simp only [Res.lift_ok, Res.ok_bind]
    rw [Env.sub_eq_ok (by omega)]
    simp only [Res.lift_ok, Res.ok_bind]
    rw [Env.mul_eq_ok (by simp only [usizeMod]; omega)]
    simp only [Res.lift_ok, Res.ok_bind]
    rw [Env.mul_eq_ok (by simp only [usizeMod]; omega)]
    simp only [Res.lift_ok, Res.ok_bind]
    rw [zeros, if_pos (by simp only [isizeMax1]; omega)]
    simp only [Res.ok_bind]
    rw [Env.add_eq_ok (by rw [flat_length, List.length_map]; simp only [usizeMod]; omega)]
    simp only [Res.lift_ok, Res.ok_bind]
    rw [← flat_replicate, copyInto_flats (i := 2 ^ d - 1) (by
      rw [List.length_replicate, List.length_map]; omega) (by omega) rfl, Res.ok_bind,
      show 2 * 2 ^ d - 1 - 1 = 2 * (2 ^ d - 1) by omega, h1]
  · have hg1 := sub_pos hu
    rw [h3 (g - 1) (by omega), Nat.sub_add_cancel hg1]
    simp only [V, hu]
    rfl

/-! ## Reading and decorating -/

theorem heap_get (E : Env) {d : Nat} {t u : MTree} {ns : List Node} {g : Nat} (hd : d ≤ 57)
    (h : Heap E.sha256 d t ns) (hu : t.sub g = some u) (hg : g < 2 ^ (d + 1)) :
    Tree.get E (flat ns) g = .ok (u.root E.sha256).1 := by
  have h1 := sub_pos hu
  have h57 := pow57 hd
  rw [Nat.pow_succ] at hg
  unfold Tree.get
  rw [Env.sub_eq_ok h1]
  simp only [Res.lift_ok, Res.ok_bind]
  rw [Env.mul_eq_ok (by simp only [usizeMod]; omega)]
  simp only [Res.lift_ok, Res.ok_bind]
  rw [Env.mul_eq_ok (by simp only [usizeMod]; omega)]
  simp only [Res.lift_ok, Res.ok_bind]
  exact slice_flat (i := g - 1) (h.2 g u hu (by rw [Nat.pow_succ]; exact hg)) rfl (by omega)

theorem tree_set (E : Env) {ns : List Node} {g : Nat} (n : Node) (h1 : 1 ≤ g) (h2 : g ≤ ns.length)
    (h3 : ns.length < 2 ^ 58) : Tree.set E (flat ns) g n.1 = .ok (flat (ns.set (g - 1) n)) := by
  unfold Tree.set
  rw [Env.sub_eq_ok h1]
  simp only [Res.lift_ok, Res.ok_bind]
  rw [Env.mul_eq_ok (by simp only [usizeMod]; omega)]
  simp only [Res.lift_ok, Res.ok_bind]
  rw [Env.mul_eq_ok (by simp only [usizeMod]; omega)]
  simp only [Res.lift_ok, Res.ok_bind]
  exact copyInto_flat (i := g - 1) n (by omega) rfl (by omega) rfl

/-- The nodes of a tree: the root and those of the two subtrees. -/
theorem node_sub_cases {l r u : MTree} {g : Nat} (h : (MTree.node l r).sub g = some u) :
    (g = 1 ∧ u = .node l r) ∨ (∃ k, 1 ≤ k ∧ g = gcat 2 k ∧ l.sub k = some u) ∨
      ∃ k, 1 ≤ k ∧ g = gcat 3 k ∧ r.sub k = some u := by
  obtain ⟨d, i, hi, rfl⟩ := exists_pow_add (sub_pos h)
  cases d with
  | zero =>
    obtain rfl : i = 0 := by simpa using hi
    rw [show 2 ^ 0 + 0 = 1 by rfl, sub_one] at h
    cases h
    exact Or.inl ⟨rfl, rfl⟩
  | succ d =>
    rw [Nat.pow_succ] at hi
    have hp := Nat.two_pow_pos d
    by_cases hlt : i < 2 ^ d
    · have h1 : 2 ^ (d + 1) + i = gcat 2 (2 ^ d + i) := by rw [gcat_pow hlt, Nat.pow_succ]; omega
      rw [h1] at h
      obtain ⟨s, h2, h3⟩ := (sub_cat (by decide) (by omega)).1 h
      rw [node_sub_left] at h2
      cases h2
      exact Or.inr (Or.inl ⟨_, by omega, h1, h3⟩)
    · have h1 : 2 ^ (d + 1) + i = gcat 3 (2 ^ d + (i - 2 ^ d)) := by
        rw [gcat_pow (by omega), Nat.pow_succ]; omega
      rw [h1] at h
      obtain ⟨s, h2, h3⟩ := (sub_cat (by decide) (by omega)).1 h
      rw [node_sub_right] at h2
      cases h2
      exact Or.inr (Or.inr ⟨_, by omega, h1, h3⟩)

theorem gcat_two_ne {k : Nat} (h : 1 ≤ k) : gcat 2 k ≠ 1 ∧ gcat 2 k ≠ 3 := by
  obtain ⟨d, i, hi, rfl⟩ := exists_pow_add h
  rw [gcat_pow hi]
  have := Nat.two_pow_pos d
  cases d with
  | zero => simp at hi; subst hi; decide
  | succ d => rw [Nat.pow_succ]; have := Nat.two_pow_pos d; omega

/-- `Tree::mix_in_decoration` replaces the right half by the number. -/
theorem mixIn_ok (E : Env) {d m : Nat} {l r : MTree} {ns : List Node} (hd : d + 1 ≤ 57)
    (h : Heap E.sha256 (d + 1) (.node l r) ns) (hm : m < 2 ^ 64) :
    ∃ ms, Tree.mixInDecoration E (flat ns) m = .ok (flat ms) ∧
      Heap E.sha256 (d + 1) (.node l (numLeaf m)) ms ∧
      ms = (ns.set 2 ((numLeaf m).root E.sha256)).set 0
        ((MTree.node l (numLeaf m)).root E.sha256) := by
  have h57 := pow57 hd
  have hp1 : 2 ^ (d + 1) = 2 ^ d * 2 := Nat.pow_succ 2 d
  have hp2 : 2 ^ (d + 1 + 1) = 2 ^ (d + 1) * 2 := Nat.pow_succ 2 (d + 1)
  have h0 := Nat.two_pow_pos d
  have hlen := h.1
  let x := (numLeaf m).root E.sha256
  let y := E.sha256 ((l.root E.sha256).1 ++ x.1)
  have hset : Heap E.sha256 (d + 1) (.node l (numLeaf m)) ((ns.set 2 x).set 0 y) := by
    refine ⟨by simp [hlen], fun g u hu hg => ?_⟩
    rcases node_sub_cases hu with ⟨rfl, rfl⟩ | ⟨k, hk, rfl, hs⟩ | ⟨k, hk, rfl, hs⟩
    · rw [List.getElem?_set_self (by simp; omega)]; rfl
    · obtain ⟨h1, h2⟩ := gcat_two_ne hk
      have h3 := sub_pos hu
      rw [List.getElem?_set_ne (by omega), List.getElem?_set_ne (by omega)]
      exact h.2 _ _ ((sub_cat (by decide) hk).2 ⟨l, node_sub_left, hs⟩) hg
    · have hk1 : k = 1 := by
        by_contra hc
        rw [numLeaf, leaf_sub hc] at hs; cases hs
      subst hk1
      rw [sub_one] at hs
      cases hs
      rw [gcat_one, List.getElem?_set_ne (by omega), List.getElem?_set_self (by omega)]
  refine ⟨_, ?_, hset, rfl⟩
  unfold Tree.mixInDecoration
  rw [heap_get E hd h node_sub_right (by omega), Res.ok_bind, usizeHashTreeRoot_ok hm E.sha256,
    Res.ok_bind, tree_set E x (by decide) (by omega) (by omega), Res.ok_bind]
  have h2 : Tree.get E (flat (ns.set 2 x)) 2 = .ok (l.root E.sha256).1 := by
    have hh : Heap E.sha256 (d + 1) (.node l (.leaf x)) (ns.set 2 x |>.set 0 y) := hset
    have hg : (ns.set 2 x)[1]? = some (l.root E.sha256) := by
      rw [List.getElem?_set_ne (by omega)]
      exact h.2 2 l node_sub_left (by omega)
    unfold Tree.get
    rw [Env.sub_eq_ok (by decide)]
    simp only [Res.lift_ok, Res.ok_bind]
    rw [Env.mul_eq_ok (by decide)]
    simp only [Res.lift_ok, Res.ok_bind]
    rw [Env.mul_eq_ok (by decide)]
    simp only [Res.lift_ok, Res.ok_bind]
    exact slice_flat (i := 1) hg rfl rfl
  have h3 : Tree.get E (flat (ns.set 2 x)) 3 = .ok x.1 := by
    have hg : (ns.set 2 x)[2]? = some x := by
      rw [List.getElem?_set_self (by omega)]
    unfold Tree.get
    rw [Env.sub_eq_ok (by decide)]
    simp only [Res.lift_ok, Res.ok_bind]
    rw [Env.mul_eq_ok (by decide)]
    simp only [Res.lift_ok, Res.ok_bind]
    rw [Env.mul_eq_ok (by decide)]
    simp only [Res.lift_ok, Res.ok_bind]
    exact slice_flat (i := 2) hg rfl rfl
  rw [h2, Res.ok_bind, h3, Res.ok_bind]
  exact tree_set E y (by decide) (by simp; omega) (by simp; omega)

/-- The siblings read off the nodes are the branch. -/
theorem siblingsLoop_ok (E : Env) {d : Nat} {t : MTree} {ns : List Node} (hd : d ≤ 57)
    (h : Heap E.sha256 d t ns) : ∀ (k g : Nat) (u : MTree) (branch : List Node),
    t.sub g = some u → Nat.log2 g = k → k ≤ d →
    siblingsLoop E (flat ns) k g branch = .ok (branch ++ t.branchAt E.sha256 g)
  | 0, g, u, branch, hu, hk, _ => by
    have h1 := sub_pos hu
    have h2 := (log2_spec (d := 0) (by omega)).1 hk
    rw [siblingsLoop, branchAt_one (by omega), List.append_nil]
  | k + 1, g, u, branch, hu, hk, hkd => by
    have h1 := sub_pos hu
    have h2 := (log2_spec (by omega)).1 hk
    have hg : 1 < g := by
      have := Nat.two_pow_pos k
      rw [Nat.pow_succ] at h2; omega
    have hgd : g < 2 ^ (d + 1) := Nat.lt_of_lt_of_le h2.2 (Nat.pow_le_pow_right (by decide) (by omega))
    have h57 := pow57 hd
    obtain ⟨l, r, h3, h4⟩ := (sub_step hg).1 hu
    have ho : t.sub (other g) = some (if g % 2 = 0 then r else l) := by
      refine (sub_step (other_lt hg)).2 ⟨l, r, by rw [other_half, h3], ?_⟩
      by_cases hp : g % 2 = 0
      · rw [if_pos hp, if_neg (mt other_mod.1 (not_not.2 hp))]
      · rw [if_neg hp, if_pos (other_mod.2 hp)]
    have hod : other g < 2 ^ (d + 1) := by
      have : 2 ^ (d + 1) = 2 * 2 ^ d := by rw [Nat.pow_succ]; omega
      rw [other]; split <;> omega
    have hget := heap_get E hd h ho hod
    have hrest := siblingsLoop_ok E hd h k (g / 2) _
      (branch ++ [(if g % 2 = 0 then r else l).root E.sha256]) h3
      (by rw [log2_half hg] at hk; omega) (by omega)
    rw [siblingsLoop, branchAt_step hg h3]
    by_cases hp : g % 2 = 0
    · rw [if_pos hp] at hget hrest
      rw [if_neg (not_not.2 hp), Env.add_eq_ok (by
        rw [Nat.pow_succ] at hgd; simp only [usizeMod]; omega)]
      simp only [Res.lift_ok, Res.ok_bind]
      rw [show g + 1 = other g by rw [other, if_pos hp], hget]
      simp only [Res.ok_bind, toNode_node, if_pos hp]
      rw [hrest, List.append_assoc]
      rfl
    · rw [if_neg hp] at hget hrest
      rw [if_pos hp, Env.sub_eq_ok (by omega)]
      simp only [Res.lift_ok, Res.ok_bind]
      rw [show g - 1 = other g by rw [other, if_neg hp], hget]
      simp only [Res.ok_bind, toNode_node, if_neg hp]
      rw [hrest, List.append_assoc]
      rfl

end Ssz
