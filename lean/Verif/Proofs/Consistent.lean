import Verif.Proofs.MultiExact

/-!
# Trees with the same root

Two trees with the same root, each with some of the nodes of one tree, have a common refinement, or
there is a collision.
-/

namespace Ssz

open Spec

/-- `t` has every node of `s`, and possibly more below the leaves of `s`. -/
def Over (H : Bytes → Node) (t : MTree) : MTree → Prop
  | .leaf n => t.root H = n
  | .node l r => ∃ a b, t = .node a b ∧ Over H a l ∧ Over H b r

theorem over_root {H : Bytes → Node} : ∀ {s t : MTree}, Over H t s → t.root H = s.root H
  | .leaf _, _, h => h
  | .node _ _, _, ⟨_, _, h, ha, hb⟩ => by
    subst h
    rw [MTree.root, MTree.root, over_root ha, over_root hb]

theorem over_refl {H : Bytes → Node} : ∀ t : MTree, Over H t t
  | .leaf _ => rfl
  | .node l r => ⟨l, r, rfl, over_refl l, over_refl r⟩

theorem over_trans {H : Bytes → Node} : ∀ {s t u : MTree}, Over H u t → Over H t s → Over H u s
  | .leaf _, _, _, h, h' => by
    rw [Over] at h' ⊢
    rw [over_root h, h']
  | .node _ _, _, _, h, ⟨_, _, ht, ha, hb⟩ => by
    subst ht
    obtain ⟨c, d, rfl, hc, hd⟩ := h
    exact ⟨c, d, rfl, over_trans hc ha, over_trans hd hb⟩

/-- The nodes of `s` are nodes of `t`. -/
theorem over_sub {H : Bytes → Node} {s t : MTree} (h : Over H t s) : ∀ (g : Nat) {u : MTree},
    s.sub g = some u → ∃ u', t.sub g = some u' ∧ Over H u' u := by
  intro g
  induction g using Nat.strongRecOn with
  | _ g ih =>
    intro u hu
    by_cases hg : 1 < g
    · obtain ⟨l, r, h1, rfl⟩ := (sub_step hg).1 hu
      obtain ⟨u', h2, a, b, rfl, ha, hb⟩ := ih (g / 2) (by omega) h1
      refine ⟨_, (sub_step hg).2 ⟨a, b, h2, rfl⟩, ?_⟩
      split
      · exact ha
      · exact hb
    · by_cases h1 : g = 1
      · subst h1
        rw [sub_one] at hu
        cases hu
        exact ⟨t, sub_one t, h⟩
      · have : g = 0 := by omega
        subst this
        rw [sub_zero] at hu
        cases hu

theorem over_nodeAt {H : Bytes → Node} {s t u : MTree} (h : Over H t s) {g : Nat}
    (hu : s.sub g = some u) : t.nodeAt H g = some (u.root H) := by
  obtain ⟨u', h1, h2⟩ := over_sub h g hu
  rw [MTree.nodeAt, h1, Option.map_some, over_root h2]

/-- The common refinement of two trees. -/
theorem merge {H : Bytes → Node} : ∀ (s t : MTree), s.root H = t.root H →
    (∃ u, Over H u s ∧ Over H u t ∧ ∀ x ∈ u.inputs H, x ∈ s.inputs H ∨ x ∈ t.inputs H) ∨
      Collide H s t
  | .leaf n, t, h => .inl ⟨t, h.symm, over_refl t, fun _ hx => .inr hx⟩
  | .node l r, .leaf n, h => .inl ⟨.node l r, over_refl _, h, fun _ hx => .inl hx⟩
  | .node l r, .node a b, h => by
    by_cases hs : (l.root H).1 ++ (r.root H).1 = (a.root H).1 ++ (b.root H).1
    · obtain ⟨h1, h2⟩ := append32_inj hs
      rcases merge l a h1 with ⟨u, hu1, hu2, hu3⟩ | hc
      · rcases merge r b h2 with ⟨v, hv1, hv2, hv3⟩ | hc
        · refine .inl ⟨.node u v, ⟨u, v, rfl, hu1, hv1⟩, ⟨u, v, rfl, hu2, hv2⟩, fun x hx => ?_⟩
          rw [MTree.inputs, over_root hu1, over_root hv1] at hx
          rcases List.mem_cons.1 hx with rfl | hx
          · exact .inl (List.mem_cons_self ..)
          · rcases List.mem_append.1 hx with hx | hx
            · exact (hu3 x hx).imp (inputs_left x) (inputs_left x)
            · exact (hv3 x hx).imp (inputs_right x) (inputs_right x)
        · exact .inr (collide_mono hc inputs_right inputs_right)
      · exact .inr (collide_mono hc inputs_left inputs_left)
    · exact .inr ⟨_, List.mem_cons_self .., _, List.mem_cons_self .., hs, h⟩

/-- The common refinement of any number of trees. -/
theorem merge_all {H : Bytes → Node} {r : Node} : ∀ ts : List MTree,
    (∀ s ∈ ts, s.root H = r) →
    (∃ u, u.root H = r ∧ (∀ s ∈ ts, Over H u s) ∧
      ∀ x ∈ u.inputs H, ∃ s ∈ ts, x ∈ s.inputs H) ∨
    ∃ s ∈ ts, ∃ t ∈ ts, Collide H s t
  | [], _ => .inl ⟨.leaf r, rfl, fun _ h => (List.not_mem_nil h).elim,
      fun _ h => (List.not_mem_nil h).elim⟩
  | s :: ts, h => by
    rcases merge_all ts (fun s hs => h s (List.mem_cons_of_mem _ hs)) with ⟨u, h1, h2, h3⟩ |
        ⟨a, ha, b, hb, hc⟩
    · rcases merge s u (by rw [h1]; exact h s (List.mem_cons_self ..)) with ⟨v, hv1, hv2, hv3⟩ | hc
      · refine .inl ⟨v, by rw [over_root hv2, h1], fun w hw => ?_, fun x hx => ?_⟩
        · rcases List.mem_cons.1 hw with rfl | hw
          · exact hv1
          · exact over_trans hv2 (h2 w hw)
        · rcases hv3 x hx with hx | hx
          · exact ⟨s, List.mem_cons_self .., hx⟩
          · obtain ⟨w, hw, hx⟩ := h3 x hx
            exact ⟨w, List.mem_cons_of_mem _ hw, hx⟩
      · obtain ⟨x, hx, y, hy, hne, he⟩ := hc
        obtain ⟨w, hw, hy⟩ := h3 y hy
        exact .inr ⟨s, List.mem_cons_self .., w, List.mem_cons_of_mem _ hw, x, hx, y, hy, hne, he⟩
    · exact .inr ⟨a, List.mem_cons_of_mem _ ha, b, List.mem_cons_of_mem _ hb, hc⟩

/-! ## The tree of a proof -/

/-- The tree with a given subtree at index `g` and the branch beside its path. -/
def spine : Nat → MTree → List Node → MTree
  | _, s, [] => s
  | g, s, b :: bs => spine (g / 2) (if g % 2 = 0 then .node s (.leaf b) else .node (.leaf b) s) bs

theorem spine_root {H : Bytes → Node} : ∀ (bs : List Node) (g : Nat) (s : MTree),
    (spine g s bs).root H = climb H g (s.root H) bs
  | [], _, _ => rfl
  | b :: bs, g, s => by
    rw [spine, climb, spine_root bs]
    split <;> rfl

theorem spine_inputs {H : Bytes → Node} : ∀ (bs : List Node) (g : Nat) (s : MTree) (x : Bytes),
    x ∈ (spine g s bs).inputs H ↔ x ∈ s.inputs H ∨ x ∈ climbInputs H g (s.root H) bs
  | [], g, s, x => by simp [spine, climbInputs]
  | b :: bs, g, s, x => by
    rw [spine, spine_inputs bs, climbInputs]
    by_cases hg : g % 2 = 0
    · rw [if_pos hg, if_pos hg]
      simp only [MTree.inputs, MTree.root, List.mem_cons, List.append_nil]
      tauto
    · rw [if_neg hg, if_neg hg]
      simp only [MTree.inputs, MTree.root, List.mem_cons, List.nil_append]
      tauto

theorem spine_sub : ∀ (bs : List Node) (g : Nat) (s : MTree), g ≠ 0 → bs.length = Nat.log2 g →
    (spine g s bs).sub g = some s
  | [], g, s, h0, hl => by
    have : g = 1 := by
      obtain ⟨h1, h2⟩ := (log2_spec (d := 0) h0).1 hl.symm
      omega
    subst this
    exact sub_one s
  | b :: bs, g, s, h0, hl => by
    have hg : 1 < g := by
      by_contra h
      have : g = 1 := by omega
      subst this
      rw [show Nat.log2 1 = 0 by decide +kernel] at hl
      simp at hl
    rw [log2_half hg, List.length_cons, Nat.add_right_cancel_iff] at hl
    have := spine_sub bs (g / 2) (if g % 2 = 0 then .node s (.leaf b) else .node (.leaf b) s)
      (by omega) hl
    rw [spine]
    by_cases h2 : g % 2 = 0
    · rw [if_pos h2] at this ⊢
      exact (sub_step hg).2 ⟨_, _, this, by rw [if_pos h2]⟩
    · rw [if_neg h2] at this ⊢
      exact (sub_step hg).2 ⟨_, _, this, by rw [if_neg h2]⟩

theorem spine_branch {H : Bytes → Node} {t : MTree} : ∀ (bs : List Node) (g : Nat) (s : MTree),
    g ≠ 0 → bs.length = Nat.log2 g → Over H t (spine g s bs) → t.branchAt H g = bs
  | [], g, s, h0, hl, _ => by
    have : g = 1 := by
      obtain ⟨h1, h2⟩ := (log2_spec (d := 0) h0).1 hl.symm
      omega
    subst this
    rw [MTree.branchAt, if_pos (Nat.le_refl 1)]
  | b :: bs, g, s, h0, hl, ho => by
    have hg : 1 < g := by
      by_contra h
      have : g = 1 := by omega
      subst this
      rw [show Nat.log2 1 = 0 by decide +kernel] at hl
      simp at hl
    rw [log2_half hg, List.length_cons, Nat.add_right_cancel_iff] at hl
    rw [spine] at ho
    have h1 := spine_branch bs (g / 2) _ (by omega) hl ho
    obtain ⟨u, h2, h3⟩ := over_sub ho _ (spine_sub bs (g / 2)
      (if g % 2 = 0 then .node s (.leaf b) else .node (.leaf b) s) (by omega) hl)
    by_cases h4 : g % 2 = 0
    · rw [if_pos h4] at h3
      obtain ⟨c, d, rfl, _, hd⟩ := h3
      rw [branchAt_step hg h2, h1, if_pos h4]
      rw [show d.root H = b from hd]
    · rw [if_neg h4] at h3
      obtain ⟨c, d, rfl, hc, _⟩ := h3
      rw [branchAt_step hg h2, h1, if_neg h4]
      rw [show c.root H = b from hc]

/-! ## The tree of a multiproof -/

/-- A claim without claims above it is a leaf of the claimed tree. -/
theorem claims_sub {f : Nat → Option Node} {s : MTree} (hs : Claims f 1 s) {g : Nat} {n : Node}
    (hg : 1 ≤ g) (hn : f g = some n) (htop : TopBelow f 1 g) : s.sub g = some (.leaf n) := by
  have key : ∀ {a : Nat} {u : MTree}, Claims f a u → 1 ≤ a → s.sub a = some u →
      AncestorEq a g → s.sub g = some (.leaf n) := by
    intro a u hu
    induction hu with
    | @leaf a m h =>
      intro h1 hsub hag
      have : a = g := by
        by_contra hne
        rw [htop a (ancestorEq_one h1) hag hne] at h
        cases h
      subst this
      rw [h] at hn
      cases hn
      exact hsub
    | @node a l r h hl hr ih1 ih2 =>
      intro h1 hsub hag
      rcases ancestor_step hag with rfl | hag | hag
      · rw [h] at hn; cases hn
      · exact ih1 (by omega) ((sub_step (by omega)).2
          ⟨l, r, by rw [show 2 * a / 2 = a by omega]; exact hsub, by rw [if_pos (by omega)]⟩) hag
      · exact ih2 (by omega) ((sub_step (by omega)).2
          ⟨l, r, by rw [show (2 * a + 1) / 2 = a by omega]; exact hsub, by rw [if_neg (by omega)]⟩)
          hag
  exact key hs (Nat.le_refl 1) (sub_one s) (ancestorEq_one hg)

end Ssz
