import Verif.Props.ProveAt
import Verif.Props.Update
import Verif.Proofs.Answered

/-!
# Properties C37 and C57: exactly which proofs verify

The prover returns proofs that do not verify: at indices below a length or selector, and on paths into
a variant that the value does not have. This says for every proof returned whether it verifies.
-/

namespace Ssz

open Spec

/-- A string was hashed in computing a root from a node and a branch whose hash is a number below
`2^64`, so has at least 24 zero bytes. -/
def HashesToNumber (H : Bytes → Node) (g : Nat) (n : Node) (branch : List Node) : Prop :=
  ∃ s ∈ climbInputs H g n branch, ∃ m < 2 ^ 64, H s = pad32 (leBytes 32 m)

theorem climbInputs_cat {H : Bytes → Node} {a : Nat} {cs : List Node} : ∀ (bs : List Node) {b : Nat}
    (n : Node), 1 ≤ b → bs.length = Nat.log2 b →
    climbInputs H (gcat a b) n (bs ++ cs) = climbInputs H b n bs ++ climbInputs H a (climb H b n bs) cs
  | [], b, n, hb, hl => by
    obtain rfl : b = 1 := by
      have := (Nat.log2_eq_iff (by omega)).1 hl.symm
      simp at this
      omega
    rw [gcat_one]
    rfl
  | c :: bs, b, n, hb, hl => by
    have hb' : 1 < b := by
      rcases Nat.lt_or_eq_of_le hb with h | h
      · exact h
      · subst h; cases hl
    obtain ⟨h1, h2⟩ := gcat_half (g := a) hb'
    rw [List.cons_append, climbInputs, climbInputs, climb, h1, h2]
    simp only [List.cons_append]
    rw [climbInputs_cat bs _ (by omega) (by rw [log2_half hb'] at hl; simpa using hl)]
    congr 3
    split <;> rfl

/-- Climbing by at least one step ends in a hash. -/
theorem climb_hash {H : Bytes → Node} : ∀ (bs : List Node) (g : Nat) (n : Node), bs ≠ [] →
    ∃ s ∈ climbInputs H g n bs, climb H g n bs = H s
  | [], _, _, h => absurd rfl h
  | [b], g, n, _ => by
    refine ⟨_, List.mem_cons_self .., ?_⟩
    rw [climb, climb]
    split <;> rfl
  | b :: c :: bs, g, n, _ => by
    obtain ⟨s, h1, h2⟩ := climb_hash (H := H) (c :: bs) (g / 2)
      (if g % 2 = 0 then H (n.1 ++ b.1) else H (b.1 ++ n.1)) (by simp)
    refine ⟨s, List.mem_cons_of_mem _ ?_, by rw [climb, h2]⟩
    split at h1 <;> rename_i hp
    · simpa only [hp, if_true] using h1
    · simpa only [hp, if_false] using h1

/-- No proof for an index below a length or selector verifies, unless the hash function has a
collision or takes a number as value. -/
theorem below_number {H : Bytes → Node} {t : MTree} {g : Nat} {n : Node} {bs : List Node}
    (h : BelowNumber t g) (hl : bs.length = Nat.log2 g) (hc : climb H g n bs = t.root H) :
    CollideBranch H t g n bs ∨ HashesToNumber H g n bs := by
  obtain ⟨a, b, m, ha, hb, hm, hs, rfl⟩ := h
  rw [log2_gcat ha (Nat.le_of_lt hb)] at hl
  obtain ⟨xs, ys, rfl, hx⟩ : ∃ xs ys, bs = xs ++ ys ∧ xs.length = Nat.log2 b :=
    ⟨bs.take (Nat.log2 b), bs.drop (Nat.log2 b), (List.take_append_drop _ _).symm, by
      rw [List.length_take]; omega⟩
  rw [List.length_append] at hl
  rw [climb_cat xs n (Nat.le_of_lt hb) hx] at hc
  have hin := climbInputs_cat (H := H) (a := a) (cs := ys) xs n (Nat.le_of_lt hb) hx
  rcases climb_sound hs (by omega) hc with ⟨h1, _⟩ | ⟨x, h1, y, h2, h3⟩
  · right
    obtain ⟨s, h2, h3⟩ := climb_hash (H := H) xs b n (by
      rintro rfl
      rw [log2_half hb] at hx
      cases hx)
    refine ⟨s, ?_, m, hm, ?_⟩
    · rw [hin]
      exact List.mem_append_left _ h2
    · rw [← h3, h1]
      rfl
  · left
    refine ⟨x, h1, y, ?_, h3⟩
    rw [hin]
    exact List.mem_append_right _ h2

/-- C57: the prover answers only at the nodes of the tree and below lengths and selectors. -/
theorem C57_where_partial (E : Env) (t : Ty) (v : t.Val) (g : Nat) (pr : Prover) (hl : Legal t)
    (hb : Bounded t) (hs : Shallow t) (hf : Flat t) (hv : Valid t v) (hm : InMemory t v)
    (hg : g < 2 ^ 64) (h : computeProof E (t.impl E) v (Prover.ofIndex g) = .ok pr) :
    pr.proof.index = g ∧ pr.witness = (treeBy packs t v).root E.sha256 ∧
    ((∃ u, (treeBy packs t v).sub g = some u) ∨ BelowNumber (treeBy packs t v) g) := by
  rw [C57_exact_partial E t v g hl hb hs hv hm hg] at h
  obtain ⟨a, h1, h2⟩ := Res.bind_eq_ok.1 h
  cases h2
  exact ⟨rfl, congrArg (MTree.root E.sha256) (layer_tree t v (flat_sameDepth t hf)),
    known E.sha256 t v hl hf hv hm g a h1⟩

/-- C57, which of the proofs verify, for every index: those for a node of the tree and no others,
unless the hash function has a collision or takes a number as value. -/
theorem C57_verifies_partial (E : Env) (t : Ty) (v : t.Val) (g : Nat) (pr : Prover) (hl : Legal t)
    (hb : Bounded t) (hs : Shallow t) (hf : Flat t) (hv : Valid t v) (hm : InMemory t v)
    (hg : g < 2 ^ 64) (h : computeProof E (t.impl E) v (Prover.ofIndex g) = .ok pr) :
    ((∃ u, (treeBy packs t v).sub g = some u) → pr.proof.verify E pr.witness = .ok ()) ∧
    (pr.proof.verify E pr.witness = .ok () → (∃ u, (treeBy packs t v).sub g = some u) ∨
      CollideBranch E.sha256 (treeBy packs t v) g pr.proof.leaf pr.proof.branch ∨
      HashesToNumber E.sha256 g pr.proof.leaf pr.proof.branch) := by
  obtain ⟨hi, hw, hk⟩ := C57_where_partial E t v g pr hl hb hs hf hv hm hg h
  constructor
  · rintro ⟨u, hu⟩
    rw [C57_node_partial E t v g u hl hb hs hf hv hm hu hg] at h
    cases h
    exact C40_complete E _ u g hg hu
  · intro hver
    rcases hk with hn | hn
    · exact .inl hn
    · right
      rw [verify_eq E _ _ (by rw [hi]; exact hg), hi, hw] at hver
      split at hver
      · cases hver
      · split at hver
        · rename_i hc
          exact below_number hn hc.1 hc.2
        · cases hver

/-- C37, which proofs verify, for every path: those for whose index the tree of the value has a node
and no others, unless the hash function has a collision or takes a number as value. -/
theorem C37_verifies_iff_partial (E : Env) (t : Ty) (v : t.Val) (path : List PathElement) (p : Proof)
    (w : Node) (hl : Legal t) (hb : Bounded t) (hs : Shallow t) (hf : Flat t) (hv : Valid t v)
    (hm : InMemory t v) (h : prove E (t.impl E) v path = .ok (p, w)) :
    ((∃ u, (treeBy packs t v).sub p.index = some u) → p.verify E w = .ok ()) ∧
    (p.verify E w = .ok () → (∃ u, (treeBy packs t v).sub p.index = some u) ∨
      CollideBranch E.sha256 (treeBy packs t v) p.index p.leaf p.branch ∨
      HashesToNumber E.sha256 p.index p.leaf p.branch) := by
  obtain ⟨g, pr, h1, h2, rfl, rfl⟩ := prove_eq_ok.1 h
  have hg := gi_lt E (show 1 < 2 ^ 64 by decide) h1
  obtain ⟨hi, -, -⟩ := C57_where_partial E t v g pr hl hb hs hf hv hm hg h2
  rw [hi]
  exact C57_verifies_partial E t v g pr hl hb hs hf hv hm hg h2

/-- C38: where the proof verifies, its leaf and branch are those of the tree at its index, with the
same two exceptions. -/
theorem C38_verified_partial (E : Env) (t : Ty) (v : t.Val) (path : List PathElement) (p : Proof)
    (w : Node) (hl : Legal t) (hb : Bounded t) (hs : Shallow t) (hf : Flat t) (hv : Valid t v)
    (hm : InMemory t v) (h : prove E (t.impl E) v path = .ok (p, w))
    (hver : p.verify E w = .ok ()) :
    (∃ u, (treeBy packs t v).sub p.index = some u ∧ p.leaf = u.root E.sha256 ∧
      p.branch = (treeBy packs t v).branchAt E.sha256 p.index) ∨
    CollideBranch E.sha256 (treeBy packs t v) p.index p.leaf p.branch ∨
    HashesToNumber E.sha256 p.index p.leaf p.branch := by
  rcases (C37_verifies_iff_partial E t v path p w hl hb hs hf hv hm h).2 hver with ⟨u, hu⟩ | hc
  · left
    obtain ⟨g, pr, h1, h2, rfl, rfl⟩ := prove_eq_ok.1 h
    have hg := gi_lt E (show 1 < 2 ^ 64 by decide) h1
    obtain ⟨hi, -, -⟩ := C57_where_partial E t v g pr hl hb hs hf hv hm hg h2
    rw [hi] at hu ⊢
    rw [C57_node_partial E t v g u hl hb hs hf hv hm hu hg] at h2
    cases h2
    exact ⟨u, hu, rfl, rfl⟩
  · exact .inr hc

/-- The two kinds of proof exist: for the path of `C37_verifies_refuted` the index is below the
selector of an `Option`, and for the same enum the path to the payload has a node. -/
example : BelowNumber (treeBy packs trapTy trapVal) 10 ∧
    ∃ u, (treeBy packs trapTy trapVal).sub 2 = some u := by
  refine ⟨⟨5, 2, 1, by decide, by decide, by decide, ?_, by decide⟩, ?_⟩
  · simp [trapTy, trapVal, treeBy, treeByV, MTree.sub]
  · exact ⟨_, node_sub_left⟩

example (E : Env) : generalizedIndex (trapTy.impl E) trapPath = .ok 10 := by
  obtain ⟨d, H⟩ := E
  cases d <;> with_unfolding_all rfl

end Ssz
