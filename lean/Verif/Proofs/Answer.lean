import Verif.Proofs.ProvePath
import Verif.Spec.Prover

/-!
# The prover at any index
-/

namespace Ssz

open Spec

/-! ## The tree of a layer -/

theorem full_take {d : Nat} : ∀ (ts : List MTree), full d (ts.take (2 ^ d)) = full d ts := by
  induction d with
  | zero => intro ts; cases ts <;> rfl
  | succ d ih =>
    intro ts
    have hp : 2 ^ (d + 1) = 2 ^ d + 2 ^ d := by rw [Nat.pow_succ]; omega
    have h0 := Nat.two_pow_pos d
    rw [full, full, List.take_take, Nat.min_eq_left (by omega), List.drop_take,
      show 2 ^ (d + 1) - 2 ^ d = 2 ^ d by omega, ih (ts.drop _)]

theorem full_some {d : Nat} {ts : List MTree} {g : Nat} (h1 : 1 ≤ g) (h2 : g < 2 ^ (d + 1)) :
    ∃ u, (full d ts).sub g = some u := by
  by_cases h : g < 2 ^ d
  · obtain ⟨l, r, hlr⟩ := full_sub_node (ts := ts) h1 h
    exact ⟨_, hlr⟩
  · rw [Nat.pow_succ] at h2
    have := full_sub (d := d) (ts := ts) (i := g - 2 ^ d) (by omega)
    rw [show 2 ^ d + (g - 2 ^ d) = g by omega] at this
    exact ⟨_, this⟩

/-- The list has the nodes of the layer, in breadth-first order. -/
def Nodes (H : Bytes → Node) (l : Layer) (ns : List Node) : Prop :=
  ns.length = 2 ^ (l.height + 1) - 1 ∧
    ∀ g, 1 ≤ g → g < 2 ^ (l.height + 1) → ns[g - 1]? = some (l.node H g)

/-- The layer given by the functions that the prover uses. -/
def layerOf (ts : List MTree) (c : Nat) (deco : Option Nat) : Layer := ⟨depthFor c, ts, deco⟩

theorem layerOf_height (ts : List MTree) (c : Nat) (deco : Option Nat) :
    (layerOf ts c deco).height = partsDepth c deco := rfl

/-- If there is no room for the chunks, `compute_merkle_tree` panics. -/
theorem computeMerkleTree_over (E : Env) {d : Nat} {ns : List Node} (hd : d ≤ 57)
    (hl : 2 ^ d < ns.length) : computeMerkleTree E (flat ns) (2 ^ d) = .panic := by
  have h0 := Nat.two_pow_pos d
  have h57 := pow57 hd
  unfold computeMerkleTree
  rw [show ((flat ns).length % 32 == 0) = true by rw [flat_length]; simp, Env.debugAssert_true]
  rw [nextPowerOfTwo_ok (by omega), depthFor_pow]
  simp only [Res.lift_ok, Res.ok_bind, beq_self_eq_true, Env.debugAssert_true, ite_self]
  rw [Env.mul_eq_ok (by simp only [usizeMod]; omega)]
  simp only [Res.lift_ok, Res.ok_bind]
  rw [Env.sub_eq_ok (by omega)]
  simp only [Res.lift_ok, Res.ok_bind]
  rw [Env.sub_eq_ok (by omega)]
  simp only [Res.lift_ok, Res.ok_bind]
  rw [Env.mul_eq_ok (by simp only [usizeMod]; omega)]
  simp only [Res.lift_ok, Res.ok_bind]
  rw [Env.mul_eq_ok (by simp only [usizeMod]; omega)]
  simp only [Res.lift_ok, Res.ok_bind]
  rw [zeros, if_pos (by simp only [isizeMax1]; omega)]
  simp only [Res.ok_bind]
  cases hs : E.add ((2 * 2 ^ d - 1 - 2 ^ d) * 32) (flat ns).length with
  | err e => exact e.elim
  | panic => rfl
  | ok stop =>
    simp only [Res.lift_ok, Res.ok_bind]
    have hcopy : ∀ (b : Bytes), b.length = (2 * 2 ^ d - 1) * 32 →
        (copyInto b ((2 * 2 ^ d - 1 - 2 ^ d) * 32) stop (flat ns) : Res MerkError Bytes) = .panic := by
      intro b hb
      rw [copyInto, if_neg]
      rintro ⟨h1, h2, h3⟩
      rw [hb] at h2
      rw [flat_length] at h3
      omega
    rw [hcopy _ (by simp)]
    rfl

theorem builtTree_nodes {α : Type} {E : Env} {T : SimpleSerialize α} {v : α} {ts : List MTree} {c : Nat}
    {deco : Option Nat} (h : Pre E T v ts c deco) (hf : (layerOf ts c deco).Fits) :
    ∃ ns, builtTree E (flat (ts.map (·.root E.sha256))) (2 ^ partsDepth c deco) deco = .ok (flat ns) ∧
      Nodes E.sha256 (layerOf ts c deco) ns := by
  have hd := depthFor_le h.countLe
  cases deco with
  | none =>
    obtain ⟨ns, h1, h2⟩ := computeMerkleTree_ok E (d := depthFor c) (ts := ts) (by omega) hf
    refine ⟨ns, ?_, h2.1, fun g hg1 hg2 => ?_⟩
    · rw [builtTree]
      show (computeMerkleTree E _ (2 ^ depthFor c) >>= _) = _
      rw [h1, Res.ok_bind]
    · obtain ⟨u, hu⟩ := full_some (d := depthFor c) (ts := ts) hg1 hg2
      rw [h2.2 g u hu hg2]
      show _ = some (((full (depthFor c) ts).nodeAt E.sha256 g).getD zeroNode)
      rw [MTree.nodeAt, hu]
      rfl
  | some m =>
    obtain ⟨ns, h1, h2⟩ := computeMerkleTree_ok E (d := depthFor c + 1) (ts := ts) (by omega) hf
    have hfull : full (depthFor c + 1) ts =
        .node (full (depthFor c) ts) (full (depthFor c) (ts.drop (2 ^ depthFor c))) := by
      rw [full, full_take]
    have h2' := h2
    rw [hfull] at h2'
    obtain ⟨ms, h3, h4, h5⟩ := mixIn_ok E (by omega) h2' (h.decorationLt m rfl)
    have hlen := h2.1
    have hp2 : 2 ^ (depthFor c + 1 + 1) = 2 ^ depthFor c * 4 := by
      rw [Nat.pow_succ, Nat.pow_succ]; omega
    have h0 := Nat.two_pow_pos (depthFor c)
    refine ⟨ms, ?_, h4.1, fun g hg1 hg2 => ?_⟩
    · rw [builtTree]
      show (computeMerkleTree E _ (2 ^ (depthFor c + 1)) >>= _) = _
      rw [h1, Res.ok_bind]
      exact h3
    · show _ = some (if g = 1 then (MTree.node (full (depthFor c) ts) (numLeaf m)).root E.sha256
        else if g = 3 then (numLeaf m).root E.sha256
        else ((full (depthFor c + 1) ts).nodeAt E.sha256 g).getD zeroNode)
      rw [h5]
      by_cases hg : g = 1
      · subst hg
        rw [if_pos rfl, List.getElem?_set_self (by rw [List.length_set]; omega)]
      · rw [if_neg hg, List.getElem?_set_ne (by omega)]
        by_cases hg3 : g = 3
        · subst hg3
          rw [if_pos rfl, List.getElem?_set_self (by omega)]
        · rw [if_neg hg3, List.getElem?_set_ne (by omega)]
          obtain ⟨u, hu⟩ := full_some (d := depthFor c + 1) (ts := ts) hg1 hg2
          rw [h2.2 g u hu hg2, MTree.nodeAt, hu]
          rfl

theorem builtTree_over {α : Type} {E : Env} {T : SimpleSerialize α} {v : α} {ts : List MTree} {c : Nat}
    {deco : Option Nat} (h : Pre E T v ts c deco) (hf : ¬ (layerOf ts c deco).Fits) :
    builtTree E (flat (ts.map (·.root E.sha256))) (2 ^ partsDepth c deco) deco = .panic := by
  rw [builtTree, computeMerkleTree_over E (partsDepth_le h.countLe deco) (by
    rw [List.length_map]
    exact Nat.not_le.1 hf)]
  rfl

theorem nodes_get (E : Env) {l : Layer} {ns : List Node} {g : Nat} (hd : l.height ≤ 57)
    (h : Nodes E.sha256 l ns) (h1 : 1 ≤ g) (hg : g < 2 ^ (l.height + 1)) :
    Tree.get E (flat ns) g = .ok (l.node E.sha256 g).1 := by
  have h57 := pow57 hd
  have hn := h.2 g h1 hg
  rw [Nat.pow_succ] at hg
  unfold Tree.get
  rw [Env.sub_eq_ok h1]
  simp only [Res.lift_ok, Res.ok_bind]
  rw [Env.mul_eq_ok (by simp only [usizeMod]; omega)]
  simp only [Res.lift_ok, Res.ok_bind]
  rw [Env.mul_eq_ok (by simp only [usizeMod]; omega)]
  simp only [Res.lift_ok, Res.ok_bind]
  exact slice_flat (i := g - 1) hn rfl (by omega)

theorem nodes_siblings (E : Env) {l : Layer} {ns : List Node} (hd : l.height ≤ 57)
    (h : Nodes E.sha256 l ns) : ∀ (k g : Nat) (branch : List Node), 1 ≤ g → Nat.log2 g = k →
    k ≤ l.height →
    siblingsLoop E (flat ns) k g branch = .ok (branch ++ l.branch E.sha256 g)
  | 0, g, branch, h1, hk, _ => by
    have h2 := (log2_spec (d := 0) (by omega)).1 hk
    rw [siblingsLoop, Layer.branch, if_pos (by omega), List.append_nil]
  | k + 1, g, branch, h1, hk, hkd => by
    have h2 := (log2_spec (by omega)).1 hk
    have hg : 1 < g := by
      have := Nat.two_pow_pos k
      rw [Nat.pow_succ] at h2; omega
    have hgd : g < 2 ^ (l.height + 1) :=
      Nat.lt_of_lt_of_le h2.2 (Nat.pow_le_pow_right (by decide) (by omega))
    have h57 := pow57 hd
    have hod : other g < 2 ^ (l.height + 1) := by
      have : 2 ^ (l.height + 1) = 2 * 2 ^ l.height := by rw [Nat.pow_succ]; omega
      rw [other]; split <;> omega
    have hget := nodes_get E hd h (Nat.le_of_lt (other_lt hg)) hod
    have hrest := nodes_siblings E hd h k (g / 2) (branch ++ [l.node E.sha256 (other g)]) (by omega)
      (by rw [log2_half hg] at hk; omega) (by omega)
    have hbr : l.branch E.sha256 g = l.node E.sha256 (other g) :: l.branch E.sha256 (g / 2) := by
      rw [Layer.branch, if_neg (by omega)]
    rw [siblingsLoop, hbr]
    by_cases hp : g % 2 = 0
    · rw [if_neg (not_not.2 hp), Env.add_eq_ok (by
        rw [Nat.pow_succ] at hgd; simp only [usizeMod]; omega)]
      simp only [Res.lift_ok, Res.ok_bind]
      rw [show g + 1 = other g by rw [other, if_pos hp], hget]
      simp only [Res.ok_bind, toNode_node]
      rw [hrest, List.append_assoc]
      rfl
    · rw [if_pos hp, Env.sub_eq_ok (by omega)]
      simp only [Res.lift_ok, Res.ok_bind]
      rw [show g - 1 = other g by rw [other, if_neg hp], hget]
      simp only [Res.ok_bind, toNode_node]
      rw [hrest, List.append_assoc]
      rfl

theorem node_one (H : Bytes → Node) (l : Layer) : l.node H 1 = l.tree.root H := by
  obtain ⟨d, ts, m⟩ := l
  cases m with
  | none =>
    show ((full d ts).nodeAt H 1).getD zeroNode = (full d ts).root H
    rw [MTree.nodeAt, sub_one]
    rfl
  | some m => rfl

/-! ## One layer -/

/-- The outcome of `compute_proof` that an answer stands for. -/
def outcome (pr : Prover) (w : Node) : Res MerkError (Node × List Node) → Res MerkError Prover
  | .ok a => .ok { proof := { leaf := a.1, branch := pr.proof.branch ++ a.2, index := pr.proof.index }
                   witness := w }
  | .err e => .err e
  | .panic => .panic

theorem finish_fits {α : Type} {E : Env} {T : SimpleSerialize α} {v : α} {ts : List MTree}
    {c : Nat} {deco : Option Nat} (h : Pre E T v ts c deco) (hf : (layerOf ts c deco).Fits)
    {g l : Nat} {p : Prover} (hl0 : 1 ≤ l) (hl : l < 2 ^ (partsDepth c deco + 1)) (hg : l < g ∨ l = g) :
    finishProof E T v (2 ^ partsDepth c deco) g (Nat.log2 l) l p =
      .ok { proof := { leaf := if l < g then p.proof.leaf else (layerOf ts c deco).node E.sha256 l
                       branch := p.proof.branch ++ (layerOf ts c deco).branch E.sha256 l
                       index := p.proof.index }
            witness := (layerOf ts c deco).tree.root E.sha256 } := by
  obtain ⟨ns, h1, h2⟩ := builtTree_nodes h hf
  have hd : (layerOf ts c deco).height ≤ 57 := partsDepth_le h.countLe deco
  have hlog : Nat.log2 l ≤ (layerOf ts c deco).height := by
    have := (Nat.log2_lt (n := l) (by omega)).2 hl
    rw [layerOf_height]
    omega
  unfold finishProof
  rw [h.chunks, Res.ok_bind, h.decoration, h1]
  simp only [Res.ok_bind]
  rw [nodes_siblings E hd h2 _ l p.proof.branch hl0 rfl hlog,
    nodes_get E hd h2 (Nat.le_refl 1) (Nat.one_lt_two_pow (by omega))]
  simp only [Res.ok_bind, toNode_node, node_one]
  by_cases hlt : l < g
  · simp only [hlt, decide_true, Bool.not_true, Bool.false_eq_true, if_false, if_true]
  · obtain rfl : l = g := by omega
    simp only [hlt, decide_false, Bool.not_false, if_true, if_false]
    rw [nodes_get E hd h2 hl0 hl]
    simp only [Res.ok_bind, toNode_node]

theorem finish_over {α : Type} {E : Env} {T : SimpleSerialize α} {v : α} {ts : List MTree}
    {c : Nat} {deco : Option Nat} (h : Pre E T v ts c deco) (hf : ¬ (layerOf ts c deco).Fits)
    {g l d : Nat} {p : Prover} :
    finishProof E T v (2 ^ partsDepth c deco) g d l p = .panic := by
  unfold finishProof
  rw [h.chunks, Res.ok_bind, h.decoration, builtTree_over h hf]
  rfl

/-- One layer of the prover. -/
theorem layer_answer {α : Type} {E : Env} {T : SimpleSerialize α} {v : α} {ts : List MTree}
    {c : Nat} {deco : Option Nat} (h : Pre E T v ts c deco)
    {inner : Nat → Nat → Res MerkError (Node × List Node)}
    (hi : ∀ (q : Nat) (pr : Prover), pr.proof.index < 2 ^ 64 →
      ∃ w, T.proveElement v q pr = outcome pr w (inner q pr.proof.index))
    (pr : Prover) (hg : pr.proof.index < 2 ^ 64) :
    computeProof E T v pr = outcome pr ((layerOf ts c deco).tree.root E.sha256)
      ((layerOf ts c deco).answer E.sha256 inner pr.proof.index) := by
  have hd := partsDepth_le h.countLe deco
  rcases Nat.eq_zero_or_pos pr.proof.index with h0 | h0
  · rw [computeProof_eq h, h0, coordinates_zero E hd, Layer.answer, if_pos rfl]
    rfl
  · rw [Layer.answer, if_neg (by omega), layerOf_height]
    obtain ⟨e, j, hj, hge⟩ := exists_pow_add h0
    have hlog : Nat.log2 pr.proof.index = e := by rw [hge, log2_pow_add hj]
    by_cases he : e ≤ partsDepth c deco
    · have hlt : pr.proof.index < 2 ^ (partsDepth c deco + 1) := by
        have := Nat.pow_le_pow_right (show 0 < 2 by decide) he
        rw [hge, Nat.pow_succ]; omega
      have hsh : shrinkIndex (2 ^ (partsDepth c deco + 1) - 1) pr.proof.index = pr.proof.index :=
        shrink_id (by omega)
      rw [computeProof_eq h, coordinates_ok E hd (by rw [hsh]; exact h0) (by rw [hsh]; exact hg), hsh,
        Res.ok_bind]
      have hin : innerProof E T v pr (Nat.log2 pr.proof.index)
          (pr.proof.index % 2 ^ Nat.log2 pr.proof.index) pr.proof.index = .ok pr :=
        if_neg (Nat.lt_irrefl _)
      simp only [hin, Res.ok_bind]
      rw [if_pos (by omega)]
      by_cases hf : (layerOf ts c deco).Fits
      · rw [finish_fits h hf h0 hlt (Or.inr rfl), if_pos hf, if_neg (Nat.lt_irrefl _)]
        rfl
      · rw [finish_over h hf, if_neg hf]
        rfl
    · obtain ⟨k, rfl⟩ : ∃ k, e = partsDepth c deco + (k + 1) := ⟨e - partsDepth c deco - 1, by omega⟩
      have hq : j / 2 ^ (k + 1) < 2 ^ partsDepth c deco := by
        rw [Nat.div_lt_iff_lt_mul (Nat.two_pow_pos _), ← Nat.pow_add]; exact hj
      have hr := Nat.mod_lt j (Nat.two_pow_pos (k + 1))
      have hcat : pr.proof.index = gcat (2 ^ partsDepth c deco + j / 2 ^ (k + 1))
          (2 ^ (k + 1) + j % 2 ^ (k + 1)) := by
        rw [gcat_pow hr, hge, Nat.pow_add, Nat.add_mul, Nat.add_assoc, Nat.mul_comm (j / _),
          Nat.div_add_mod]
      have hdiv : pr.proof.index / 2 ^ (k + 1) = 2 ^ partsDepth c deco + j / 2 ^ (k + 1) := by
        rw [hge, Nat.pow_add, Nat.mul_comm, Nat.mul_add_div (Nat.two_pow_pos _)]
      have hmod : pr.proof.index % 2 ^ (k + 1) = j % 2 ^ (k + 1) := by
        rw [hge, Nat.pow_add, Nat.mul_comm, Nat.mul_add_mod]
      rw [if_neg (by omega), hlog,
        show partsDepth c deco + (k + 1) - partsDepth c deco = k + 1 by omega, hdiv, hmod,
        Nat.add_sub_cancel_left]
      generalize j / 2 ^ (k + 1) = q at *
      generalize j % 2 ^ (k + 1) = r at *
      have h1 := Nat.two_pow_pos (partsDepth c deco)
      have h2 : 2 ^ (k + 1) = 2 ^ k * 2 := Nat.pow_succ 2 k
      have h3 := Nat.two_pow_pos k
      have hb : 1 < 2 ^ (k + 1) + r := by omega
      have hle := le_gcat_right (g := 2 ^ partsDepth c deco + q) (h := 2 ^ (k + 1) + r) (by omega)
        (by omega)
      rw [inner_eq h hq hb hg hcat]
      have hlt : 2 ^ partsDepth c deco + q < pr.proof.index := by
        rw [hcat, gcat_pow hr, h2]
        have := Nat.mul_le_mul_left (2 ^ partsDepth c deco + q) (show 2 ≤ 2 ^ k * 2 by omega)
        omega
      obtain ⟨w, hw⟩ := hi q { pr with proof := { pr.proof with index := 2 ^ (k + 1) + r } } (by
        show 2 ^ (k + 1) + r < 2 ^ 64
        omega)
      rw [hw]
      show outcome _ w (inner q (2 ^ (k + 1) + r)) >>= _ = _
      cases inner q (2 ^ (k + 1) + r) with
      | err e => rfl
      | panic => rfl
      | ok a =>
        simp only [outcome, Res.ok_bind]
        by_cases hf : (layerOf ts c deco).Fits
        · rw [if_pos hf]
          have := finish_fits h hf (g := pr.proof.index) (l := 2 ^ partsDepth c deco + q)
            (p := { proof := { leaf := a.1, branch := pr.proof.branch ++ a.2, index := pr.proof.index }
                    witness := w }) (by omega) (by rw [Nat.pow_succ]; omega) (Or.inl hlt)
          rw [log2_pow_add hq, if_pos hlt] at this
          rw [this]
          simp only [List.append_assoc]
        · rw [if_neg hf, finish_over h hf]

/-! ## All types -/

/-- The prover's functions give the layer and the answers of the parts. -/
def HasLayer {α : Type} (E : Env) (T : SimpleSerialize α) (v : α) (l : Layer)
    (inner : Nat → Nat → Res MerkError (Node × List Node)) : Prop :=
  ∃ ts c deco, Pre E T v ts c deco ∧ layerOf ts c deco = l ∧
    ∀ (q : Nat) (pr : Prover), pr.proof.index < 2 ^ 64 →
      ∃ w, T.proveElement v q pr = outcome pr w (inner q pr.proof.index)

theorem HasLayer.proves {α : Type} {E : Env} {T : SimpleSerialize α} {v : α} {l : Layer}
    {inner : Nat → Nat → Res MerkError (Node × List Node)} (h : HasLayer E T v l inner) (pr : Prover)
    (hg : pr.proof.index < 2 ^ 64) :
    computeProof E T v pr = outcome pr (l.tree.root E.sha256) (l.answer E.sha256 inner pr.proof.index) := by
  obtain ⟨ts, c, deco, h1, rfl, h2⟩ := h
  exact layer_answer h1 h2 pr hg

theorem basic_layer {α : Type} {E : Env} {T : SimpleSerialize α} {v : α} {n : Node}
    (h1 : T.chunkCount = .ok 1) (h2 : T.decoration v = none) (h3 : T.chunks v = .ok n.1)
    (h4 : T.proveElement = defaultProveElement) :
    HasLayer E T v (leafLayer n) (fun _ _ => .err .noInnerElement) :=
  ⟨[.leaf n], 1, none, (basic_partsOnly h1 h2 h3).pre, by simp [layerOf, leafLayer, depthFor],
    fun _ _ _ => ⟨zeroNode, by rw [h4]; rfl⟩⟩

theorem coll_layer {E : Env} {t : Ty} {n : Nat} {vs : List t.Val}
    (ih : ∀ x ∈ vs, HasLayer E (t.impl E) x (layer t x) (inner E.sha256 t x)) (q : Nat) (pr : Prover)
    (hg : pr.proof.index < 2 ^ 64) :
    ∃ w, collectionProveElement E (t.impl E) n vs q pr = outcome pr w
      (elemAnswer n vs (fun x => (layer t x).answer E.sha256 (inner E.sha256 t x)) q pr.proof.index) := by
  rw [collectionProveElement, elemAnswer]
  by_cases hq : n ≤ q
  · exact ⟨zeroNode, by rw [if_pos hq, if_pos hq]; rfl⟩
  · rw [if_neg hq, if_neg hq]
    cases hx : vs[q]? with
    | none => exact ⟨zeroNode, by rw [index, hx]; rfl⟩
    | some x =>
      refine ⟨(layer t x).tree.root E.sha256, ?_⟩
      rw [index_ok hx, Res.ok_bind]
      exact (ih x (List.mem_of_getElem? hx)).proves pr hg

theorem vector_layer {α : Type} {E : Env} {T : SimpleSerialize α} {v : α} {t : Ty} {n : Nat}
    {vs : List t.Val} (hl : Legal t) (hs : packs t = true → fixedLen t < 2 ^ 32)
    (hv : ∀ v ∈ vs, Valid t v) (hh : held t vs.length) (hc : itemCount prims t n ≤ 2 ^ 56)
    (hr : ∀ v ∈ vs, (t.impl E).hashTreeRoot v = .ok ((treeBy packs t v).root E.sha256))
    (ih : ∀ x ∈ vs, HasLayer E (t.impl E) x (layer t x) (inner E.sha256 t x))
    {deco : Option Nat} (hd : ∀ m, deco = some m → m < 2 ^ 64)
    (h1 : T.chunkCount = itemChunkCount E (t.impl E) n) (h2 : T.decoration v = deco)
    (h3 : T.chunks v = assembleChunks E (t.impl E) vs)
    (h4 : T.proveElement v = collectionProveElement E (t.impl E) n vs) :
    HasLayer E T v ⟨depthFor (itemCount prims t n), collParts t vs, deco⟩
      (elemAnswer n vs (fun x => (layer t x).answer E.sha256 (inner E.sha256 t x))) := by
  refine ⟨collParts t vs, itemCount prims t n, deco,
    ⟨by rw [h1, itemChunkCount_eq, countCalc_ok (by unfold itemCount at hc; omega)], hc, h2, hd, ?_⟩, rfl, ?_⟩
  · rw [h3, assembleChunks_ok E hl hs hv hh hr]
    rfl
  · rw [h4]
    exact coll_layer ih

theorem bits_layer {α : Type} {E : Env} {T : SimpleSerialize α} {v : α} {n : Nat} {bits : List Bool}
    {deco : Option Nat} (hc : (n + 255) / 256 ≤ 2 ^ 56)
    (hm : ∀ m, deco = some m → m < 2 ^ 64) (h1 : T.chunkCount = .ok ((n + 255) / 256))
    (h2 : T.decoration v = deco) (h3 : T.chunks v = .ok (flat (chunkify (Spec.packBits bits))))
    (h4 : T.proveElement = defaultProveElement) :
    HasLayer E T v ⟨depthFor ((n + 255) / 256), leaves (Spec.packBits bits), deco⟩
      (fun _ _ => .err .noInnerElement) :=
  ⟨_, _, deco, ⟨h1, hc, h2, hm, by rw [h3, leaves_root]⟩, rfl,
    fun _ _ _ => ⟨zeroNode, by rw [h4]; rfl⟩⟩

theorem pair_layer {α : Type} {E : Env} {T : SimpleSerialize α} {v : α} {s : MTree} {m : Nat}
    {inner : Nat → Nat → Res MerkError (Node × List Node)}
    (hm : m < 2 ^ 64) (h1 : T.chunkCount = .ok 1) (h2 : T.decoration v = some m)
    (h3 : T.chunks v = .ok (s.root E.sha256).1)
    (h4 : ∀ (q : Nat) (pr : Prover), pr.proof.index < 2 ^ 64 →
      ∃ w, T.proveElement v q pr = outcome pr w (inner q pr.proof.index)) :
    HasLayer E T v ⟨0, [s], some m⟩ inner :=
  ⟨[s], 1, some m, ⟨h1, by decide, h2, by rintro _ ⟨⟩; exact hm, by rw [h3]; simp [flat]⟩,
    by simp [layerOf, depthFor], h4⟩

theorem count_implsV (E : Env) : ∀ vs : Variants, (vs.impls E).count = countV vs
  | .nil => rfl
  | .unit rest => by
    show 1 + (rest.impls E).count = _
    rw [count_implsV E rest, countV, Nat.add_comm]
  | .data _ rest => by
    show 1 + (rest.impls E).count = _
    rw [count_implsV E rest, countV, Nat.add_comm]

theorem zero_layer (E : Env) : HasLayer E (SimpleSerialize.uint .usize) (0 : BitVec 64)
    (leafLayer zeroNode) (fun _ _ => .err .noInnerElement) :=
  basic_layer rfl rfl rfl rfl

mutual

theorem has_layer (E : Env) : ∀ (t : Ty) (v : t.Val), Legal t → Bounded t → Shallow t →
    Valid t v → InMemory t v → HasLayer E (t.impl E) v (layer t v) (inner E.sha256 t v)
  | .uint u, v, hl, hb, hs, hv, hm => by
    refine basic_layer (n := pad32 (enc (.uint u) v)) rfl rfl ?_ rfl
    show Res.ok (packBytes ([] ++ toLeBytes (bitsToBytes u.bits) v.toNat)) = _
    rw [toLeBytes_eq, List.nil_append]
    simp only [enc]
    congr 1
    rw [pad32_short (by cases u <;> simp [UintTy.bits])]
    cases u <;> simp [packBytes, bitsToBytes, UintTy.bits]
  | .u256, v, _, _, _, _, _ => by
    refine basic_layer (n := pad32 (enc .u256 v)) rfl rfl ?_ rfl
    show Res.ok (toLeBytes 32 (BitVec.toNat v)) = _
    rw [toLeBytes_eq, pad32_full (by simp [enc])]
    rfl
  | .bool, v, _, _, _, _, _ =>
    basic_layer (n := pad32 (enc .bool v)) rfl rfl (by cases v <;> rfl) rfl
  | .node, v, _, _, _, _, _ => basic_layer (n := v) rfl rfl rfl rfl
  | .array t n, v, hl, hb, hs, hv, hm =>
    vector_layer hl.2 hb.2 hv hm.1 hs.1
      (fun x hx => htr_ok E t x hl.2 hb.1 (hv x hx) (hm.2 x hx))
      (fun x hx => has_layer E t x hl.2 hb.1 hs.2 (hv x hx) (hm.2 x hx)) (by simp) rfl rfl rfl rfl
  | .vector t n, v, hl, hb, hs, hv, hm =>
    vector_layer hl.2 hb.2 hv.2 hm.1 hs.1
      (fun x hx => htr_ok E t x hl.2 hb.1 (hv.2 x hx) (hm.2 x hx))
      (fun x hx => has_layer E t x hl.2 hb.1 hs.2 (hv.2 x hx) (hm.2 x hx)) (by simp) rfl rfl rfl rfl
  | .list t n, v, hl, hb, hs, hv, hm =>
    vector_layer (t := t) (vs := v) hl hb.2.1 hv.2 hm.1 hs.1
      (fun x hx => htr_ok E t x hl hb.1 (hv.2 x hx) (hm.2 x hx))
      (fun x hx => has_layer E t x hl hb.1 hs.2 (hv.2 x hx) (hm.2 x hx))
      (deco := some (List.length v)) (by
        rintro _ ⟨⟩
        have := hm.1.1
        omega) rfl rfl rfl rfl
  | .bitvector n, v, hl, _, hs, hv, _ =>
    bits_layer (deco := none) hs (by simp) rfl rfl (Bitvector.packBits_ok hl hv) rfl
  | .bitlist n, v, _, _, hs, hv, hm =>
    bits_layer (deco := some v.live.length) hs (by rintro _ ⟨⟩; exact hm) rfl rfl
      (Bitlist.packBits_ok hv.1 hv.2) rfl
  | .option t, v, hl, hb, hs, hv, hm =>
    match v with
    | none => by
      refine pair_layer (s := .leaf zeroNode) (m := 0) (by decide) rfl rfl rfl fun q pr hg => ?_
      show ∃ w, (if q ≥ 2 then _ else _) = outcome pr w (if 2 ≤ q then _ else _)
      split
      · exact ⟨zeroNode, rfl⟩
      · exact ⟨_, (zero_layer E).proves pr hg⟩
    | some x => by
      refine pair_layer (s := treeBy packs t x) (m := 1) (by decide) rfl rfl ?_ fun q pr hg => ?_
      · show ((t.impl E).hashTreeRoot x).map (·.1) = _
        rw [htr_ok E t x hl hb (hv x rfl) (hm x rfl), Res.map_ok]
      · show ∃ w, (if q ≥ 2 then _ else _) = outcome pr w (if 2 ≤ q then _ else _)
        split
        · exact ⟨zeroNode, rfl⟩
        · exact ⟨_, (has_layer E t x hl hb hs (hv x rfl) (hm x rfl)).proves pr hg⟩
  | .newtype t, v, hl, hb, hs, hv, hm => by
    obtain ⟨ts, c, deco, h1, h2, h3⟩ := has_layer E t v hl hb hs hv hm
    exact ⟨ts, c, deco, ⟨h1.count, h1.countLe, h1.decoration, h1.decorationLt, h1.chunks⟩, h2, h3⟩
  | .container fs, v, hl, hb, hs, hv, hm => by
    have hc : (fs.impls E).assembleChunks v =
        .ok (flat ((treesByF packs fs v).map (·.root E.sha256))) := by
      unfold FieldImpls.assembleChunks
      rw [count_impls, ← flat_replicate]
      exact htrF_ok E fs v [] hl.2.2 hb.1 hv hm
    refine ⟨treesByF packs fs v, countF fs, none, ⟨?_, hs.1, rfl, by simp, hc⟩, rfl, fun q pr hg => ?_⟩
    · show Res.ok (fs.impls E).count = _
      rw [count_impls]
    · show ∃ w, (if q ≥ (fs.impls E).count then _ else _) = outcome pr w (innerF E.sha256 fs v q _)
      rw [count_impls]
      exact has_layerF E fs v hl.2.2 hb.1 hs.2 hv hm q pr hg
  | .union vs, v, hl, hb, hs, hv, hm => by
    have hcount : countV vs < 2 ^ 64 := by
      obtain ⟨hs, -⟩ := hl
      cases vs with
      | nil => exact hs.elim
      | unit rest => obtain ⟨_, _, h⟩ := hs; simp only [countV]; omega
      | data t rest => obtain ⟨_, h⟩ := hs; simp only [countV]; omega
    obtain ⟨s, m, h1, h2, h3, h4, h5⟩ := has_layerV E vs 0 v hl.2 hb hs hv hm (by omega)
    show HasLayer E _ v (layerV vs 0 v) _
    rw [h1]
    refine pair_layer h2 rfl (congrArg some h3) h4 fun q pr hg => ?_
    show ∃ w, (if q ≥ (vs.impls E).count then _ else _) = outcome pr w (if countV vs ≤ q then _ else _)
    rw [count_implsV]
    split
    · exact ⟨zeroNode, rfl⟩
    · exact h5 pr hg

theorem has_layerF (E : Env) : ∀ (fs : Fields) (v : fs.Val), LegalF fs → BoundedF fs →
    ShallowF fs → ValidF fs v → InMemoryF fs v → ∀ (q : Nat) (pr : Prover), pr.proof.index < 2 ^ 64 →
    ∃ w, (if q ≥ countF fs then .err .invalidInnerIndex else (fs.impls E).proveField E pr v q) =
      outcome pr w (innerF E.sha256 fs v q pr.proof.index)
  | .nil, _, _, _, _, _, _, q, pr, _ => ⟨zeroNode, rfl⟩
  | .cons _ t rest, v, hl, hb, hs, hv, hm, 0, pr, hg => by
    refine ⟨(layer t v.1).tree.root E.sha256, ?_⟩
    rw [if_neg (by simp [countF])]
    exact (has_layer E t v.1 hl.1 hb.1 hs.1 hv.1 hm.1).proves pr hg
  | .cons _ t rest, v, hl, hb, hs, hv, hm, q + 1, pr, hg => by
    obtain ⟨w, h⟩ := has_layerF E rest v.2 hl.2 hb.2 hs.2 hv.2 hm.2 q pr hg
    refine ⟨w, ?_⟩
    rw [← (show _ = outcome pr w (innerF E.sha256 (.cons _ t rest) v (q + 1) pr.proof.index) from h)]
    by_cases hq : q ≥ countF rest
    · rw [if_pos hq, if_pos (by rw [countF]; omega)]
    · rw [if_neg hq, if_neg (by rw [countF]; omega)]
      rfl

theorem has_layerV (E : Env) : ∀ (vs : Variants) (i : Nat) (v : vs.Val), LegalV vs → BoundedV vs →
    ShallowV vs → ValidV vs v → InMemoryV vs v → i + countV vs < 2 ^ 64 →
    ∃ s m, layerV vs i v = ⟨0, [s], some m⟩ ∧ m < 2 ^ 64 ∧
      (vs.impls E).decoration i v = m ∧ (vs.impls E).chunks v = .ok (s.root E.sha256).1 ∧
      ∀ pr : Prover, pr.proof.index < 2 ^ 64 →
        ∃ w, (vs.impls E).proveVariant E pr v = outcome pr w (innerV E.sha256 vs v pr.proof.index)
  | .nil, _, v, _, _, _, _, _, _ => Empty.elim v
  | .unit rest, i, .inl _, _, _, _, _, _, hc =>
    ⟨_, i, rfl, by omega, rfl, rfl, fun pr hg => ⟨_, (zero_layer E).proves pr hg⟩⟩
  | .unit rest, i, .inr v, hl, hb, hs, hv, hm, hc =>
    has_layerV E rest (i + 1) v hl hb hs hv hm (by simp only [countV] at hc; omega)
  | .data t rest, i, .inl v, hl, hb, hs, hv, hm, hc => by
    refine ⟨treeBy packs t v, i, rfl, by omega, rfl, ?_,
      fun pr hg => ⟨_, (has_layer E t v hl.1 hb.1 hs.1 hv hm).proves pr hg⟩⟩
    show ((t.impl E).hashTreeRoot v).map (·.1) = _
    rw [htr_ok E t v hl.1 hb.1 hv hm, Res.map_ok]
  | .data t rest, i, .inr v, hl, hb, hs, hv, hm, hc =>
    has_layerV E rest (i + 1) v hl.2 hb.2 hs.2 hv hm (by simp only [countV] at hc; omega)

end

/-- The prover at any index, for every type and value. -/
theorem computeProof_answer (E : Env) (t : Ty) (v : t.Val) (hl : Legal t) (hb : Bounded t)
    (hs : Shallow t) (hv : Valid t v) (hm : InMemory t v) (pr : Prover) (hg : pr.proof.index < 2 ^ 64) :
    computeProof E (t.impl E) v pr =
      outcome pr ((layer t v).tree.root E.sha256) (answer E.sha256 t v pr.proof.index) :=
  (has_layer E t v hl hb hs hv hm).proves pr hg

/-! ## Layers with room for their parts, and values without missing elements -/

theorem answer_ne_panic {H : Bytes → Node} {l : Layer}
    {inner : Nat → Nat → Res MerkError (Node × List Node)} (hf : l.Fits)
    (hi : ∀ q b, inner q b ≠ .panic) (g : Nat) : l.answer H inner g ≠ .panic := by
  rw [Layer.answer]
  split
  · simp
  · split
    · simp
    · split
      · simp
      · simp
      · rename_i h
        exact absurd h (hi _ _)

theorem elem_ne_panic {α : Type} {n : Nat} {xs : List α}
    {f : α → Nat → Res MerkError (Node × List Node)} (hn : n ≤ xs.length)
    (hf : ∀ x ∈ xs, ∀ b, f x b ≠ .panic) (q b : Nat) : elemAnswer n xs f q b ≠ .panic := by
  rw [elemAnswer]
  split
  · simp
  · rw [List.getElem?_eq_getElem (show q < xs.length by omega)]
    exact hf _ (List.getElem_mem _) b

theorem leaf_ne_panic (H : Bytes → Node) (n : Node) (g : Nat) : leafAnswer H n g ≠ .panic :=
  answer_ne_panic (Nat.two_pow_pos _) (fun _ _ => by simp) g

theorem narrow_le {t : Ty} {n m : Nat} (ht : packs t = true → fixedLen t ≤ itemLen prims t)
    (h : m ≤ n) : chunkCountBy packs t m ≤ itemCount prims t n := by
  refine Nat.le_trans (chunkCountBy_le h) ?_
  unfold chunkCountBy itemCount
  cases hp : packs t with
  | true =>
    have := Nat.mul_le_mul_left n (ht hp)
    rw [if_pos rfl]
    omega
  | false => rw [unpacked_item hp, if_neg (by simp)]; omega

theorem narrow_fits {t : Ty} {n : Nat} {vs : List t.Val} {m : Option Nat}
    (ht : packs t = true → fixedLen t ≤ itemLen prims t) (hv : ∀ v ∈ vs, Valid t v)
    (h : vs.length ≤ n) : (Layer.mk (depthFor (itemCount prims t n)) (collParts t vs) m).Fits := by
  have h1 : (collParts t vs).length = chunkCountBy packs t vs.length := partsOf_length hv
  show (collParts t vs).length ≤ 2 ^ (depthFor (itemCount prims t n) + _)
  rw [h1]
  refine Nat.le_trans (narrow_le ht h) (Nat.le_trans (le_pow_depthFor _) ?_)
  exact Nat.pow_le_pow_right (by decide) (by omega)

theorem bits_fits {n : Nat} {bits : List Bool} {m : Option Nat} (h : bits.length ≤ n) :
    (Layer.mk (depthFor ((n + 255) / 256)) (leaves (Spec.packBits bits)) m).Fits := by
  show (leaves (Spec.packBits bits)).length ≤ 2 ^ (depthFor ((n + 255) / 256) + _)
  refine Nat.le_trans (m := 2 ^ depthFor ((n + 255) / 256)) (Nat.le_trans ?_ (le_pow_depthFor _))
    (Nat.pow_le_pow_right (by decide) (by omega))
  rw [leaves_length, packBits_length]; omega

theorem layerV_fits : ∀ (vs : Variants) (i : Nat) (v : vs.Val), (layerV vs i v).Fits
  | .nil, _, v => Empty.elim v
  | .unit _, _, .inl _ => Nat.one_le_two_pow
  | .unit vs, i, .inr v => layerV_fits vs (i + 1) v
  | .data _ _, _, .inl _ => Nat.one_le_two_pow
  | .data _ vs, i, .inr v => layerV_fits vs (i + 1) v

mutual

theorem answer_total (H : Bytes → Node) : ∀ (t : Ty) (v : t.Val), Narrow t → Valid t v →
    FullLists t v → (layer t v).Fits ∧ ∀ q b, inner H t v q b ≠ .panic
  | .uint _, _, _, _, _ => ⟨Nat.two_pow_pos _, fun _ _ => by simp [inner]⟩
  | .u256, _, _, _, _ => ⟨Nat.two_pow_pos _, fun _ _ => by simp [inner]⟩
  | .bool, _, _, _, _ => ⟨Nat.two_pow_pos _, fun _ _ => by simp [inner]⟩
  | .node, _, _, _, _ => ⟨Nat.two_pow_pos _, fun _ _ => by simp [inner]⟩
  | .array t n, v, hn, hv, hu =>
    ⟨narrow_fits hn.1 hv (Nat.le_of_eq v.2), elem_ne_panic (Nat.le_of_eq v.2.symm) fun x hx =>
      answer_ne_panic (answer_total H t x hn.2 (hv x hx) (hu x hx)).1
        (answer_total H t x hn.2 (hv x hx) (hu x hx)).2⟩
  | .vector t n, v, hn, hv, hu =>
    ⟨narrow_fits hn.1 hv.2 (Nat.le_of_eq hv.1), elem_ne_panic (Nat.le_of_eq hv.1.symm) fun x hx =>
      answer_ne_panic (answer_total H t x hn.2 (hv.2 x hx) (hu x hx)).1
        (answer_total H t x hn.2 (hv.2 x hx) (hu x hx)).2⟩
  | .list t n, v, hn, hv, hu =>
    ⟨narrow_fits hn.1 hv.2 hv.1, elem_ne_panic (Nat.le_of_eq hu.1.symm) fun x hx =>
      answer_ne_panic (answer_total H t x hn.2 (hv.2 x hx) (hu.2 x hx)).1
        (answer_total H t x hn.2 (hv.2 x hx) (hu.2 x hx)).2⟩
  | .bitvector n, v, _, hv, _ => ⟨bits_fits (Nat.le_of_eq hv), fun _ _ => by simp [inner]⟩
  | .bitlist n, v, _, hv, _ => ⟨bits_fits hv.1, fun _ _ => by simp [inner]⟩
  | .option t, v, hn, hv, hu =>
    match v with
    | none => ⟨Nat.one_le_two_pow, fun q b => by
        show (if 2 ≤ q then _ else leafAnswer H zeroNode b) ≠ _
        split
        · simp
        · exact leaf_ne_panic H zeroNode b⟩
    | some x => ⟨Nat.one_le_two_pow, fun q b => by
        show (if 2 ≤ q then _ else (layer t x).answer H (inner H t x) b) ≠ _
        split
        · simp
        · exact answer_ne_panic (answer_total H t x hn (hv x rfl) (hu x rfl)).1
            (answer_total H t x hn (hv x rfl) (hu x rfl)).2 b⟩
  | .newtype t, v, hn, hv, hu => answer_total H t v hn hv hu
  | .container fs, v, hn, hv, hu => by
    exact ⟨Nat.le_trans (Nat.le_of_eq (treesByF_length (pk := packs) (fs := fs) (v := v)))
      (le_pow_depthFor _), answer_totalF H fs v hn hv hu⟩
  | .union vs, v, hn, hv, hu => by
    refine ⟨layerV_fits vs 0 v, fun q b => ?_⟩
    show (if countV vs ≤ q then _ else innerV H vs v b) ≠ _
    split
    · simp
    · exact answer_totalV H vs v hn hv hu b

theorem answer_totalF (H : Bytes → Node) : ∀ (fs : Fields) (v : fs.Val), NarrowF fs → ValidF fs v →
    FullListsF fs v → ∀ q b, innerF H fs v q b ≠ .panic
  | .nil, _, _, _, _, _, _ => by simp [innerF]
  | .cons _ t _, v, hn, hv, hu, 0, b =>
    answer_ne_panic (answer_total H t v.1 hn.1 hv.1 hu.1).1 (answer_total H t v.1 hn.1 hv.1 hu.1).2 b
  | .cons _ _ fs, v, hn, hv, hu, q + 1, b => answer_totalF H fs v.2 hn.2 hv.2 hu.2 q b

theorem answer_totalV (H : Bytes → Node) : ∀ (vs : Variants) (v : vs.Val), NarrowV vs → ValidV vs v →
    FullListsV vs v → ∀ b, innerV H vs v b ≠ .panic
  | .nil, v, _, _, _, _ => Empty.elim v
  | .unit _, .inl _, _, _, _, b => leaf_ne_panic H zeroNode b
  | .unit vs, .inr v, hn, hv, hu, b => answer_totalV H vs v hn hv hu b
  | .data t _, .inl v, hn, hv, hu, b =>
    answer_ne_panic (answer_total H t v hn.1 hv hu).1 (answer_total H t v hn.1 hv hu).2 b
  | .data _ vs, .inr v, hn, hv, hu, b => answer_totalV H vs v hn.2 hv hu b

end

/-! ## The layer and the tree of the value -/

theorem layerV_tree : ∀ (vs : Variants) (i : Nat) (v : vs.Val),
    (layerV vs i v).tree = treeByV packs vs i v
  | .nil, _, v => Empty.elim v
  | .unit _, _, .inl _ => rfl
  | .unit vs, i, .inr v => layerV_tree vs (i + 1) v
  | .data _ _, _, .inl _ => rfl
  | .data _ vs, i, .inr v => layerV_tree vs (i + 1) v

/-- Where the depths agree, the layer has the tree of which `hash_tree_root` is the root. -/
theorem layer_tree : ∀ (t : Ty) (v : t.Val), SameDepth t → (layer t v).tree = treeBy packs t v
  | .uint _, _, _ => rfl
  | .u256, _, _ => rfl
  | .bool, _, _ => rfl
  | .node, _, _ => rfl
  | .array t n, v, h => by
    show full (depthFor (itemCount prims t n)) (collParts t v.1) = _
    rw [h]; rfl
  | .vector t n, v, h => by
    show full (depthFor (itemCount prims t n)) (collParts t v) = _
    rw [h]; rfl
  | .list t n, v, h => by
    show MTree.node (full (depthFor (itemCount prims t n)) (collParts t v)) _ = _
    rw [h]; rfl
  | .bitvector _, _, _ => rfl
  | .bitlist _, _, _ => rfl
  | .option _, v, _ => by cases v <;> rfl
  | .newtype t, v, h => layer_tree t v h
  | .container _, _, _ => rfl
  | .union vs, v, _ => layerV_tree vs 0 v

theorem flat_sameDepth : ∀ (t : Ty), Flat t → SameDepth t
  | .uint _, _ => trivial
  | .u256, _ => trivial
  | .bool, _ => trivial
  | .node, _ => trivial
  | .array _ n, h => congrArg depthFor (itemCount_eq h.1 n)
  | .vector _ n, h => congrArg depthFor (itemCount_eq h.1 n)
  | .list _ n, h => congrArg depthFor (itemCount_eq h.1 n)
  | .bitvector _, _ => trivial
  | .bitlist _, _ => trivial
  | .option _, _ => trivial
  | .newtype t, h => flat_sameDepth t h
  | .container _, _ => trivial
  | .union _, _ => trivial

theorem flatElem_narrow {t : Ty} (hf : flatElem t = true) (hp : packs t = true) :
    fixedLen t ≤ itemLen prims t := Nat.le_of_eq (packed_item hp hf).1.symm

mutual

theorem flat_narrow : ∀ (t : Ty), Flat t → Narrow t
  | .uint _, _ => trivial
  | .u256, _ => trivial
  | .bool, _ => trivial
  | .node, _ => trivial
  | .array t _, h => ⟨flatElem_narrow h.1, flat_narrow t h.2⟩
  | .vector t _, h => ⟨flatElem_narrow h.1, flat_narrow t h.2⟩
  | .list t _, h => ⟨flatElem_narrow h.1, flat_narrow t h.2⟩
  | .bitvector _, _ => trivial
  | .bitlist _, _ => trivial
  | .option t, h => flat_narrow t h
  | .newtype t, h => flat_narrow t h
  | .container fs, h => flat_narrowF fs h
  | .union vs, h => flat_narrowV vs h

theorem flat_narrowF : ∀ (fs : Fields), FlatF fs → NarrowF fs
  | .nil, _ => trivial
  | .cons _ t fs, h => ⟨flat_narrow t h.1, flat_narrowF fs h.2⟩

theorem flat_narrowV : ∀ (vs : Variants), FlatV vs → NarrowV vs
  | .nil, _ => trivial
  | .unit vs, h => flat_narrowV vs h
  | .data t vs, h => ⟨flat_narrow t h.1, flat_narrowV vs h.2⟩

end

end Ssz
