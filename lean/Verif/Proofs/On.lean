import Verif.Proofs.Compose

/-!
# The answers of the prover on paths that do not enter a collection of arrays of packed elements
-/

namespace Ssz

open Spec

/-! ## Layers and trees -/

/-- Where the tree of a layer has a node, the layer has it too. -/
theorem layer_node {H : Bytes → Node} {l : Layer} {g : Nat} {u : MTree}
    (h : l.tree.sub g = some u) : l.node H g = u.root H := by
  obtain ⟨d, ps, m⟩ := l
  cases m with
  | none =>
    have h : (full d ps).sub g = some u := h
    show ((full d ps).nodeAt H g).getD zeroNode = _
    rw [MTree.nodeAt, h]
    rfl
  | some m =>
    have h : (MTree.node (full d ps) (numLeaf m)).sub g = some u := h
    show (if g = 1 then _ else if g = 3 then _ else
        ((full (d + 1) ps).nodeAt H g).getD zeroNode) = _
    rcases node_sub_cases h with ⟨rfl, rfl⟩ | ⟨k, hk, rfl, hu⟩ | ⟨k, hk, rfl, hu⟩
    · rfl
    · have h2 : (full (d + 1) ps).sub (gcat 2 k) = some u :=
        (sub_cat (by decide) hk).2 ⟨_, node_sub_left, by rw [full_take]; exact hu⟩
      have h3 := le_gcat 2 k
      have h4 : gcat 2 k ≠ 3 := by
        obtain ⟨e, i, hi, rfl⟩ := exists_pow_add hk
        rw [gcat_pow hi]
        cases e with
        | zero => simp at hi; subst hi; decide
        | succ e =>
          have := Nat.two_pow_pos e
          rw [Nat.pow_succ]
          omega
      rw [if_neg (by omega), if_neg h4, MTree.nodeAt, h2]
      rfl
    · have hk1 : k = 1 := by
        by_contra hne
        rw [numLeaf, leaf_sub hne] at hu
        cases hu
      subst hk1
      rw [sub_one] at hu
      cases hu
      rw [gcat_one, if_neg (by decide), if_pos rfl]

theorem layer_branch {H : Bytes → Node} {l : Layer} : ∀ {g : Nat} {u : MTree},
    l.tree.sub g = some u → l.branch H g = l.tree.branchAt H g := by
  intro g
  induction g using Nat.strongRecOn with
  | _ g ih =>
    intro u h
    rw [Layer.branch, MTree.branchAt]
    by_cases hg : g ≤ 1
    · rw [if_pos hg, if_pos hg]
    · rw [if_neg hg, if_neg hg]
      obtain ⟨x, y, h1, _⟩ := (sub_step (by omega)).1 h
      have h2 : l.tree.sub (other g) = some (if other g % 2 = 0 then x else y) :=
        (sub_step (other_lt (by omega))).2 ⟨x, y, by rw [other_half]; exact h1, rfl⟩
      rw [layer_node h2, MTree.nodeAt, h2, ih (g / 2) (by omega) h1]
      rfl

/-! ## Answers -/

/-- The answer at an index is the node of the tree there with its branch, and a panic if the tree has
no node there. -/
def Yields (H : Bytes → Node) (s : MTree) (g : Nat) (r : Res MerkError (Node × List Node)) : Prop :=
  (s.sub g = none ∧ r = .panic) ∨ ∃ u, s.sub g = some u ∧ r = .ok (u.root H, s.branchAt H g)

/-- In the layer. -/
theorem yields_in {H : Bytes → Node} {l : Layer}
    {inner : Nat → Nat → Res MerkError (Node × List Node)} {g : Nat} {u : MTree} (hf : l.Fits)
    (hg : Nat.log2 g ≤ l.height) (hu : l.tree.sub g = some u) : Yields H l.tree g (l.answer H inner g) := by
  have := sub_pos hu
  refine .inr ⟨u, hu, ?_⟩
  rw [Layer.answer, if_neg (by omega), if_pos hg, if_pos hf, layer_node hu, layer_branch hu]

/-- The leaves of the tree of a layer. -/
theorem layer_leaf {l : Layer} {q : Nat} (hq : q < 2 ^ l.depth) :
    l.tree.sub (2 ^ l.height + q) = some (l.parts[q]?.getD (.leaf zeroNode)) := by
  obtain ⟨d, ps, m⟩ := l
  cases m with
  | none => exact full_sub hq
  | some m =>
    have hq : q < 2 ^ d := hq
    show (MTree.node (full d ps) (numLeaf m)).sub (2 ^ (d + 1) + q) = _
    have h := node_elem (r := numLeaf m) (b := 1) hq (Nat.le_refl 1)
      (by rw [gcat_one]; exact full_sub (ts := ps) hq)
    rw [gcat_one, ← show 2 ^ (d + 1) = 2 * 2 ^ d by rw [Nat.pow_succ, Nat.mul_comm]] at h
    exact h

/-- At or below a leaf of the layer. -/
theorem yields_leaf {H : Bytes → Node} {l : Layer}
    {inner : Nat → Nat → Res MerkError (Node × List Node)} {q b : Nat} (hf : l.Fits)
    (hq : q < 2 ^ l.depth) (hb : 1 ≤ b)
    (hi : 1 < b → Yields H (l.parts[q]?.getD (.leaf zeroNode)) b (inner q b)) :
    Yields H l.tree (gcat (2 ^ l.height + q) b) (l.answer H inner (gcat (2 ^ l.height + q) b)) := by
  have hq' : q < 2 ^ l.height :=
    Nat.lt_of_lt_of_le hq (Nat.pow_le_pow_right (by decide) (Nat.le_add_right _ _))
  have h0 := Nat.two_pow_pos l.height
  have h1 := layer_leaf hq
  rcases Nat.lt_or_eq_of_le hb with hb1 | rfl
  · rw [layer_below hf hq' b hb1]
    rcases hi hb1 with ⟨h2, h3⟩ | ⟨u, h2, h3⟩
    · refine .inl ⟨?_, by rw [h3]; rfl⟩
      cases hs : l.tree.sub (gcat (2 ^ l.height + q) b) with
      | none => rfl
      | some u =>
        obtain ⟨s, h4, h5⟩ := (sub_cat (by omega) hb).1 hs
        rw [h1] at h4
        cases h4
        rw [h2] at h5
        cases h5
    · refine .inr ⟨u, (sub_cat (by omega) hb).2 ⟨_, h1, h2⟩, ?_⟩
      rw [h3, branchAt_cat (by omega) h1 h2, layer_branch h1]
      rfl
  · rw [gcat_one]
    exact yields_in hf (Nat.le_of_eq (log2_pow_add hq')) h1

/-! ## All types -/

/-- The answers of a value on the paths that do not enter a collection of arrays of packed elements and
name, in every `Option` and enum, the variant that the value has. Index 1 is left out, as there the
answer is the root of the layer. -/
def YieldsOn (H : Bytes → Node) (t : Ty) (v : t.Val) : Prop :=
  ∀ (path : List PathElement) (g : Nat) (w : Ty), FlatOn t path → walkBy prims t path = some (g, w) →
    Active t v path → 1 < g → Yields H (treeBy packs t v) g (answer H t v g)

theorem yields_nil {H : Bytes → Node} {t w : Ty} {v : t.Val} {g : Nat}
    (hw : walkBy prims t [] = some (g, w)) (hg : 1 < g) :
    Yields H (treeBy packs t v) g (answer H t v g) := by
  cases hw
  omega

theorem yields_basic {H : Bytes → Node} {t : Ty} {v : t.Val} (h : ∀ e, stepBy prims t e = none) :
    YieldsOn H t v := by
  intro path g w _ hw _ hg
  match path with
  | [] => exact yields_nil hw hg
  | e :: _ =>
    obtain ⟨_, _, _, h1, _⟩ := walk_cons.1 hw
    rw [h] at h1
    cases h1

theorem yields_coll {H : Bytes → Node} {t T w : Ty} {v : T.Val} {n i b : Nat} {vs : List t.Val}
    {m : Option Nat} {rest : List PathElement} (hf : flatElem t = true) (hr : FlatOn t rest) (hi : i < n)
    (hT : SameDepth T) (hlay : layer T v = ⟨depthFor (itemCount prims t n), collParts t vs, m⟩)
    (hin : ∀ q b, inner H T v q b = elemAnswer n vs (fun x => answer H t x) q b)
    (hv : ∀ v ∈ vs, Valid t v) (hn : vs.length ≤ n) (ih : ∀ x ∈ vs, YieldsOn H t x)
    (hw : walkBy prims t rest = some (b, w)) (ha : ∀ x, vs[i]? = some x → Active t x rest) :
    Yields H (treeBy packs T v) (gcat (2 ^ (layer T v).height + i * itemLen prims t / 32) b)
      (answer H T v (gcat (2 ^ (layer T v).height + i * itemLen prims t / 32) b)) := by
  rw [← layer_tree T v hT]
  have hp := item_pos (t := t) hi
  refine yields_leaf ?_ ?_ (walk_pos hw) fun hb => ?_
  · rw [hlay]
    exact narrow_fits (flatElem_narrow hf) hv hn
  · rw [hlay]
    exact hp
  · rw [hin, hlay]
    show Yields H ((collParts t vs)[i * itemLen prims t / 32]?.getD _) b _
    cases hk : packs t with
    | true => rw [packed_walk hk hf hw] at hb; omega
    | false =>
      rw [unpacked_item hk, Nat.mul_div_cancel _ (by decide), collParts, hk, if_neg (by simp),
        List.getElem?_map, elemAnswer, if_neg (by omega)]
      cases hx : vs[i]? with
      | none => exact .inl ⟨leaf_sub (by omega), rfl⟩
      | some x => exact ih x (List.mem_of_getElem? hx) rest b w hr hw (ha x hx) hb

/-- The length or selector of a value. -/
theorem yields_number {H : Bytes → Node} {t w : Ty} {v : t.Val} {m b : Nat} {path : List PathElement}
    (hd : SameDepth t) (hf : (layer t v).Fits) (hm : (layer t v).mixed = some m)
    (hw : walkBy prims number path = some (b, w)) :
    Yields H (treeBy packs t v) (gcat 3 b) (answer H t v (gcat 3 b)) := by
  rw [number_walk hw, gcat_one, ← layer_tree t v hd]
  refine yields_in (u := numLeaf m) hf ?_ ?_
  · rw [Layer.height, hm, show Nat.log2 3 = 1 by decide +kernel]
    simp
  · rw [Layer.tree, hm]
    exact node_sub_right

/-- The payload of an enum value or `Option`. -/
theorem yields_pair {H : Bytes → Node} {T : Ty} {v : T.Val} {s : MTree} {b m : Nat}
    (hT : SameDepth T) (hlay : layer T v = ⟨0, [s], some m⟩) (hb : 1 ≤ b)
    (hi : 1 < b → Yields H s b (inner H T v 0 b)) :
    Yields H (treeBy packs T v) (gcat 2 b) (answer H T v (gcat 2 b)) := by
  have h := yields_leaf (H := H) (l := layer T v) (inner := inner H T v) (q := 0) (b := b)
    (by rw [hlay]; exact Nat.one_le_two_pow) (Nat.two_pow_pos _) hb
    (by rw [hlay]; exact hi)
  rw [layer_tree T v hT, show 2 ^ (layer T v).height + 0 = 2 by rw [hlay]; rfl] at h
  exact h

theorem yields_bits {H : Bytes → Node} {T w : Ty} {v : T.Val} {n i b : Nat} {bits : List Bool}
    {m : Option Nat} {rest : List PathElement} (hi : i < n) (hT : SameDepth T)
    (hlay : layer T v = ⟨depthFor ((n + 255) / 256), leaves (Spec.packBits bits), m⟩)
    (hn : bits.length ≤ n) (hw : walkBy prims .bool rest = some (b, w)) :
    Yields H (treeBy packs T v) (gcat (2 ^ (layer T v).height + i / 256) b)
      (answer H T v (gcat (2 ^ (layer T v).height + i / 256) b)) := by
  rw [← layer_tree T v hT]
  refine yields_leaf ?_ ?_ (walk_pos hw) fun hb => ?_
  · rw [hlay]
    exact bits_fits hn
  · rw [hlay]
    exact bit_pos hi
  · rw [bool_walk hw] at hb
    omega

theorem layerV_shape : ∀ (vs : Variants) (i : Nat) (v : vs.Val), ∃ s m, layerV vs i v = ⟨0, [s], some m⟩
  | .nil, _, v => Empty.elim v
  | .unit _, _, .inl _ => ⟨_, _, rfl⟩
  | .unit vs, i, .inr v => layerV_shape vs (i + 1) v
  | .data _ _, _, .inl _ => ⟨_, _, rfl⟩
  | .data _ vs, i, .inr v => layerV_shape vs (i + 1) v

mutual

theorem yields_on (H : Bytes → Node) : ∀ (t : Ty) (v : t.Val), Valid t v → YieldsOn H t v
  | .uint _, v, _ => yields_basic fun e => by cases e <;> rfl
  | .u256, v, _ => yields_basic fun e => by cases e <;> rfl
  | .bool, v, _ => yields_basic fun e => by cases e <;> rfl
  | .node, v, _ => yields_basic fun e => by cases e <;> rfl
  | .array t n, v, hv => by
    intro path g w hf hw ha hg
    match path with
    | [] => exact yields_nil hw hg
    | .field _ :: _ => obtain ⟨_, _, _, h, _⟩ := walk_cons.1 hw; cases h
    | .length :: _ => obtain ⟨_, _, _, h, _⟩ := walk_cons.1 hw; cases h
    | .selector :: _ => obtain ⟨_, _, _, h, _⟩ := walk_cons.1 hw; cases h
    | .index i :: rest =>
      obtain ⟨a, u, b, h1, h2, rfl⟩ := walk_cons.1 hw
      rw [stepBy] at h1
      split at h1
      · rename_i hi
        cases h1
        exact yields_coll (T := .array t n) (v := v) (n := n) (vs := v.1) hf.1 hf.2 hi
          (congrArg depthFor (itemCount_eq hf.1 n)) rfl (fun _ _ => rfl) hv (Nat.le_of_eq v.2)
          (fun x hx => yields_on H t x (hv x hx)) h2 ha
      · cases h1
  | .vector t n, v, hv => by
    intro path g w hf hw ha hg
    match path with
    | [] => exact yields_nil hw hg
    | .field _ :: _ => obtain ⟨_, _, _, h, _⟩ := walk_cons.1 hw; cases h
    | .length :: _ => obtain ⟨_, _, _, h, _⟩ := walk_cons.1 hw; cases h
    | .selector :: _ => obtain ⟨_, _, _, h, _⟩ := walk_cons.1 hw; cases h
    | .index i :: rest =>
      obtain ⟨a, u, b, h1, h2, rfl⟩ := walk_cons.1 hw
      rw [stepBy] at h1
      split at h1
      · rename_i hi
        cases h1
        exact yields_coll (T := .vector t n) (v := v) (n := n) (vs := v) hf.1 hf.2 hi
          (congrArg depthFor (itemCount_eq hf.1 n)) rfl (fun _ _ => rfl) hv.2 (Nat.le_of_eq hv.1)
          (fun x hx => yields_on H t x (hv.2 x hx)) h2 ha
      · cases h1
  | .list t n, v, hv => by
    intro path g w hf hw ha hg
    match path with
    | [] => exact yields_nil hw hg
    | .field _ :: _ => obtain ⟨_, _, _, h, _⟩ := walk_cons.1 hw; cases h
    | .selector :: _ => obtain ⟨_, _, _, h, _⟩ := walk_cons.1 hw; cases h
    | .length :: rest =>
      obtain ⟨a, u, b, h1, h2, rfl⟩ := walk_cons.1 hw
      cases h1
      exact yields_number (t := .list t n) (congrArg depthFor (itemCount_eq hf n))
        (narrow_fits (flatElem_narrow hf) hv.2 hv.1) rfl h2
    | .index i :: rest =>
      obtain ⟨a, u, b, h1, h2, rfl⟩ := walk_cons.1 hw
      rw [stepBy] at h1
      split at h1
      · rename_i hi
        cases h1
        have e : 2 * 2 ^ depthFor (itemCount prims t n) = 2 ^ (layer (.list t n) v).height := by
          show _ = 2 ^ (depthFor (itemCount prims t n) + 1)
          rw [Nat.pow_succ, Nat.mul_comm]
        rw [e]
        exact yields_coll (T := .list t n) (v := v) (n := n) (vs := v) hf.1 hf.2 hi
          (congrArg depthFor (itemCount_eq hf.1 n)) rfl (fun _ _ => rfl) hv.2 hv.1
          (fun x hx => yields_on H t x (hv.2 x hx)) h2 ha
      · cases h1
  | .bitvector n, v, hv => by
    intro path g w hf hw ha hg
    match path with
    | [] => exact yields_nil hw hg
    | .field _ :: _ => obtain ⟨_, _, _, h, _⟩ := walk_cons.1 hw; cases h
    | .length :: _ => obtain ⟨_, _, _, h, _⟩ := walk_cons.1 hw; cases h
    | .selector :: _ => obtain ⟨_, _, _, h, _⟩ := walk_cons.1 hw; cases h
    | .index i :: rest =>
      obtain ⟨a, u, b, h1, h2, rfl⟩ := walk_cons.1 hw
      rw [stepBy] at h1
      split at h1
      · rename_i hi
        cases h1
        exact yields_bits (T := .bitvector n) (v := v) hi trivial rfl (Nat.le_of_eq hv) h2
      · cases h1
  | .bitlist n, v, hv => by
    intro path g w hf hw ha hg
    match path with
    | [] => exact yields_nil hw hg
    | .field _ :: _ => obtain ⟨_, _, _, h, _⟩ := walk_cons.1 hw; cases h
    | .selector :: _ => obtain ⟨_, _, _, h, _⟩ := walk_cons.1 hw; cases h
    | .length :: rest =>
      obtain ⟨a, u, b, h1, h2, rfl⟩ := walk_cons.1 hw
      cases h1
      exact yields_number (t := .bitlist n) trivial (bits_fits hv.1) rfl h2
    | .index i :: rest =>
      obtain ⟨a, u, b, h1, h2, rfl⟩ := walk_cons.1 hw
      rw [stepBy] at h1
      split at h1
      · rename_i hi
        cases h1
        have e : 2 * 2 ^ depthFor ((n + 255) / 256) = 2 ^ (layer (.bitlist n) v).height := by
          show _ = 2 ^ (depthFor ((n + 255) / 256) + 1)
          rw [Nat.pow_succ, Nat.mul_comm]
        rw [e]
        exact yields_bits (T := .bitlist n) (v := v) hi trivial rfl hv.1 h2
      · cases h1
  | .option t, v, hv => by
    intro path g w hf hw ha hg
    match path, v with
    | [], _ => exact yields_nil hw hg
    | .field _ :: _, _ => obtain ⟨_, _, _, h, _⟩ := walk_cons.1 hw; cases h
    | .length :: _, _ => obtain ⟨_, _, _, h, _⟩ := walk_cons.1 hw; cases h
    | .selector :: rest, none =>
      obtain ⟨a, u, b, h1, h2, rfl⟩ := walk_cons.1 hw
      cases h1
      exact yields_number (t := .option t) (v := none) (m := 0) trivial Nat.one_le_two_pow rfl h2
    | .selector :: rest, some x =>
      obtain ⟨a, u, b, h1, h2, rfl⟩ := walk_cons.1 hw
      cases h1
      exact yields_number (t := .option t) (v := some x) (m := 1) trivial Nat.one_le_two_pow rfl h2
    | .index i :: rest, none =>
      obtain ⟨a, u, b, h1, h2, rfl⟩ := walk_cons.1 hw
      have ha : i = 0 := ha
      subst ha
      cases h1
      exact yields_pair (T := .option t) (v := none) (m := 0) trivial rfl (walk_pos h2)
        (fun hb => by rw [number_walk h2] at hb; omega)
    | .index i :: rest, some x =>
      obtain ⟨a, u, b, h1, h2, rfl⟩ := walk_cons.1 hw
      have ha' : i = 1 ∧ Active t x rest := ha
      obtain ⟨rfl, ha'⟩ := ha'
      cases h1
      exact yields_pair (T := .option t) (v := some x) (m := 1) trivial rfl (walk_pos h2)
        (fun hb => yields_on H t x (hv x rfl) rest b _ hf h2 ha' hb)
  | .newtype t, v, hv => by
    intro path g w hf hw ha hg
    obtain ⟨w', hw'⟩ := walk_newtype hw
    exact yields_on H t v hv path g w' hf hw' ha hg
  | .container fs, v, hv => by
    intro path g w hf hw ha hg
    match path with
    | [] => exact yields_nil hw hg
    | .index _ :: _ => obtain ⟨_, _, _, h, _⟩ := walk_cons.1 hw; cases h
    | .length :: _ => obtain ⟨_, _, _, h, _⟩ := walk_cons.1 hw; cases h
    | .selector :: _ => obtain ⟨_, _, _, h, _⟩ := walk_cons.1 hw; cases h
    | .field name :: rest =>
      obtain ⟨a, u, b, h1, h2, rfl⟩ := walk_cons.1 hw
      obtain ⟨⟨k, u'⟩, h3, h4⟩ := Option.map_eq_some_iff.1 (show (fieldAt fs name).map _ = _ from h1)
      cases h4
      have h := yields_leaf (H := H) (l := layer (.container fs) v) (inner := inner H (.container fs) v)
        (q := k) (b := b) ?_ (Nat.lt_of_lt_of_le (fieldAt_lt h3) (le_pow_depthFor _)) (walk_pos h2)
        (yields_onF H fs v hv hf h3 h2 ha)
      · rw [layer_tree (.container fs) v trivial] at h
        exact h
      · show (treesByF packs fs v).length ≤ 2 ^ (depthFor (countF fs) + 0)
        exact Nat.le_trans (Nat.le_of_eq (treesByF_length (pk := packs) (fs := fs) (v := v)))
          (le_pow_depthFor _)
  | .union vs, v, hv => by
    intro path g w hf hw ha hg
    match path with
    | [] => exact yields_nil hw hg
    | .field _ :: _ => obtain ⟨_, _, _, h, _⟩ := walk_cons.1 hw; cases h
    | .length :: _ => obtain ⟨_, _, _, h, _⟩ := walk_cons.1 hw; cases h
    | .selector :: rest =>
      obtain ⟨a, u, b, h1, h2, rfl⟩ := walk_cons.1 hw
      cases h1
      obtain ⟨s, m, h3⟩ := layerV_shape vs 0 v
      exact yields_number (t := .union vs) (v := v) (m := m) trivial (layerV_fits vs 0 v)
        (by show (layerV vs 0 v).mixed = _; rw [h3]) h2
    | .index i :: rest =>
      obtain ⟨a, u, b, h1, h2, rfl⟩ := walk_cons.1 hw
      obtain ⟨o, h3, h4⟩ := Option.map_eq_some_iff.1 (show (variantAt vs i).map _ = _ from h1)
      cases h4
      obtain ⟨s, m, h5, h6⟩ := yields_onV H vs 0 v hv hf h3 h2 ha
      refine yields_pair (T := .union vs) (v := v) (m := m) trivial h5 (walk_pos h2) fun hb => ?_
      rw [inner, if_neg (by have := variantAt_pos h3; omega)]
      exact h6 hb

theorem yields_onF (H : Bytes → Node) : ∀ (fs : Fields) (v : fs.Val) {name : String}
    {rest : List PathElement} {k b : Nat} {u w : Ty}, ValidF fs v → FlatOnF fs name rest →
    fieldAt fs name = some (k, u) → walkBy prims u rest = some (b, w) → ActiveF fs v name rest → 1 < b →
    Yields H ((treesByF packs fs v)[k]?.getD (.leaf zeroNode)) b (innerF H fs v k b)
  | .nil, _, _, _, _, _, _, _, _, _, h, _, _, _ => by cases h
  | .cons n t fs, v, name, rest, k, b, u, w, hv, hf, h1, h2, ha, hb => by
    rw [fieldAt] at h1
    rw [FlatOnF] at hf
    have ha : if name = n then Active t v.1 rest else ActiveF fs v.2 name rest := ha
    by_cases h : name = n
    · rw [if_pos h] at h1 ha hf
      cases h1
      exact yields_on H t v.1 hv.1 rest b w hf h2 ha hb
    · rw [if_neg h] at h1 ha hf
      obtain ⟨⟨k', u'⟩, h4, h5⟩ := Option.map_eq_some_iff.1 h1
      cases h5
      exact yields_onF H fs v.2 hv.2 hf h4 h2 ha hb

theorem yields_onV (H : Bytes → Node) : ∀ (vs : Variants) (j : Nat) (v : vs.Val) {i : Nat}
    {rest : List PathElement} {b : Nat} {o : Option Ty} {w : Ty}, ValidV vs v → FlatOnV vs i rest →
    variantAt vs i = some o → walkBy prims (o.getD number) rest = some (b, w) →
    ActiveV vs v i rest →
    ∃ s m, layerV vs j v = ⟨0, [s], some m⟩ ∧ (1 < b → Yields H s b (innerV H vs v b))
  | .nil, _, v, _, _, _, _, _, _, _, _, _, _ => Empty.elim v
  | .unit vs, j, .inl v, i, rest, b, o, w, hv, hf, h1, h2, ha => by
    have ha : i = 0 := ha
    subst ha
    cases h1
    exact ⟨_, _, rfl, fun hb => by rw [number_walk h2] at hb; omega⟩
  | .unit vs, j, .inr v, i, rest, b, o, w, hv, hf, h1, h2, ha => by
    have ha : 0 < i ∧ ActiveV vs v (i - 1) rest := ha
    obtain ⟨k, rfl⟩ : ∃ k, i = k + 1 := ⟨i - 1, by omega⟩
    exact yields_onV H vs (j + 1) v hv hf h1 h2 ha.2
  | .data t vs, j, .inl v, i, rest, b, o, w, hv, hf, h1, h2, ha => by
    have ha' : i = 0 ∧ Active t v rest := ha
    obtain ⟨rfl, ha'⟩ := ha'
    cases h1
    exact ⟨_, _, rfl, fun hb => yields_on H t v hv rest b w hf h2 ha' hb⟩
  | .data t vs, j, .inr v, i, rest, b, o, w, hv, hf, h1, h2, ha => by
    have ha : 0 < i ∧ ActiveV vs v (i - 1) rest := ha
    obtain ⟨k, rfl⟩ : ∃ k, i = k + 1 := ⟨i - 1, by omega⟩
    exact yields_onV H vs (j + 1) v hv hf h1 h2 ha.2

end

/-- A path that enters a type does so where the layer has the tree of the value. -/
theorem on_sameDepth : ∀ (t : Ty) {e : PathElement} {rest : List PathElement} {g : Nat} {w : Ty},
    FlatOn t (e :: rest) → walkBy prims t (e :: rest) = some (g, w) → SameDepth t
  | .uint _, _, _, _, _, _, _ => trivial
  | .u256, _, _, _, _, _, _ => trivial
  | .bool, _, _, _, _, _, _ => trivial
  | .node, _, _, _, _, _, _ => trivial
  | .array _ n, e, _, _, _, h, hw => by
    obtain ⟨_, _, _, h1, _⟩ := walk_cons.1 hw
    match e with
    | .index _ => exact congrArg depthFor (itemCount_eq h.1 n)
    | .field _ => cases h1
    | .length => cases h1
    | .selector => cases h1
  | .vector _ n, e, _, _, _, h, hw => by
    obtain ⟨_, _, _, h1, _⟩ := walk_cons.1 hw
    match e with
    | .index _ => exact congrArg depthFor (itemCount_eq h.1 n)
    | .field _ => cases h1
    | .length => cases h1
    | .selector => cases h1
  | .list _ n, e, _, _, _, h, hw => by
    obtain ⟨_, _, _, h1, _⟩ := walk_cons.1 hw
    match e with
    | .index _ => exact congrArg depthFor (itemCount_eq h.1 n)
    | .field _ => cases h1
    | .length => exact congrArg depthFor (itemCount_eq h n)
    | .selector => cases h1
  | .bitvector _, _, _, _, _, _, _ => trivial
  | .bitlist _, _, _, _, _, _, _ => trivial
  | .option _, _, _, _, _, _, _ => trivial
  | .newtype t, _, _, _, _, h, hw => on_sameDepth t (w := _) h (by exact hw)
  | .container _, _, _, _, _, _, _ => trivial
  | .union _, _, _, _, _, _, _ => trivial

/-! ## Paths to parts that exist -/

theorem packs_active : ∀ (t : Ty) (v : t.Val) (path : List PathElement), packs t = true → Active t v path
  | .uint _, _, _, _ => trivial
  | .u256, _, _, _ => trivial
  | .bool, _, _, _ => trivial
  | .node, _, _, _ => trivial
  | .array t n, v, path, h => by
    match path with
    | [] => exact trivial
    | .field _ :: _ => exact trivial
    | .length :: _ => exact trivial
    | .selector :: _ => exact trivial
    | .index i :: rest => exact fun x _ => packs_active t x rest h

theorem coll_active {t : Ty} {vs : List t.Val} {i k : Nat} {rest : List PathElement} {f : Found}
    (ih : ∀ x ∈ vs, partBy packs t x rest = some f → Active t x rest)
    (h : (match vs[i]? with
      | none => none
      | some x => if packs t then bytesPart t x k rest else partBy packs t x rest) = some f) :
    ∀ x, vs[i]? = some x → Active t x rest := by
  intro x hx
  rw [hx] at h
  cases hp : packs t with
  | true => exact packs_active t x rest hp
  | false =>
    simp only [hp, if_neg (by simp : ¬ false = true)] at h
    exact ih x (List.mem_of_getElem? hx) h

mutual

/-- A path to a part that exists names the variants that the value has. -/
theorem part_active : ∀ (t : Ty) (v : t.Val) (path : List PathElement) (f : Found),
    partBy packs t v path = some f → Active t v path
  | .uint _, _, _, _, _ => trivial
  | .u256, _, _, _, _ => trivial
  | .bool, _, _, _, _ => trivial
  | .node, _, _, _, _ => trivial
  | .bitvector _, _, _, _, _ => trivial
  | .bitlist _, _, _, _, _ => trivial
  | .array t n, v, path, f, h => by
    match path with
    | [] => exact trivial
    | .field _ :: _ => exact trivial
    | .length :: _ => exact trivial
    | .selector :: _ => exact trivial
    | .index i :: rest => exact coll_active (fun x _ hx => part_active t x rest f hx) h
  | .vector t n, v, path, f, h => by
    match path with
    | [] => exact trivial
    | .field _ :: _ => exact trivial
    | .length :: _ => exact trivial
    | .selector :: _ => exact trivial
    | .index i :: rest => exact coll_active (vs := v) (fun x _ hx => part_active t x rest f hx) h
  | .list t n, v, path, f, h => by
    match path with
    | [] => exact trivial
    | .field _ :: _ => exact trivial
    | .length :: _ => exact trivial
    | .selector :: _ => exact trivial
    | .index i :: rest => exact coll_active (vs := v) (fun x _ hx => part_active t x rest f hx) h
  | .option t, v, path, f, h => by
    match path, v with
    | [], _ => exact trivial
    | .field _ :: _, _ => exact trivial
    | .length :: _, _ => exact trivial
    | .selector :: _, _ => exact trivial
    | .index i :: rest, none =>
      have h : (if i = 0 then (Found.tree (.leaf zeroNode)).ending rest else none) = some f := h
      show i = 0
      by_contra hi
      rw [if_neg hi] at h
      cases h
    | .index i :: rest, some x =>
      have h : (if i = 1 then partBy packs t x rest else none) = some f := h
      show i = 1 ∧ Active t x rest
      by_cases hi : i = 1
      · rw [if_pos hi] at h
        exact ⟨hi, part_active t x rest f h⟩
      · rw [if_neg hi] at h
        cases h
  | .newtype t, v, path, f, h => part_active t v path f h
  | .container fs, v, path, f, h => by
    match path with
    | [] => exact trivial
    | .index _ :: _ => exact trivial
    | .length :: _ => exact trivial
    | .selector :: _ => exact trivial
    | .field name :: rest => exact part_activeF fs v name rest f h
  | .union vs, v, path, f, h => by
    match path with
    | [] => exact trivial
    | .field _ :: _ => exact trivial
    | .length :: _ => exact trivial
    | .selector :: _ => exact trivial
    | .index i :: rest => exact part_activeV vs v i rest f h

theorem part_activeF : ∀ (fs : Fields) (v : fs.Val) (name : String) (path : List PathElement)
    (f : Found), partByF packs fs v name path = some f → ActiveF fs v name path
  | .nil, _, _, _, _, _ => trivial
  | .cons n t fs, v, name, path, f, h => by
    rw [partByF] at h
    rw [ActiveF]
    split at h
    · rename_i hn
      rw [if_pos hn]
      exact part_active t v.1 path f h
    · rename_i hn
      rw [if_neg hn]
      exact part_activeF fs v.2 name path f h

theorem part_activeV : ∀ (vs : Variants) (v : vs.Val) (i : Nat) (path : List PathElement)
    (f : Found), partByV packs vs v i path = some f → ActiveV vs v i path
  | .nil, v, _, _, _, _ => Empty.elim v
  | .unit _, .inl _, i, path, f, h => by
    have h : (if i = 0 then (Found.tree (.leaf zeroNode)).ending path else none) = some f := h
    show i = 0
    by_contra hi
    rw [if_neg hi] at h
    cases h
  | .unit vs, .inr v, i, path, f, h => by
    have h : (if i = 0 then none else partByV packs vs v (i - 1) path) = some f := h
    show 0 < i ∧ ActiveV vs v (i - 1) path
    by_cases hi : i = 0
    · rw [if_pos hi] at h
      cases h
    · rw [if_neg hi] at h
      exact ⟨by omega, part_activeV vs v (i - 1) path f h⟩
  | .data t _, .inl v, i, path, f, h => by
    have h : (if i = 0 then partBy packs t v path else none) = some f := h
    show i = 0 ∧ Active t v path
    by_cases hi : i = 0
    · rw [if_pos hi] at h
      exact ⟨hi, part_active t v path f h⟩
    · rw [if_neg hi] at h
      cases h
  | .data _ vs, .inr v, i, path, f, h => by
    have h : (if i = 0 then none else partByV packs vs v (i - 1) path) = some f := h
    show 0 < i ∧ ActiveV vs v (i - 1) path
    by_cases hi : i = 0
    · rw [if_pos hi] at h
      cases h
    · rw [if_neg hi] at h
      exact ⟨by omega, part_activeV vs v (i - 1) path f h⟩

end

theorem but_active {t : Ty} {i : Nat} {v w : List t.Val} {rest : List PathElement}
    {R : t.Val → t.Val → Prop} (ih : ∀ x y, R x y → Active t x rest ∧ Active t y rest)
    (h : ButAt R i v w) : (∀ x, v[i]? = some x → Active t x rest) ∧
      ∀ x, w[i]? = some x → Active t x rest := by
  obtain ⟨a, x, y, b, rfl, rfl, rfl, h⟩ := h
  obtain ⟨h1, h2⟩ := ih x y h
  constructor
  · intro z hz
    rw [List.getElem?_append_right (Nat.le_refl _), Nat.sub_self] at hz
    cases hz
    exact h1
  · intro z hz
    rw [List.getElem?_append_right (Nat.le_refl _), Nat.sub_self] at hz
    cases hz
    exact h2

mutual

/-- A path to the part in which two values differ names the variants that they have. -/
theorem same_active : ∀ (t : Ty) (v w : t.Val) (path : List PathElement), SameBut t v w path →
    Active t v path ∧ Active t w path
  | .uint _, _, _, _, _ => ⟨trivial, trivial⟩
  | .u256, _, _, _, _ => ⟨trivial, trivial⟩
  | .bool, _, _, _, _ => ⟨trivial, trivial⟩
  | .node, _, _, _, _ => ⟨trivial, trivial⟩
  | .bitvector _, _, _, _, _ => ⟨trivial, trivial⟩
  | .bitlist _, _, _, _, _ => ⟨trivial, trivial⟩
  | .array t n, v, w, path, h => by
    match path with
    | [] => exact ⟨trivial, trivial⟩
    | .field _ :: _ => exact h.elim
    | .length :: _ => exact h.elim
    | .selector :: _ => exact h.elim
    | .index i :: rest => exact but_active (fun x y hxy => same_active t x y rest hxy) h
  | .vector t n, v, w, path, h => by
    match path with
    | [] => exact ⟨trivial, trivial⟩
    | .field _ :: _ => exact h.elim
    | .length :: _ => exact h.elim
    | .selector :: _ => exact h.elim
    | .index i :: rest => exact but_active (v := v) (w := w) (fun x y hxy => same_active t x y rest hxy) h
  | .list t n, v, w, path, h => by
    match path with
    | [] => exact ⟨trivial, trivial⟩
    | .field _ :: _ => exact h.elim
    | .length :: _ => exact h.elim
    | .selector :: _ => exact h.elim
    | .index i :: rest => exact but_active (v := v) (w := w) (fun x y hxy => same_active t x y rest hxy) h
  | .option t, v, w, path, h => by
    match path, v, w with
    | [], _, _ => exact ⟨trivial, trivial⟩
    | .field _ :: _, _, _ => exact h.elim
    | .length :: _, _, _ => exact h.elim
    | .selector :: _, _, _ => exact h.elim
    | .index i :: rest, none, none =>
      have h : i = 0 ∧ rest = [] := h
      exact ⟨h.1, h.1⟩
    | .index i :: rest, some x, some y =>
      have h : i = 1 ∧ SameBut t x y rest := h
      have h1 := same_active t x y rest h.2
      exact ⟨⟨h.1, h1.1⟩, h.1, h1.2⟩
    | .index _ :: _, none, some _ => exact (show False from h).elim
    | .index _ :: _, some _, none => exact (show False from h).elim
  | .newtype t, v, w, path, h => same_active t v w path h
  | .container fs, v, w, path, h => by
    match path with
    | [] => exact ⟨trivial, trivial⟩
    | .index _ :: _ => exact h.elim
    | .length :: _ => exact h.elim
    | .selector :: _ => exact h.elim
    | .field name :: rest => exact same_activeF fs v w name rest h
  | .union vs, v, w, path, h => by
    match path with
    | [] => exact ⟨trivial, trivial⟩
    | .field _ :: _ => exact h.elim
    | .length :: _ => exact h.elim
    | .selector :: _ => exact h.elim
    | .index i :: rest => exact same_activeV vs v w i rest h

theorem same_activeF : ∀ (fs : Fields) (v w : fs.Val) (name : String) (path : List PathElement),
    SameButF fs v w name path → ActiveF fs v name path ∧ ActiveF fs w name path
  | .nil, _, _, _, _, h => h.elim
  | .cons n t fs, v, w, name, path, h => by
    rw [SameButF] at h
    rw [ActiveF, ActiveF]
    by_cases hn : name = n
    · rw [if_pos hn] at h
      rw [if_pos hn, if_pos hn]
      exact same_active t v.1 w.1 path h.1
    · rw [if_neg hn] at h
      rw [if_neg hn, if_neg hn]
      exact same_activeF fs v.2 w.2 name path h.2

theorem same_activeV : ∀ (vs : Variants) (v w : vs.Val) (i : Nat) (path : List PathElement),
    SameButV vs v w i path → ActiveV vs v i path ∧ ActiveV vs w i path
  | .nil, v, _, _, _, _ => Empty.elim v
  | .unit _, .inl _, .inl _, i, path, h => ⟨h.1, h.1⟩
  | .unit vs, .inr v, .inr w, i, path, h =>
    have h1 := same_activeV vs v w (i - 1) path h.2
    ⟨⟨h.1, h1.1⟩, h.1, h1.2⟩
  | .unit _, .inl _, .inr _, _, _, h => h.elim
  | .unit _, .inr _, .inl _, _, _, h => h.elim
  | .data t _, .inl v, .inl w, i, path, h =>
    have h1 := same_active t v w path h.2
    ⟨⟨h.1, h1.1⟩, h.1, h1.2⟩
  | .data _ vs, .inr v, .inr w, i, path, h =>
    have h1 := same_activeV vs v w (i - 1) path h.2
    ⟨⟨h.1, h1.1⟩, h.1, h1.2⟩
  | .data _ _, .inl _, .inr _, _, _, h => h.elim
  | .data _ _, .inr _, .inl _, _, _, h => h.elim

end

/-! ## The whole value -/

theorem coll_fits {t : Ty} {n : Nat} {vs : List t.Val} {m : Option Nat}
    (hd : depthFor (itemCount prims t n) = depthFor (chunkCountBy packs t n))
    (hv : ∀ v ∈ vs, Valid t v) (h : vs.length ≤ n) :
    (Layer.mk (depthFor (itemCount prims t n)) (collParts t vs) m).Fits := by
  have h1 : (collParts t vs).length = chunkCountBy packs t vs.length := partsOf_length hv
  show (collParts t vs).length ≤ 2 ^ (depthFor (itemCount prims t n) + _)
  rw [h1, hd]
  refine Nat.le_trans (chunkCountBy_le h) (Nat.le_trans (le_pow_depthFor _) ?_)
  exact Nat.pow_le_pow_right (by decide) (by omega)

/-- Where the layer has the tree of the value there is room for all chunks. -/
theorem sameDepth_fits : ∀ (t : Ty) (v : t.Val), SameDepth t → Valid t v → (layer t v).Fits
  | .uint _, _, _, _ => Nat.two_pow_pos _
  | .u256, _, _, _ => Nat.two_pow_pos _
  | .bool, _, _, _ => Nat.two_pow_pos _
  | .node, _, _, _ => Nat.two_pow_pos _
  | .array t n, v, hd, hv => coll_fits hd hv (Nat.le_of_eq v.2)
  | .vector t n, v, hd, hv => coll_fits (vs := v) hd hv.2 (Nat.le_of_eq hv.1)
  | .list t n, v, hd, hv => coll_fits (vs := v) hd hv.2 hv.1
  | .bitvector n, v, _, hv => bits_fits (Nat.le_of_eq hv)
  | .bitlist n, v, _, hv => bits_fits hv.1
  | .option t, v, _, _ => by cases v <;> exact Nat.one_le_two_pow
  | .newtype t, v, hd, hv => sameDepth_fits t v hd hv
  | .container fs, v, _, _ => by
    show (treesByF packs fs v).length ≤ 2 ^ (depthFor (countF fs) + 0)
    exact Nat.le_trans (Nat.le_of_eq (treesByF_length (pk := packs) (fs := fs) (v := v)))
      (le_pow_depthFor _)
  | .union vs, v, _, _ => layerV_fits vs 0 v

/-- The answers of a value on such paths, also at index 1. -/
theorem answer_on (H : Bytes → Node) {t w : Ty} {v : t.Val} {path : List PathElement} {g : Nat}
    (hv : Valid t v) (hf : FlatOn t path) (hd : path = [] → SameDepth t)
    (hw : walkBy prims t path = some (g, w)) (ha : Active t v path) :
    SameDepth t ∧ Yields H (treeBy packs t v) g (answer H t v g) := by
  have hd : SameDepth t := by
    match path with
    | [] => exact hd rfl
    | e :: rest => exact on_sameDepth t hf hw
  refine ⟨hd, ?_⟩
  rcases Nat.lt_or_eq_of_le (walk_pos hw) with h | rfl
  · exact yields_on H t v hv path g w hf hw ha h
  · rw [← layer_tree t v hd]
    refine yields_in (sameDepth_fits t v hd hv) ?_ (sub_one _)
    rw [show Nat.log2 1 = 0 by decide +kernel]
    exact Nat.zero_le _

end Ssz
