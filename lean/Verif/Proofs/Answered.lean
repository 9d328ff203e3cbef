import Verif.Proofs.Answer

/-!
# Where the prover answers
-/

namespace Ssz

open Spec

/-- The tree has a node at the index, or the index is below a length or selector. -/
def Known (s : MTree) (g : Nat) : Prop := (∃ u, s.sub g = some u) ∨ BelowNumber s g

theorem Known.below {s u : MTree} {a b : Nat} (ha : 1 ≤ a) (hb : 1 ≤ b) (hs : s.sub a = some u)
    (h : Known u b) : Known s (gcat a b) := by
  rcases h with ⟨w, hw⟩ | ⟨c, d, m, hc, hd, hm, hn, rfl⟩
  · exact .inl ⟨w, (sub_cat ha hb).2 ⟨u, hs, hw⟩⟩
  · exact .inr ⟨gcat a c, d, m, Nat.le_trans ha (le_gcat _ _), hd, hm,
      (sub_cat ha hc).2 ⟨u, hs, hn⟩, (gcat_assoc hc (Nat.le_of_lt hd)).symm⟩

/-- An index in a tree with a number on the right. -/
theorem Known.node {l : MTree} {m g : Nat} (hm : m < 2 ^ 64) (hg : 1 ≤ g)
    (h : ∀ k, 1 ≤ k → g = gcat 2 k → Known l k) : Known (.node l (numLeaf m)) g := by
  obtain ⟨d, i, hi, rfl⟩ := exists_pow_add hg
  cases d with
  | zero =>
    obtain rfl : i = 0 := by simpa using hi
    exact .inl ⟨_, sub_one _⟩
  | succ d =>
    have h0 := Nat.two_pow_pos d
    rw [Nat.pow_succ] at hi
    by_cases hlt : i < 2 ^ d
    · have e : 2 ^ (d + 1) + i = gcat 2 (2 ^ d + i) := by
        rw [gcat_pow hlt, Nat.pow_succ]; omega
      have h1 := h (2 ^ d + i) (by omega) e
      rw [e]
      exact h1.below (by decide) (by omega) node_sub_left
    · have e : 2 ^ (d + 1) + i = gcat 3 (2 ^ d + (i - 2 ^ d)) := by
        rw [gcat_pow (by omega), Nat.pow_succ]; omega
      rw [e]
      have hs : (MTree.node l (numLeaf m)).sub 3 = some (numLeaf m) := node_sub_right
      by_cases h1 : 1 < 2 ^ d + (i - 2 ^ d)
      · exact .inr ⟨3, _, m, by decide, h1, hm, hs, rfl⟩
      · rw [show 2 ^ d + (i - 2 ^ d) = 1 by omega, gcat_one]
        exact .inl ⟨_, hs⟩

/-- Where a layer answers, if the parts only answer at indices known to them. -/
theorem answer_known {H : Bytes → Node} {l : Layer}
    {inner : Nat → Nat → Res MerkError (Node × List Node)}
    (hm : ∀ m, l.mixed = some m → m < 2 ^ 64)
    (hi : ∀ q b a, q < 2 ^ l.depth → 1 < b → inner q b = .ok a → ∃ s, l.parts[q]? = some s ∧ Known s b)
    {g : Nat} {a : Node × List Node} (h : l.answer H inner g = .ok a) : Known l.tree g := by
  rw [Layer.answer] at h
  split at h
  · cases h
  rename_i h0
  obtain ⟨d, ps, mixed⟩ := l
  obtain ⟨e, j, hj, rfl⟩ := exists_pow_add (h := g) (by omega)
  rw [log2_pow_add hj] at h
  cases mixed with
  | none =>
    show Known (full d ps) _
    have hh : (Layer.mk d ps none).height = d := rfl
    rw [hh] at h
    split at h
    · rename_i he
      refine .inl (full_some (by omega) ?_)
      have := Nat.pow_le_pow_right (show 0 < 2 by decide) he
      rw [Nat.pow_succ]; omega
    · rename_i he
      obtain ⟨k, rfl⟩ : ∃ k, e = d + (k + 1) := ⟨e - d - 1, by omega⟩
      have hq : j / 2 ^ (k + 1) < 2 ^ d := by
        rw [Nat.div_lt_iff_lt_mul (Nat.two_pow_pos _), ← Nat.pow_add]; exact hj
      have hr := Nat.mod_lt j (Nat.two_pow_pos (k + 1))
      have hcat : 2 ^ (d + (k + 1)) + j = gcat (2 ^ d + j / 2 ^ (k + 1))
          (2 ^ (k + 1) + j % 2 ^ (k + 1)) := by
        rw [gcat_pow hr, Nat.pow_add, Nat.add_mul, Nat.add_assoc, Nat.mul_comm (j / _),
          Nat.div_add_mod]
      have hdiv : (2 ^ (d + (k + 1)) + j) / 2 ^ (k + 1) = 2 ^ d + j / 2 ^ (k + 1) := by
        rw [Nat.pow_add, Nat.mul_comm, Nat.mul_add_div (Nat.two_pow_pos _)]
      have hmod : (2 ^ (d + (k + 1)) + j) % 2 ^ (k + 1) = j % 2 ^ (k + 1) := by
        rw [Nat.pow_add, Nat.mul_comm, Nat.mul_add_mod]
      rw [show d + (k + 1) - d = k + 1 by omega, hdiv, hmod, Nat.add_sub_cancel_left] at h
      have h2 : 2 ^ (k + 1) = 2 ^ k * 2 := Nat.pow_succ 2 k
      have h3 := Nat.two_pow_pos k
      have h4 := Nat.two_pow_pos d
      split at h
      · rename_i hin
        obtain ⟨s, hs, hk⟩ := hi _ _ _ hq (by omega) hin
        rw [hcat]
        refine hk.below (Nat.le_trans h4 (Nat.le_add_right _ _)) (Nat.le_trans (Nat.two_pow_pos _)
          (Nat.le_add_right _ _)) ?_
        rw [full_sub hq, show ps[j / 2 ^ (k + 1)]? = some s from hs]
        rfl
      · cases h
      · cases h
  | some m =>
    show Known (.node (full d ps) (numLeaf m)) _
    refine Known.node (hm m rfl) (by omega) fun c hc hgc => ?_
    obtain ⟨f, i, hfi, rfl⟩ := exists_pow_add hc
    have hh : (Layer.mk d ps (some m)).height = d + 1 := rfl
    rw [hh] at h
    have hef : e = f + 1 ∧ j = i := by
      rw [gcat_pow hfi] at hgc
      have h5 : 2 * 2 ^ f = 2 ^ (f + 1) := by rw [Nat.pow_succ]; omega
      rw [h5] at hgc
      have h6 := log2_pow_add hj
      rw [hgc, log2_pow_add (by rw [Nat.pow_succ]; omega)] at h6
      subst h6
      exact ⟨rfl, by omega⟩
    obtain ⟨rfl, rfl⟩ := hef
    split at h
    · rename_i he
      refine .inl (full_some (by omega) ?_)
      have := Nat.pow_le_pow_right (show 0 < 2 by decide) (show f ≤ d by omega)
      rw [Nat.pow_succ]; omega
    · rename_i he
      obtain ⟨k, rfl⟩ : ∃ k, f = d + (k + 1) := ⟨f - d - 1, by omega⟩
      have hq : j / 2 ^ (k + 1) < 2 ^ d := by
        rw [Nat.div_lt_iff_lt_mul (Nat.two_pow_pos _), ← Nat.pow_add]; exact hfi
      have hr := Nat.mod_lt j (Nat.two_pow_pos (k + 1))
      have hcat : 2 ^ (d + (k + 1)) + j = gcat (2 ^ d + j / 2 ^ (k + 1))
          (2 ^ (k + 1) + j % 2 ^ (k + 1)) := by
        rw [gcat_pow hr, Nat.pow_add, Nat.add_mul, Nat.add_assoc, Nat.mul_comm (j / _),
          Nat.div_add_mod]
      have he : d + (k + 1) + 1 = d + 1 + (k + 1) := by omega
      have hdiv : (2 ^ (d + 1 + (k + 1)) + j) / 2 ^ (k + 1) = 2 ^ (d + 1) + j / 2 ^ (k + 1) := by
        rw [Nat.pow_add 2 (d + 1), Nat.mul_comm, Nat.mul_add_div (Nat.two_pow_pos _)]
      have hmod : (2 ^ (d + 1 + (k + 1)) + j) % 2 ^ (k + 1) = j % 2 ^ (k + 1) := by
        rw [Nat.pow_add 2 (d + 1), Nat.mul_comm, Nat.mul_add_mod]
      rw [he, show d + 1 + (k + 1) - (d + 1) = k + 1 by omega, hdiv, hmod, Nat.add_sub_cancel_left] at h
      have h2 : 2 ^ (k + 1) = 2 ^ k * 2 := Nat.pow_succ 2 k
      have h3 := Nat.two_pow_pos k
      have h4 := Nat.two_pow_pos d
      split at h
      · rename_i hin
        obtain ⟨s, hs, hk⟩ := hi _ _ _ hq (by omega) hin
        rw [hcat]
        refine hk.below (Nat.le_trans h4 (Nat.le_add_right _ _)) (Nat.le_trans (Nat.two_pow_pos _)
          (Nat.le_add_right _ _)) ?_
        rw [full_sub hq, show ps[j / 2 ^ (k + 1)]? = some s from hs]
        rfl
      · cases h
      · cases h

/-! ## Values in one chunk -/

/-- A layer of one leaf whose part does not answer only answers at its root. -/
theorem answer_flat {H : Bytes → Node} {l : Layer}
    {inner : Nat → Nat → Res MerkError (Node × List Node)} (hl : l.height = 0)
    (hi : ∀ q b a, 1 < b → inner q b ≠ .ok a) {g : Nat} (hg : 1 < g) (a : Node × List Node) :
    l.answer H inner g ≠ .ok a := by
  intro h
  have h1 : 0 < Nat.log2 g := by rw [log2_half hg]; omega
  rw [Layer.answer, if_neg (by omega), hl, if_neg (by omega)] at h
  split at h
  · rename_i hin
    refine hi _ _ _ ?_ hin
    have h2 : 2 ^ (Nat.log2 g - 0) = 2 * 2 ^ (Nat.log2 g - 1) := by
      obtain ⟨k, hk⟩ : ∃ k, Nat.log2 g = k + 1 := ⟨Nat.log2 g - 1, by omega⟩
      rw [hk, Nat.sub_zero, Nat.add_sub_cancel, Nat.pow_succ]; omega
    have := Nat.two_pow_pos (Nat.log2 g - 1)
    omega
  · cases h
  · cases h

theorem leaf_answer {H : Bytes → Node} {n : Node} {g : Nat} (hg : 1 < g) (a : Node × List Node) :
    leafAnswer H n g ≠ .ok a :=
  answer_flat rfl (fun _ _ _ _ => by simp) hg a

/-- Packed values of one chunk only answer at their root. -/
theorem packed_answer (H : Bytes → Node) : ∀ (t : Ty) (v : t.Val), packs t = true → flatElem t = true →
    ∀ {g : Nat}, 1 < g → ∀ a, answer H t v g ≠ .ok a
  | .uint _, _, _, _, _, hg, a => answer_flat rfl (fun _ _ _ _ => by simp [inner]) hg a
  | .u256, _, _, _, _, hg, a => answer_flat rfl (fun _ _ _ _ => by simp [inner]) hg a
  | .bool, _, _, _, _, hg, a => answer_flat rfl (fun _ _ _ _ => by simp [inner]) hg a
  | .node, _, _, _, _, hg, a => answer_flat rfl (fun _ _ _ _ => by simp [inner]) hg a
  | .array t n, v, hp, hf, g, hg, a => by
    have hc := flat_array (t := t) hp hf
    have hpt : packs t = true := hp
    rcases Nat.eq_zero_or_pos n with rfl | hn
    · simp [oneChunk] at hc
    · obtain ⟨hft, h1⟩ := oneChunk_step hc hn
      have hd : depthFor (itemCount prims t n) = 0 := by
        rw [Nat.zero_mul, Nat.zero_div, Nat.add_zero] at h1
        rcases Nat.eq_zero_or_pos (depthFor (itemCount prims t n)) with h | h
        · exact h
        · have := Nat.one_lt_two_pow (n := depthFor (itemCount prims t n)) (by omega)
          omega
      refine answer_flat (l := layer (.array t n) v) hd (fun q b a hb => ?_) hg a
      show elemAnswer n v.1 _ q b ≠ _
      rw [elemAnswer]
      split
      · simp
      · split
        · exact packed_answer H t _ hpt hft hb a
        · simp

/-! ## All types -/

/-- The parts of a collection only answer at indices known to them. -/
theorem coll_known {H : Bytes → Node} {t : Ty} {n : Nat} {vs : List t.Val} (hf : flatElem t = true)
    (ih : ∀ x ∈ vs, ∀ g a, answer H t x g = .ok a → Known (treeBy packs t x) g) (q b : Nat)
    (a : Node × List Node) (hb : 1 < b)
    (h : elemAnswer n vs (fun x => answer H t x) q b = .ok a) :
    ∃ s, (collParts t vs)[q]? = some s ∧ Known s b := by
  rw [elemAnswer] at h
  split at h
  · cases h
  · split at h
    · rename_i x hx
      cases hp : packs t with
      | true => exact absurd h (packed_answer H t x hp hf hb a)
      | false =>
        refine ⟨treeBy packs t x, ?_, ih x (List.mem_of_getElem? hx) b a h⟩
        rw [collParts, hp, if_neg (by simp), List.getElem?_map, hx]
        rfl
    · cases h

mutual

theorem known (H : Bytes → Node) : ∀ (t : Ty) (v : t.Val), Legal t → Flat t → Valid t v →
    InMemory t v → ∀ (g : Nat) (a : Node × List Node), answer H t v g = .ok a →
    Known (treeBy packs t v) g
  | .uint _, _, _, _, _, _, _, _, h => answer_known (l := leafLayer _) (by simp [leafLayer])
      (fun _ _ _ _ _ h => by simp [inner] at h) h
  | .u256, _, _, _, _, _, _, _, h => answer_known (l := leafLayer _) (by simp [leafLayer])
      (fun _ _ _ _ _ h => by simp [inner] at h) h
  | .bool, _, _, _, _, _, _, _, h => answer_known (l := leafLayer _) (by simp [leafLayer])
      (fun _ _ _ _ _ h => by simp [inner] at h) h
  | .node, _, _, _, _, _, _, _, h => answer_known (l := leafLayer _) (by simp [leafLayer])
      (fun _ _ _ _ _ h => by simp [inner] at h) h
  | .array t n, v, hl, hf, hv, hm, g, a, h => by
    rw [← layer_tree (.array t n) v (flat_sameDepth _ hf)]
    exact answer_known (by simp [layer]) (fun q b a _ hb h => coll_known hf.1
      (fun x hx => known H t x hl.2 hf.2 (hv x hx) (hm.2 x hx)) q b a hb h) h
  | .vector t n, v, hl, hf, hv, hm, g, a, h => by
    rw [← layer_tree (.vector t n) v (flat_sameDepth _ hf)]
    exact answer_known (by simp [layer]) (fun q b a _ hb h => coll_known (vs := v) hf.1
      (fun x hx => known H t x hl.2 hf.2 (hv.2 x hx) (hm.2 x hx)) q b a hb h) h
  | .list t n, v, hl, hf, hv, hm, g, a, h => by
    rw [← layer_tree (.list t n) v (flat_sameDepth _ hf)]
    refine answer_known ?_ (fun q b a _ hb h => coll_known (vs := v) hf.1
      (fun x hx => known H t x hl hf.2 (hv.2 x hx) (hm.2 x hx)) q b a hb h) h
    rintro m ⟨⟩
    have := hm.1.1
    omega
  | .bitvector n, v, _, _, _, _, _, _, h => answer_known (l := layer (.bitvector n) v) (by simp [layer])
      (fun _ _ _ _ _ h => by simp [inner] at h) h
  | .bitlist n, v, _, _, _, hm, _, _, h => answer_known (l := layer (.bitlist n) v)
      (by rintro m ⟨⟩; exact hm) (fun _ _ _ _ _ h => by simp [inner] at h) h
  | .option t, v, hl, hf, hv, hm, g, a, h =>
    match v with
    | none => by
      refine answer_known (l := ⟨0, [.leaf zeroNode], some 0⟩) (by rintro m ⟨⟩; decide)
        (fun q b a hq hb h => ?_) h
      change (if 2 ≤ q then _ else leafAnswer H zeroNode b) = _ at h
      split at h
      · cases h
      · exact absurd h (leaf_answer hb a)
    | some x => by
      refine answer_known (l := ⟨0, [treeBy packs t x], some 1⟩) (by rintro m ⟨⟩; decide)
        (fun q b a hq hb h => ?_) h
      change (if 2 ≤ q then _ else answer H t x b) = _ at h
      obtain rfl : q = 0 := by simpa using hq
      exact ⟨_, rfl, known H t x hl hf (hv x rfl) (hm x rfl) b a h⟩
  | .newtype t, v, hl, hf, hv, hm, g, a, h => known H t v hl hf hv hm g a h
  | .container fs, v, hl, hf, hv, hm, g, a, h =>
    answer_known (l := layer (.container fs) v) (by simp [layer])
      (fun q b a _ _ h => knownF H fs v hl.2.2 hf hv hm q b a h) h
  | .union vs, v, hl, hf, hv, hm, g, a, h => by
    have hcount : countV vs < 2 ^ 64 := by
      obtain ⟨hs, -⟩ := hl
      cases vs with
      | nil => exact hs.elim
      | unit rest => obtain ⟨_, _, h⟩ := hs; simp only [countV]; omega
      | data t rest => obtain ⟨_, h⟩ := hs; simp only [countV]; omega
    obtain ⟨s, m, h1, h2, h3⟩ := knownV H vs 0 v hl.2 hf hv hm (by omega)
    rw [← layer_tree (.union vs) v trivial]
    refine answer_known (l := layer (.union vs) v) (fun k hk => ?_) (fun q b a hq hb h => ?_) h
    · change (layerV vs 0 v).mixed = _ at hk
      rw [h1] at hk
      cases hk
      exact h2
    · change (if countV vs ≤ q then _ else innerV H vs v b) = _ at h
      change q < 2 ^ (layerV vs 0 v).depth at hq
      show ∃ s, (layerV vs 0 v).parts[q]? = some s ∧ _
      rw [h1] at hq ⊢
      obtain rfl : q = 0 := by simpa using hq
      split at h
      · cases h
      · exact ⟨s, rfl, h3 b a hb h⟩

theorem knownF (H : Bytes → Node) : ∀ (fs : Fields) (v : fs.Val), LegalF fs → FlatF fs →
    ValidF fs v → InMemoryF fs v → ∀ (q b : Nat) (a : Node × List Node), innerF H fs v q b = .ok a →
    ∃ s, (treesByF packs fs v)[q]? = some s ∧ Known s b
  | .nil, _, _, _, _, _, _, _, _, h => by cases h
  | .cons _ t _, v, hl, hf, hv, hm, 0, b, a, h =>
    ⟨_, rfl, known H t v.1 hl.1 hf.1 hv.1 hm.1 b a h⟩
  | .cons _ _ fs, v, hl, hf, hv, hm, q + 1, b, a, h =>
    knownF H fs v.2 hl.2 hf.2 hv.2 hm.2 q b a h

theorem knownV (H : Bytes → Node) : ∀ (vs : Variants) (i : Nat) (v : vs.Val), LegalV vs → FlatV vs →
    ValidV vs v → InMemoryV vs v → i + countV vs < 2 ^ 64 →
    ∃ s m, layerV vs i v = ⟨0, [s], some m⟩ ∧ m < 2 ^ 64 ∧
      ∀ (b : Nat) (a : Node × List Node), 1 < b → innerV H vs v b = .ok a → Known s b
  | .nil, _, v, _, _, _, _, _ => Empty.elim v
  | .unit _, i, .inl _, _, _, _, _, _ =>
    ⟨_, i, rfl, by omega, fun b a hb h => absurd h (leaf_answer hb a)⟩
  | .unit rest, i, .inr v, hl, hf, hv, hm, hc =>
    knownV H rest (i + 1) v hl hf hv hm (by simp only [countV] at hc; omega)
  | .data t _, i, .inl v, hl, hf, hv, hm, _ =>
    ⟨_, i, rfl, by omega, fun b a _ h => known H t v hl.1 hf.1 hv hm b a h⟩
  | .data _ rest, i, .inr v, hl, hf, hv, hm, hc =>
    knownV H rest (i + 1) v hl.2 hf.2 hv hm (by simp only [countV] at hc; omega)

end

/-! ## Indices below a length or selector -/

theorem BelowNumber.none {s : MTree} {g : Nat} (h : BelowNumber s g) : s.sub g = none := by
  obtain ⟨a, b, m, ha, hb, _, hs, rfl⟩ := h
  cases hn : s.sub (gcat a b) with
  | none => rfl
  | some u =>
    obtain ⟨w, h1, h2⟩ := (sub_cat ha (Nat.le_of_lt hb)).1 hn
    rw [hs] at h1
    cases h1
    rw [numLeaf, leaf_sub (by omega)] at h2
    cases h2

end Ssz
