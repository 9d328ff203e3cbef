import Verif.Spec.Update
import Verif.Proofs.PathTree

/-! # Trees that differ in one subtree -/

namespace Ssz

open Spec

/-- The second tree is the first one with the subtree `s` at index `g` replaced by `s'`. -/
inductive Hole : Nat → MTree → MTree → MTree → MTree → Prop
  | here {s s' : MTree} : Hole 1 s s s' s'
  | left {g : Nat} {l l' r s s' : MTree} (hg : 1 ≤ g) (h : Hole g l s l' s') :
      Hole (gcat 2 g) (.node l r) s (.node l' r) s'
  | right {g : Nat} {l r r' s s' : MTree} (hg : 1 ≤ g) (h : Hole g r s r' s') :
      Hole (gcat 3 g) (.node l r) s (.node l r') s'

theorem Hole.comp {a b : Nat} {T T' s s' u u' : MTree} (hb : 1 ≤ b) (h1 : Hole a T s T' s')
    (h2 : Hole b s u s' u') : Hole (gcat a b) T u T' u' := by
  induction h1 with
  | here => rw [one_gcat hb]; exact h2
  | left hg _ ih =>
    rw [gcat_assoc hg hb]
    exact .left (Nat.le_trans hg (le_gcat _ _)) (ih h2)
  | right hg _ ih =>
    rw [gcat_assoc hg hb]
    exact .right (Nat.le_trans hg (le_gcat _ _)) (ih h2)

theorem Hole.sub {g : Nat} {T T' s s' : MTree} (h : Hole g T s T' s') :
    T.sub g = some s ∧ T'.sub g = some s' := by
  induction h with
  | here => exact ⟨sub_one _, sub_one _⟩
  | left hg _ ih =>
    exact ⟨(sub_cat (by decide) hg).2 ⟨_, node_sub_left, ih.1⟩,
      (sub_cat (by decide) hg).2 ⟨_, node_sub_left, ih.2⟩⟩
  | right hg _ ih =>
    exact ⟨(sub_cat (by decide) hg).2 ⟨_, node_sub_right, ih.1⟩,
      (sub_cat (by decide) hg).2 ⟨_, node_sub_right, ih.2⟩⟩

theorem branchAt_two {H : Bytes → Node} {l r : MTree} :
    (MTree.node l r).branchAt H 2 = [r.root H] := by
  rw [branchAt_step (by decide) (l := l) (r := r) (sub_one _), branchAt_one (by decide)]
  rfl

theorem branchAt_three {H : Bytes → Node} {l r : MTree} :
    (MTree.node l r).branchAt H 3 = [l.root H] := by
  rw [branchAt_step (by decide) (l := l) (r := r) (sub_one _), branchAt_one (by decide)]
  rfl

theorem Hole.branch {H : Bytes → Node} {g : Nat} {T T' s s' : MTree} (h : Hole g T s T' s') :
    T.branchAt H g = T'.branchAt H g := by
  induction h with
  | here => rw [branchAt_one (Nat.le_refl 1), branchAt_one (Nat.le_refl 1)]
  | left hg h ih =>
    rw [branchAt_cat (by decide) node_sub_left h.sub.1,
      branchAt_cat (by decide) node_sub_left h.sub.2, ih, branchAt_two, branchAt_two]
  | right hg h ih =>
    rw [branchAt_cat (by decide) node_sub_right h.sub.1,
      branchAt_cat (by decide) node_sub_right h.sub.2, ih, branchAt_three, branchAt_three]

theorem full_hole {s s' : MTree} : ∀ {d : Nat} {a b : List MTree}, a.length < 2 ^ d →
    Hole (2 ^ d + a.length) (full d (a ++ s :: b)) s (full d (a ++ s' :: b)) s'
  | 0, a, b, h => by
    simp at h
    subst h
    exact .here
  | d + 1, a, b, h => by
    rw [Nat.pow_succ] at h
    have h2 := Nat.two_pow_pos d
    by_cases hi : a.length < 2 ^ d
    · have h1 : 2 ^ (d + 1) + a.length = gcat 2 (2 ^ d + a.length) := by
        rw [gcat_pow hi, Nat.pow_succ]; omega
      have h3 : ∀ s : MTree, (a ++ s :: b).take (2 ^ d) = a ++ s :: b.take (2 ^ d - a.length - 1) := by
        intro s
        rw [List.take_append, List.take_of_length_le (by omega),
          show 2 ^ d - a.length = (2 ^ d - a.length - 1) + 1 by omega, List.take_succ_cons]
        rfl
      have h4 : ∀ s : MTree, (a ++ s :: b).drop (2 ^ d) = b.drop (2 ^ d - a.length - 1) := by
        intro s
        rw [List.drop_append, List.drop_of_length_le (by omega),
          show 2 ^ d - a.length = (2 ^ d - a.length - 1) + 1 by omega, List.drop_succ_cons]
        rfl
      rw [h1, full, full, h3, h3, h4, h4]
      exact .left (by omega) (full_hole hi)
    · have h1 : 2 ^ (d + 1) + a.length = gcat 3 (2 ^ d + (a.drop (2 ^ d)).length) := by
        rw [gcat_pow (by rw [List.length_drop]; omega), List.length_drop, Nat.pow_succ]; omega
      have h3 : ∀ s : MTree, (a ++ s :: b).take (2 ^ d) = a.take (2 ^ d) := by
        intro s
        rw [List.take_append_of_le_length (by omega)]
      have h4 : ∀ s : MTree, (a ++ s :: b).drop (2 ^ d) = a.drop (2 ^ d) ++ s :: b := by
        intro s
        rw [List.drop_append_of_le_length (by omega)]
      rw [h1, full, full, h3, h3, h4, h4]
      exact .right (by omega) (full_hole (by rw [List.length_drop]; omega))

/-! ## Chunks -/

/-- Two lists of the same length that are equal except at one position. -/
theorem split_at {α : Type} {l l' : List α} {c : Nat} (h1 : l.length = l'.length) (hc : c < l.length)
    (h : ∀ j, j ≠ c → l[j]? = l'[j]?) :
    ∃ a x y b, l = a ++ x :: b ∧ l' = a ++ y :: b ∧ a.length = c := by
  refine ⟨l.take c, l[c], l'[c]'(by omega), l.drop (c + 1), ?_, ?_, by simp; omega⟩
  · rw [List.getElem_cons_drop, List.take_append_drop]
  · have h2 : l.take c = l'.take c := by
      refine List.ext_getElem? fun j => ?_
      rw [List.getElem?_take, List.getElem?_take]
      split
      · exact h j (by omega)
      · rfl
    have h3 : l.drop (c + 1) = l'.drop (c + 1) := by
      refine List.ext_getElem? fun j => ?_
      rw [List.getElem?_drop, List.getElem?_drop]
      exact h _ (by omega)
    rw [h2, h3, List.getElem_cons_drop, List.take_append_drop]

theorem getElem?_mid {α : Type} {a x y b : List α} {p : Nat} (h : x.length = y.length)
    (hp : p < a.length ∨ a.length + x.length ≤ p) : (a ++ x ++ b)[p]? = (a ++ y ++ b)[p]? := by
  rw [List.append_assoc, List.append_assoc]
  rcases hp with hp | hp
  · rw [List.getElem?_append_left hp, List.getElem?_append_left hp]
  · rw [List.getElem?_append_right (by omega), List.getElem?_append_right (by omega),
      List.getElem?_append_right (by omega), List.getElem?_append_right (by omega), h]

theorem leaves_eq {b b' : Bytes} {j : Nat} (hl : b.length = b'.length)
    (h : ∀ p, p / 32 = j → b[p]? = b'[p]?) : (leaves b)[j]? = (leaves b')[j]? := by
  by_cases hj : 32 * j < b.length
  · rw [leaves_get hj, leaves_get (by omega)]
    congr 2
    apply Subtype.ext
    simp only [pad32]
    refine List.ext_getElem? fun p => ?_
    rw [List.getElem?_take, List.getElem?_take]
    split
    · rename_i hp
      by_cases hq : p < (b.drop (32 * j)).length
      · rw [List.getElem?_append_left hq, List.getElem?_append_left (by simp at hq ⊢; omega),
          List.getElem?_drop, List.getElem?_drop]
        exact h _ (by omega)
      · rw [List.getElem?_append_right (by omega),
          List.getElem?_append_right (by simp at hq ⊢; omega)]
        simp [hl]
    · rfl
  · rw [List.getElem?_eq_none (by rw [leaves_length]; omega),
      List.getElem?_eq_none (by rw [leaves_length]; omega)]

/-- Changing bytes in one chunk. -/
theorem leaves_split {b b' : Bytes} {c : Nat} (hl : b.length = b'.length) (hc : 32 * c < b.length)
    (h : ∀ p, p / 32 ≠ c → b[p]? = b'[p]?) :
    ∃ a x y z, leaves b = a ++ x :: z ∧ leaves b' = a ++ y :: z ∧ a.length = c :=
  split_at (by rw [leaves_length, leaves_length, hl]) (by rw [leaves_length]; omega) fun _ hj =>
    leaves_eq hl fun p hp => h p (by rw [hp]; exact hj)

theorem packed_split {α : Type} {f : α → Bytes} {k : Nat} {a b : List α} {x y : α}
    (hk : ∀ x, (f x).length = k) (h0 : 0 < k) (h32 : k ∣ 32) :
    ∃ a' s s' z, leaves ((a ++ x :: b).flatMap f) = a' ++ s :: z ∧
      leaves ((a ++ y :: b).flatMap f) = a' ++ s' :: z ∧ a'.length = a.length * k / 32 := by
  have h1 : ∀ x, (a ++ x :: b).flatMap f = a.flatMap f ++ f x ++ b.flatMap f := by
    intro x; simp [List.append_assoc]
  have h2 : (a.flatMap f).length = a.length * k := by
    clear h1
    induction a with
    | nil => simp
    | cons c a ih => simp [hk, ih, Nat.succ_mul, Nat.add_comm]
  obtain ⟨m, hm⟩ := h32
  have h3 : a.length * k % 32 + k ≤ 32 := by
    have h4 : a.length * k % 32 = k * (a.length % m) := by
      rw [hm, Nat.mul_comm a.length, Nat.mul_mod_mul_left]
    have h5 : a.length % m < m := Nat.mod_lt _ (by
      rcases Nat.eq_zero_or_pos m with h | h
      · rw [h] at hm; omega
      · exact h)
    have h6 := Nat.mul_le_mul_left k (show a.length % m + 1 ≤ m from h5)
    rw [Nat.mul_add] at h6
    omega
  rw [h1, h1]
  refine leaves_split ?_ ?_ fun p hp => getElem?_mid (by rw [hk, hk]) ?_
  · simp [hk]
  · simp only [List.length_append, h2, hk]; omega
  · rw [h2, hk]; omega

theorem bits_split {a b : List Bool} {x y : Bool} :
    ∃ a' s s' z, leaves (packBits (a ++ x :: b)) = a' ++ s :: z ∧
      leaves (packBits (a ++ y :: b)) = a' ++ s' :: z ∧ a'.length = a.length / 256 := by
  refine leaves_split ?_ ?_ fun p hp => ?_
  · simp [packBits_length]
  · simp only [packBits_length, List.length_append, List.length_cons]; omega
  · by_cases hl : 8 * p < (a ++ x :: b).length
    · rw [packBits_get p hl, packBits_get p (by simpa using hl)]
      congr 2
      refine List.ext_getElem? fun q => ?_
      rw [List.getElem?_take, List.getElem?_take]
      split
      · rw [List.getElem?_drop, List.getElem?_drop]
        have := getElem?_mid (a := a) (x := [x]) (y := [y]) (b := b) (p := 8 * p + q) rfl
          (by simp only [List.length_singleton]; omega)
        simpa using this
      · rfl
    · rw [List.getElem?_eq_none (by rw [packBits_length]; omega),
        List.getElem?_eq_none (by rw [packBits_length]; simp at hl ⊢; omega)]

/-! ## Values that differ in one part -/

/-- The trees of the two values differ only at the index of the path. -/
def Holed (t : Ty) (v w : t.Val) (path : List PathElement) : Prop :=
  ∀ g x, walkBy prims t path = some (g, x) →
    ∃ s s', Hole g (treeBy packs t v) s (treeBy packs t w) s'

theorem holed_nil {t : Ty} {v w : t.Val} : Holed t v w [] := by
  intro g x h
  cases h
  exact ⟨_, _, .here⟩

theorem coll_holed {t x : Ty} {n i b : Nat} {vs ws : List t.Val} {rest : List PathElement}
    {R : t.Val → t.Val → Prop} (hf : flatElem t = true) (hi : i < n)
    (h : ButAt R i vs ws) (ih : ∀ v w, R v w → Holed t v w rest)
    (hw : walkBy prims t rest = some (b, x)) :
    ∃ s s', Hole (gcat (2 ^ depthFor (itemCount prims t n) + i * itemLen prims t / 32) b)
      (full (depthFor (chunkCountBy packs t n)) (partsOf t vs)) s
      (full (depthFor (chunkCountBy packs t n)) (partsOf t ws)) s' := by
  obtain ⟨a, v, w, c, rfl, rfl, rfl, hR⟩ := h
  have hpos := item_pos (t := t) hi
  have hb := walk_pos hw
  rw [← itemCount_eq hf]
  cases hk : packs t with
  | true =>
    obtain ⟨h1, h2, h3⟩ := packed_item hk hf
    rw [packed_walk hk hf hw, gcat_one, partsOf, partsOf, if_pos hk, if_pos hk]
    obtain ⟨a', s, s', z, h4, h5, h6⟩ := packed_split (f := enc t) (k := fixedLen t) (a := a) (b := c)
      (x := v) (y := w) (fun y => packs_length y hk) h2 h3
    rw [h1] at hpos ⊢
    rw [h4, h5, ← h6]
    exact ⟨s, s', full_hole (by rw [h6]; exact hpos)⟩
  | false =>
    obtain ⟨s, s', h1⟩ := ih v w hR _ _ hw
    refine ⟨s, s', Hole.comp hb ?_ h1⟩
    rw [unpacked_item hk, Nat.mul_div_cancel _ (by decide)] at hpos ⊢
    rw [partsOf, partsOf, if_neg (by simp [hk]), if_neg (by simp [hk]), List.map_append,
      List.map_append, List.map_cons, List.map_cons]
    have h2 : a.length = (a.map (treeBy packs t)).length := by simp
    rw [h2] at hpos ⊢
    exact full_hole hpos

theorem bits_holed {n i : Nat} {vs ws : List Bool} {R : Bool → Bool → Prop} (hi : i < n)
    (h : ButAt R i vs ws) : ∃ s s', Hole (2 ^ depthFor ((n + 255) / 256) + i / 256)
      (full (depthFor ((n + 255) / 256)) (leaves (packBits vs))) s
      (full (depthFor ((n + 255) / 256)) (leaves (packBits ws))) s' := by
  obtain ⟨a, v, w, c, rfl, rfl, rfl, _⟩ := h
  obtain ⟨a', s, s', z, h4, h5, h6⟩ := bits_split (a := a) (b := c) (x := v) (y := w)
  have hpos := bit_pos hi
  rw [h4, h5, ← h6] at *
  exact ⟨s, s', full_hole hpos⟩

theorem node_hole {d i b : Nat} {l l' r s s' : MTree} (hi : i < 2 ^ d) (hb : 1 ≤ b)
    (h : Hole (gcat (2 ^ d + i) b) l s l' s') :
    Hole (gcat (2 * 2 ^ d + i) b) (.node l r) s (.node l' r) s' := by
  have h1 : 2 * 2 ^ d + i = gcat 2 (2 ^ d + i) := (gcat_pow hi).symm
  have h2 : 1 ≤ 2 ^ d + i := by have := Nat.two_pow_pos d; omega
  rw [h1, gcat_assoc h2 hb]
  exact .left (Nat.le_trans h2 (le_gcat _ _)) h

theorem basic_holed {t : Ty} {v w : t.Val} {path : List PathElement} (h : path = []) :
    Holed t v w path := by
  subst h
  exact holed_nil

mutual

theorem same_holed : ∀ (t : Ty) (v w : t.Val) (path : List PathElement), FlatOn t path →
    SameBut t v w path → Holed t v w path
  | .uint _, _, _, _, _, h => basic_holed h
  | .u256, _, _, _, _, h => basic_holed h
  | .bool, _, _, _, _, h => basic_holed h
  | .node, _, _, _, _, h => basic_holed h
  | .array t n, v, w, path, hf, h => by
    intro g x hw
    match path with
    | [] => exact holed_nil _ _ hw
    | .field _ :: _ => exact h.elim
    | .length :: _ => exact h.elim
    | .selector :: _ => exact h.elim
    | .index i :: rest =>
      obtain ⟨a, u, b, h1, h2, rfl⟩ := walk_cons.1 hw
      rw [stepBy] at h1
      split at h1
      · rename_i hi
        cases h1
        exact coll_holed (n := n) hf.1 hi h (fun x y hxy => same_holed t x y rest hf.2 hxy) h2
      · cases h1
  | .vector t n, v, w, path, hf, h => by
    intro g x hw
    match path with
    | [] => exact holed_nil _ _ hw
    | .field _ :: _ => exact h.elim
    | .length :: _ => exact h.elim
    | .selector :: _ => exact h.elim
    | .index i :: rest =>
      obtain ⟨a, u, b, h1, h2, rfl⟩ := walk_cons.1 hw
      rw [stepBy] at h1
      split at h1
      · rename_i hi
        cases h1
        exact coll_holed (n := n) hf.1 hi h (fun x y hxy => same_holed t x y rest hf.2 hxy) h2
      · cases h1
  | .list t n, v, w, path, hf, h => by
    intro g x hw
    match path with
    | [] => exact holed_nil _ _ hw
    | .field _ :: _ => exact h.elim
    | .length :: _ => exact h.elim
    | .selector :: _ => exact h.elim
    | .index i :: rest =>
      obtain ⟨a, u, b, h1, h2, rfl⟩ := walk_cons.1 hw
      rw [stepBy] at h1
      split at h1
      · rename_i hi
        cases h1
        obtain ⟨s, s', h3⟩ := coll_holed (n := n) hf.1 hi h
          (fun x y hxy => same_holed t x y rest hf.2 hxy) h2
        have hl : List.length (show List t.Val from v) = List.length (show List t.Val from w) := by
          obtain ⟨a, x, y, b, h4, h5, _⟩ := h
          exact (congrArg List.length h4).trans (Eq.trans (by simp) (congrArg List.length h5).symm)
        refine ⟨s, s', ?_⟩
        have h4 := node_hole (r := numLeaf (List.length (show List t.Val from w))) (item_pos hi)
          (walk_pos h2) h3
        show Hole _ (.node _ (numLeaf (List.length (show List t.Val from v)))) s _ s'
        rw [hl]
        exact h4
      · cases h1
  | .bitvector n, v, w, path, hf, h => by
    intro g x hw
    match path with
    | [] => exact holed_nil _ _ hw
    | .field _ :: _ => exact h.elim
    | .length :: _ => exact h.elim
    | .selector :: _ => exact h.elim
    | .index i :: rest =>
      obtain ⟨a, u, b, h1, h2, rfl⟩ := walk_cons.1 hw
      rw [stepBy] at h1
      split at h1
      · rename_i hi
        cases h1
        obtain ⟨s, s', h3⟩ := bits_holed (n := n) hi h
        obtain ⟨_, _, _, _, _, _, _, h4⟩ := h
        subst h4
        cases h2
        exact ⟨s, s', by rw [gcat_one]; exact h3⟩
      · cases h1
  | .bitlist n, v, w, path, hf, h => by
    intro g x hw
    match path with
    | [] => exact holed_nil _ _ hw
    | .field _ :: _ => exact h.elim
    | .length :: _ => exact h.elim
    | .selector :: _ => exact h.elim
    | .index i :: rest =>
      obtain ⟨a, u, b, h1, h2, rfl⟩ := walk_cons.1 hw
      rw [stepBy] at h1
      split at h1
      · rename_i hi
        cases h1
        obtain ⟨s, s', h3⟩ := bits_holed (n := n) hi h
        have hl : v.live.length = w.live.length := by
          obtain ⟨a, x, y, b, h4, h5, _⟩ := h
          rw [h4, h5]; simp
        obtain ⟨_, _, _, _, _, _, _, h4⟩ := h
        subst h4
        cases h2
        refine ⟨s, s', ?_⟩
        have h4 := node_hole (r := numLeaf w.live.length) (b := 1) (bit_pos hi) (Nat.le_refl 1)
          (by rw [gcat_one]; exact h3)
        show Hole _ (.node _ (numLeaf v.live.length)) s _ s'
        rw [hl]
        exact h4
      · cases h1
  | .option t, v, w, path, hf, h => by
    intro g x hw
    match path, v, w with
    | [], _, _ => exact holed_nil _ _ hw
    | .field _ :: _, _, _ => exact h.elim
    | .length :: _, _, _ => exact h.elim
    | .selector :: _, _, _ => exact h.elim
    | .index i :: rest, none, none =>
      obtain ⟨rfl, rfl⟩ : i = 0 ∧ rest = [] := h
      obtain ⟨a, u, b, h1, h2, rfl⟩ := walk_cons.1 hw
      cases h1
      cases h2
      exact ⟨_, _, .left (g := 1) (by decide) .here⟩
    | .index i :: rest, none, some y => exact (show False from h).elim
    | .index i :: rest, some y, none => exact (show False from h).elim
    | .index i :: rest, some y, some z =>
      obtain ⟨rfl, h⟩ : i = 1 ∧ SameBut t y z rest := h
      obtain ⟨a, u, b, h1, h2, rfl⟩ := walk_cons.1 hw
      cases h1
      obtain ⟨s, s', h3⟩ := same_holed t y z rest hf h _ _ h2
      exact ⟨s, s', .left (walk_pos h2) h3⟩
  | .newtype t, v, w, path, hf, h => by
    intro g x hw
    obtain ⟨w', hw'⟩ := walk_newtype hw
    exact same_holed t v w path hf h _ _ hw'
  | .container fs, v, w, path, hf, h => by
    intro g x hw
    match path with
    | [] => exact holed_nil _ _ hw
    | .index _ :: _ => exact h.elim
    | .length :: _ => exact h.elim
    | .selector :: _ => exact h.elim
    | .field name :: rest =>
      obtain ⟨a, u, b, h1, h2, rfl⟩ := walk_cons.1 hw
      obtain ⟨⟨k, u'⟩, h3, h4⟩ := Option.map_eq_some_iff.1 (show (fieldAt fs name).map _ = _ from h1)
      cases h4
      obtain ⟨a, y, z, c, s, s', h5, h6, h7, h8⟩ := same_holedF fs v w hf h h3 h2
      refine ⟨s, s', Hole.comp (walk_pos h2) ?_ h8⟩
      show Hole _ (full _ (treesByF packs fs v)) y (full _ (treesByF packs fs w)) z
      rw [h5, h6, ← h7]
      exact full_hole (Nat.lt_of_lt_of_le (h7 ▸ fieldAt_lt h3) (le_pow_depthFor _))
  | .union vs, v, w, path, hf, h => by
    intro g x hw
    match path with
    | [] => exact holed_nil _ _ hw
    | .field _ :: _ => exact h.elim
    | .length :: _ => exact h.elim
    | .selector :: _ => exact h.elim
    | .index i :: rest =>
      obtain ⟨a, u, b, h1, h2, rfl⟩ := walk_cons.1 hw
      obtain ⟨o, h3, h4⟩ := Option.map_eq_some_iff.1 (show (variantAt vs i).map _ = _ from h1)
      cases h4
      exact same_holedV vs 0 v w hf h h3 h2

theorem same_holedF : ∀ (fs : Fields) (v w : fs.Val) {name : String} {rest : List PathElement}
    {k b : Nat} {u x : Ty}, FlatOnF fs name rest → SameButF fs v w name rest → fieldAt fs name = some (k, u) →
    walkBy prims u rest = some (b, x) → ∃ a y z c s s', treesByF packs fs v = a ++ y :: c ∧
      treesByF packs fs w = a ++ z :: c ∧ a.length = k ∧ Hole b y s z s'
  | .nil, _, _, _, _, _, _, _, _, _, _, h, _ => by cases h
  | .cons n t fs, v, w, name, rest, k, b, u, x, hf, h, h1, h2 => by
    rw [fieldAt] at h1
    rw [SameButF] at h
    rw [FlatOnF] at hf
    by_cases hn : name = n
    · rw [if_pos hn] at h1 h hf
      cases h1
      obtain ⟨s, s', h3⟩ := same_holed t v.1 w.1 rest hf h.1 _ _ h2
      refine ⟨[], _, _, treesByF packs fs w.2, s, s', ?_, rfl, rfl, h3⟩
      rw [treesByF, h.2]
      rfl
    · rw [if_neg hn] at h1 h hf
      obtain ⟨⟨k', u'⟩, h4, h5⟩ := Option.map_eq_some_iff.1 h1
      cases h5
      obtain ⟨a, y, z, c, s, s', h6, h7, h8, h9⟩ := same_holedF fs v.2 w.2 hf h.2 h4 h2
      refine ⟨treeBy packs t w.1 :: a, y, z, c, s, s', ?_, ?_, by simp [h8], h9⟩
      · rw [treesByF, h6, h.1]; rfl
      · rw [treesByF, h7]; rfl

theorem same_holedV : ∀ (vs : Variants) (j : Nat) (v w : vs.Val) {i : Nat} {rest : List PathElement}
    {b : Nat} {o : Option Ty} {x : Ty}, FlatOnV vs i rest → SameButV vs v w i rest →
    variantAt vs i = some o → walkBy prims (o.getD number) rest = some (b, x) →
    ∃ s s', Hole (gcat 2 b) (treeByV packs vs j v) s (treeByV packs vs j w) s'
  | .nil, _, v, _, _, _, _, _, _, _, _, _, _ => Empty.elim v
  | .unit vs, j, .inl v, .inl w, i, rest, b, o, x, hf, h, h1, h2 => by
    obtain ⟨rfl, rfl⟩ : i = 0 ∧ rest = [] := h
    cases h1
    cases h2
    exact ⟨_, _, .left (by decide) .here⟩
  | .unit vs, j, .inr v, .inr w, i, rest, b, o, x, hf, h, h1, h2 => by
    obtain ⟨hi, h⟩ : 0 < i ∧ SameButV vs v w (i - 1) rest := h
    match i with
    | 0 => omega
    | i + 1 => exact same_holedV vs (j + 1) v w hf h h1 h2
  | .unit vs, j, .inl v, .inr w, i, rest, b, o, x, hf, h, h1, h2 => (show False from h).elim
  | .unit vs, j, .inr v, .inl w, i, rest, b, o, x, hf, h, h1, h2 => (show False from h).elim
  | .data t vs, j, .inl v, .inl w, i, rest, b, o, x, hf, h, h1, h2 => by
    obtain ⟨rfl, h⟩ : i = 0 ∧ SameBut t v w rest := h
    cases h1
    obtain ⟨s, s', h3⟩ := same_holed t v w rest hf h _ _ h2
    exact ⟨s, s', .left (walk_pos h2) h3⟩
  | .data t vs, j, .inr v, .inr w, i, rest, b, o, x, hf, h, h1, h2 => by
    obtain ⟨hi, h⟩ : 0 < i ∧ SameButV vs v w (i - 1) rest := h
    match i with
    | 0 => omega
    | i + 1 => exact same_holedV vs (j + 1) v w hf h h1 h2
  | .data t vs, j, .inl v, .inr w, i, rest, b, o, x, hf, h, h1, h2 => (show False from h).elim
  | .data t vs, j, .inr v, .inl w, i, rest, b, o, x, hf, h, h1, h2 => (show False from h).elim

end

/-! ## The value of a part -/

/-- Everything that the theorems about proofs ask of a type and a value. -/
structure Fair (t : Ty) (v : t.Val) : Prop where
  legal : Legal t
  bounded : Bounded t
  shallow : Shallow t
  valid : Valid t v
  inMemory : InMemory t v

/-- The part is at the end of the path, has the tree at the index of the path, and meets all
conditions. -/
def Reached (u : Ty) (x : u.Val) (t : Ty) (v : t.Val) (path : List PathElement) : Prop :=
  ∀ g w, walkBy prims t path = some (g, w) →
    w = u ∧ (treeBy packs t v).sub g = some (treeBy packs u x) ∧ Fair u x

theorem reached_nil {u t : Ty} {x : u.Val} {v : t.Val} (hF : Fair t v)
    (h : (⟨t, v⟩ : Σ t : Ty, t.Val) = ⟨u, x⟩) : Reached u x t v [] := by
  intro g w hw
  cases h
  cases hw
  exact ⟨rfl, sub_one _, hF⟩

theorem reached_basic {u t : Ty} {x : u.Val} {v : t.Val} {path : List PathElement} (hF : Fair t v)
    (h : path = [] ∧ (⟨t, v⟩ : Σ t : Ty, t.Val) = ⟨u, x⟩) : Reached u x t v path := by
  obtain ⟨rfl, h⟩ := h
  exact reached_nil hF h

theorem unpacked_flat {t : Ty} (h : packs t = false) : flatElem t = true := by
  cases t with
  | array t n => simp [flatElem, show packs t = false from h]
  | _ => rfl

theorem coll_reached {t u w : Ty} {n i b : Nat} {vs : List t.Val} {y : t.Val} {x : u.Val}
    {rest : List PathElement} (hk : packs t = false) (hi : i < n)
    (hy : vs[i]? = some y) (ih : Reached u x t y rest) (hw : walkBy prims t rest = some (b, w)) :
    w = u ∧ (full (depthFor (chunkCountBy packs t n)) (partsOf t vs)).sub
      (gcat (2 ^ depthFor (itemCount prims t n) + i * itemLen prims t / 32) b) =
        some (treeBy packs u x) ∧ Fair u x := by
  have hpos := item_pos (t := t) hi
  obtain ⟨h1, h2, h3⟩ := ih _ _ hw
  refine ⟨h1, ?_, h3⟩
  rw [← itemCount_eq (unpacked_flat hk)]
  refine full_elem hpos (walk_pos hw) ?_ h2
  rw [partsOf, if_neg (by simp [hk]), unpacked_item hk, Nat.mul_div_cancel _ (by decide),
    List.getElem?_map, hy]
  rfl

mutual

theorem leads_reached (u : Ty) (x : u.Val) : ∀ (t : Ty) (v : t.Val) (path : List PathElement),
    Fair t v → LeadsTo u x t v path → Reached u x t v path
  | .uint _, _, _, hF, h => reached_basic hF h
  | .u256, _, _, hF, h => reached_basic hF h
  | .bool, _, _, hF, h => reached_basic hF h
  | .node, _, _, hF, h => reached_basic hF h
  | .bitvector _, _, _, hF, h => reached_basic hF h
  | .bitlist _, _, _, hF, h => reached_basic hF h
  | .array t n, v, path, hF, h => by
    match path with
    | [] => exact reached_nil hF h
    | .field _ :: _ => exact h.elim
    | .length :: _ => exact h.elim
    | .selector :: _ => exact h.elim
    | .index i :: rest =>
      intro g w hw
      obtain ⟨a, u', b, h1, h2, rfl⟩ := walk_cons.1 hw
      obtain ⟨hk, y, hy, h⟩ := h
      rw [stepBy] at h1
      split at h1
      · rename_i hi
        cases h1
        have hmem := List.mem_of_getElem? hy
        exact coll_reached (n := n) hk hi hy (leads_reached u x t y rest
          ⟨hF.legal.2, hF.bounded.1, hF.shallow.2, hF.valid y hmem, hF.inMemory.2 y hmem⟩ h) h2
      · cases h1
  | .vector t n, v, path, hF, h => by
    match path with
    | [] => exact reached_nil hF h
    | .field _ :: _ => exact h.elim
    | .length :: _ => exact h.elim
    | .selector :: _ => exact h.elim
    | .index i :: rest =>
      intro g w hw
      obtain ⟨a, u', b, h1, h2, rfl⟩ := walk_cons.1 hw
      obtain ⟨hk, y, hy, h⟩ := h
      rw [stepBy] at h1
      split at h1
      · rename_i hi
        cases h1
        have hmem := List.mem_of_getElem? hy
        exact coll_reached (n := n) hk hi hy (leads_reached u x t y rest
          ⟨hF.legal.2, hF.bounded.1, hF.shallow.2, hF.valid.2 y hmem,
            hF.inMemory.2 y hmem⟩ h) h2
      · cases h1
  | .list t n, v, path, hF, h => by
    match path with
    | [] => exact reached_nil hF h
    | .field _ :: _ => exact h.elim
    | .length :: _ => exact h.elim
    | .selector :: _ => exact h.elim
    | .index i :: rest =>
      intro g w hw
      obtain ⟨a, u', b, h1, h2, rfl⟩ := walk_cons.1 hw
      obtain ⟨hk, y, hy, h⟩ := h
      rw [stepBy] at h1
      split at h1
      · rename_i hi
        cases h1
        have hmem := List.mem_of_getElem? hy
        obtain ⟨h3, h4, h5⟩ := coll_reached (n := n) hk hi hy (leads_reached u x t y rest
          ⟨hF.legal, hF.bounded.1, hF.shallow.2, hF.valid.2 y hmem,
            hF.inMemory.2 y hmem⟩ h) h2
        exact ⟨h3, node_elem (item_pos hi) (walk_pos h2) h4, h5⟩
      · cases h1
  | .option t, v, path, hF, h => by
    match path with
    | [] => exact reached_nil hF h
    | .field _ :: _ => exact h.elim
    | .length :: _ => exact h.elim
    | .selector :: _ => exact h.elim
    | .index i :: rest =>
      intro g w hw
      obtain ⟨a, u', b, h1, h2, rfl⟩ := walk_cons.1 hw
      obtain ⟨rfl, y, hy, h⟩ := h
      cases hy
      cases h1
      obtain ⟨h3, h4, h5⟩ := leads_reached u x t y rest
        ⟨hF.legal, hF.bounded, hF.shallow, hF.valid y rfl, hF.inMemory y rfl⟩ h _ _ h2
      exact ⟨h3, (sub_cat (by decide) (walk_pos h2)).2 ⟨_, node_sub_left, h4⟩, h5⟩
  | .newtype t, v, path, hF, h => by
    match path with
    | [] => exact reached_nil hF h
    | e :: rest =>
      intro g w hw
      exact leads_reached u x t v (e :: rest)
        ⟨hF.legal, hF.bounded, hF.shallow, hF.valid, hF.inMemory⟩ h _ _ hw
  | .container fs, v, path, hF, h => by
    match path with
    | [] => exact reached_nil hF h
    | .index _ :: _ => exact h.elim
    | .length :: _ => exact h.elim
    | .selector :: _ => exact h.elim
    | .field name :: rest =>
      intro g w hw
      obtain ⟨a, u', b, h1, h2, rfl⟩ := walk_cons.1 hw
      obtain ⟨⟨k, u'⟩, h3, h4⟩ := Option.map_eq_some_iff.1 (show (fieldAt fs name).map _ = _ from h1)
      cases h4
      obtain ⟨s, h5, h6, h7, h8⟩ := leads_reachedF u x fs v hF.legal.2.2 hF.bounded.1 hF.shallow.2
        hF.valid hF.inMemory h h3 h2
      exact ⟨h6, full_elem (Nat.lt_of_lt_of_le (fieldAt_lt h3) (le_pow_depthFor _)) (walk_pos h2)
        h5 h7, h8⟩
  | .union vs, v, path, hF, h => by
    match path with
    | [] => exact reached_nil hF h
    | .field _ :: _ => exact h.elim
    | .length :: _ => exact h.elim
    | .selector :: _ => exact h.elim
    | .index i :: rest =>
      intro g w hw
      obtain ⟨a, u', b, h1, h2, rfl⟩ := walk_cons.1 hw
      obtain ⟨o, h3, h4⟩ := Option.map_eq_some_iff.1 (show (variantAt vs i).map _ = _ from h1)
      cases h4
      exact leads_reachedV u x vs 0 v hF.legal.2 hF.bounded hF.shallow hF.valid hF.inMemory
        h h3 h2

theorem leads_reachedF (u : Ty) (x : u.Val) : ∀ (fs : Fields) (v : fs.Val) {name : String}
    {rest : List PathElement} {k b : Nat} {t w : Ty}, LegalF fs → BoundedF fs → ShallowF fs →
    ValidF fs v → InMemoryF fs v → LeadsToF u x fs v name rest →
    fieldAt fs name = some (k, t) → walkBy prims t rest = some (b, w) →
    ∃ s, (treesByF packs fs v)[k]? = some s ∧ w = u ∧ s.sub b = some (treeBy packs u x) ∧ Fair u x
  | .nil, _, _, _, _, _, _, _, _, _, _, _, _, h, _, _ => h.elim
  | .cons n t fs, v, name, rest, k, b, _, w, hl, hb, hs, hv, hm, h, h1, h2 => by
    rw [fieldAt] at h1
    rw [LeadsToF] at h
    by_cases hn : name = n
    · rw [if_pos hn] at h1 h
      cases h1
      obtain ⟨h3, h4, h5⟩ := leads_reached u x t v.1 rest
        ⟨hl.1, hb.1, hs.1, hv.1, hm.1⟩ h _ _ h2
      exact ⟨_, rfl, h3, h4, h5⟩
    · rw [if_neg hn] at h1 h
      obtain ⟨⟨k', u'⟩, h4, h5⟩ := Option.map_eq_some_iff.1 h1
      cases h5
      exact leads_reachedF u x fs v.2 hl.2 hb.2 hs.2 hv.2 hm.2 h h4 h2

theorem leads_reachedV (u : Ty) (x : u.Val) : ∀ (vs : Variants) (j : Nat) (v : vs.Val) {i : Nat}
    {rest : List PathElement} {b : Nat} {o : Option Ty} {w : Ty}, LegalV vs → BoundedV vs →
    ShallowV vs → ValidV vs v → InMemoryV vs v → LeadsToV u x vs v i rest →
    variantAt vs i = some o → walkBy prims (o.getD number) rest = some (b, w) →
    w = u ∧ (treeByV packs vs j v).sub (gcat 2 b) = some (treeBy packs u x) ∧ Fair u x
  | .nil, _, v, _, _, _, _, _, _, _, _, _, _, _, _, _ => Empty.elim v
  | .unit vs, j, .inl v, i, rest, b, o, w, hl, hb, hs, hv, hm, h, h1, h2 =>
    (show False from h).elim
  | .unit vs, j, .inr v, i, rest, b, o, w, hl, hb, hs, hv, hm, h, h1, h2 => by
    obtain ⟨hi, h⟩ : 0 < i ∧ LeadsToV u x vs v (i - 1) rest := h
    match i with
    | 0 => omega
    | i + 1 => exact leads_reachedV u x vs (j + 1) v hl hb hs hv hm h h1 h2
  | .data t vs, j, .inl v, i, rest, b, o, w, hl, hb, hs, hv, hm, h, h1, h2 => by
    obtain ⟨rfl, h⟩ : i = 0 ∧ LeadsTo u x t v rest := h
    cases h1
    obtain ⟨h3, h4, h5⟩ := leads_reached u x t v rest ⟨hl.1, hb.1, hs.1, hv, hm⟩ h _ _ h2
    exact ⟨h3, (sub_cat (by decide) (walk_pos h2)).2 ⟨_, node_sub_left, h4⟩, h5⟩
  | .data t vs, j, .inr v, i, rest, b, o, w, hl, hb, hs, hv, hm, h, h1, h2 => by
    obtain ⟨hi, h⟩ : 0 < i ∧ LeadsToV u x vs v (i - 1) rest := h
    match i with
    | 0 => omega
    | i + 1 => exact leads_reachedV u x vs (j + 1) v hl.2 hb.2 hs.2 hv hm h h1 h2

end

end Ssz
