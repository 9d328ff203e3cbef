import Verif.Proofs.Root

/-!
# Types on which the packing of the implementation agrees with the specification
-/

namespace Ssz

open Spec

/-! ## Values that are one chunk -/

theorem oneChunk_packs : ∀ {t : Ty}, oneChunk t = true → packs t = true
  | .node, _ => rfl
  | .array t n, h => by
    rw [oneChunk, Bool.or_eq_true, Bool.and_eq_true, Bool.and_eq_true, Bool.and_eq_true] at h
    rcases h with h | h
    · exact h.1.1
    · exact oneChunk_packs (t := t) h.1

theorem oneChunk_basic {t : Ty} (h : oneChunk t = true) : isBasic t = false := by
  cases t <;> first | (simp only [isBasic]; done) | cases h

theorem oneChunk_len : ∀ {t : Ty}, oneChunk t = true → fixedLen t = 32
  | .node, _ => rfl
  | .array t n, h => by
    rw [oneChunk, Bool.or_eq_true, Bool.and_eq_true, Bool.and_eq_true, Bool.and_eq_true] at h
    rcases h with ⟨_, h⟩ | ⟨h, h1⟩
    · exact beq_iff_eq.1 h
    · rw [fixedLen, oneChunk_len h, beq_iff_eq.1 h1]

theorem packs_length {t : Ty} (v : t.Val) (h : packs t = true) : (enc t v).length = fixedLen t :=
  enc_length t v (packs_fixed h) (packs_valid v h)

theorem oneChunk_enc {t : Ty} (v : t.Val) (h : oneChunk t = true) : (enc t v).length = 32 := by
  rw [packs_length v (oneChunk_packs h), oneChunk_len h]

theorem array_enc {t : Ty} {n : Nat} (v : (Ty.array t n).Val) (h : packs t = true) :
    enc (.array t n) v = v.1.flatMap (enc t) := by
  rw [enc, assemble_fixed _ (by simp [packs_fixed h]), List.flatMap_map]

theorem leaves_one {b : Bytes} (h : b.length = 32) : leaves b = [.leaf ⟨b, h⟩] := by
  have h1 : flat [⟨b, h⟩] = b := by simp [flat]
  have h2 := chunkify_flat [⟨b, h⟩]
  rw [h1] at h2
  rw [leaves, h2]
  rfl

/-- The tree of such a value, whether arrays are packed or not. -/
theorem oneChunk_tree (pk : Ty → Bool) (hpk : ∀ t, packs t = true → isBasic t = true → pk t = true) :
    ∀ {t : Ty} (v : t.Val) (h : oneChunk t = true), treeBy pk t v = .leaf ⟨enc t v, oneChunk_enc v h⟩
  | .node, _, _ => rfl
  | .array t n, v, h => by
    have hl := oneChunk_enc v h
    have hp : packs t = true := oneChunk_packs (t := .array t n) h
    have hd : depthFor 1 = 0 := rfl
    have h32 : fixedLen t * n = 32 := oneChunk_len h
    rw [treeBy, chunkCountBy]
    cases hk : pk t with
    | true =>
      rw [if_pos rfl, if_pos rfl, Nat.mul_comm, h32]
      show full 0 _ = _
      have he := array_enc v hp
      have hl' : (v.1.flatMap (enc t)).length = 32 := by rw [← he]; exact hl
      rw [leaves_one hl']
      simp only [full, List.headD_cons, he]
    | false =>
      have h1 : oneChunk t = true ∧ n = 1 := by
        have h := h
        rw [oneChunk, Bool.or_eq_true, Bool.and_eq_true, Bool.and_eq_true, Bool.and_eq_true] at h
        rcases h with h | h
        · rw [hpk t h.1.1 h.1.2] at hk; cases hk
        · exact ⟨h.1, beq_iff_eq.1 h.2⟩
      obtain ⟨h1, rfl⟩ := h1
      obtain ⟨vs, hvs⟩ := v
      match vs, hvs with
      | [x], hvs =>
        have he := array_enc (t := t) (n := 1) ⟨[x], hvs⟩ hp
        simp only [Bool.false_eq_true, if_false, hd, full, List.map_cons, List.headD_cons,
          oneChunk_tree pk hpk x h1, he, List.flatMap_cons, List.flatMap_nil, List.append_nil]

/-- The tree of the elements of a collection, with two ways of packing. -/
theorem collection_std {t : Ty} (hs : elemStd t = true) (n : Nat) (vs : List t.Val)
    (h : ∀ v ∈ vs, treeBy packs t v = treeBy isBasic t v) :
    full (depthFor (chunkCountBy packs t n))
        (if packs t then leaves (vs.flatMap (enc t)) else vs.map (treeBy packs t)) =
      full (depthFor (chunkCountBy isBasic t n))
        (if isBasic t then leaves (vs.flatMap (enc t)) else vs.map (treeBy isBasic t)) := by
  have hm : vs.map (treeBy packs t) = vs.map (treeBy isBasic t) := List.map_congr_left h
  rw [elemStd, Bool.or_eq_true, beq_iff_eq] at hs
  rcases hs with hs | hp
  · rw [chunkCountBy, chunkCountBy, oneChunk_packs hs, oneChunk_basic hs, oneChunk_len hs]
    simp only [if_true, Bool.false_eq_true, if_false]
    rw [show (n * 32 + 31) / 32 = n by omega]
    congr 1
    have e : vs.flatMap (enc t) = flat (vs.map fun x => ⟨enc t x, oneChunk_enc x hs⟩) := by
      rw [flat, List.flatMap_map]
    rw [e, leaves, chunkify_flat, List.map_map]
    refine List.map_congr_left fun x _ => ?_
    rw [oneChunk_tree isBasic (fun _ _ h => h) x hs]
    rfl
  · unfold chunkCountBy
    rw [hp, hm]

mutual

theorem tree_std : ∀ (t : Ty) (v : t.Val), Std t → treeBy packs t v = treeBy isBasic t v
  | .uint _, _, _ => rfl
  | .u256, _, _ => rfl
  | .bool, _, _ => rfl
  | .node, _, _ => rfl
  | .array t n, v, h => collection_std h.1 n v.1 fun w _ => tree_std t w h.2
  | .vector t n, v, h => collection_std h.1 n v fun w _ => tree_std t w h.2
  | .list t n, v, h =>
    congrArg (fun x => MTree.node x (numLeaf (List.length (α := t.Val) v)))
      (collection_std h.1 n v fun w _ => tree_std t w h.2)
  | .bitvector _, _, _ => rfl
  | .bitlist _, _, _ => rfl
  | .option _, none, _ => rfl
  | .option t, some x, h => congrArg (fun y => MTree.node y (numLeaf 1)) (tree_std t x h)
  | .newtype t, v, h => tree_std t v h
  | .container fs, v, h => congrArg (full (depthFor (countF fs))) (tree_stdF fs v h)
  | .union vs, v, h => tree_stdV vs 0 v h

theorem tree_stdF : ∀ (fs : Fields) (v : fs.Val), StdF fs → treesByF packs fs v = treesByF isBasic fs v
  | .nil, _, _ => rfl
  | .cons _ t rest, v, h => by
    rw [treesByF, treesByF, tree_std t v.1 h.1, tree_stdF rest v.2 h.2]

theorem tree_stdV : ∀ (vs : Variants) (i : Nat) (v : vs.Val), StdV vs →
    treeByV packs vs i v = treeByV isBasic vs i v
  | .nil, _, v, _ => v.elim
  | .unit _, _, .inl _, _ => rfl
  | .unit rest, i, .inr v, h => tree_stdV rest (i + 1) v h
  | .data t _, i, .inl v, h => congrArg (fun y => MTree.node y (numLeaf i)) (tree_std t v h.1)
  | .data _ rest, i, .inr v, h => tree_stdV rest (i + 1) v h.2

end

end Ssz
