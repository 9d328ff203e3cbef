import Verif.Proofs.PathTree
import Verif.Proofs.Std

/-!
# Paths in types on which the packing of the implementation agrees with the specification
-/

namespace Ssz

open Spec

theorem elemStd_flat {t : Ty} (h : elemStd t = true) : flatElem t = true := by
  cases t with
  | array t n =>
    rw [elemStd, Bool.or_eq_true] at h
    rcases h with h | h
    · rw [flatElem, h, Bool.or_true]
    · have h : packs t = false := by simpa [packs, isBasic] using h
      rw [flatElem, h]
      rfl
  | _ => rfl

mutual

theorem std_flat : ∀ (t : Ty), Std t → Flat t
  | .uint _, _ => trivial
  | .u256, _ => trivial
  | .bool, _ => trivial
  | .node, _ => trivial
  | .array t _, h => ⟨elemStd_flat h.1, std_flat t h.2⟩
  | .vector t _, h => ⟨elemStd_flat h.1, std_flat t h.2⟩
  | .list t _, h => ⟨elemStd_flat h.1, std_flat t h.2⟩
  | .bitvector _, _ => trivial
  | .bitlist _, _ => trivial
  | .option t, h => std_flat t h
  | .newtype t, h => std_flat t h
  | .container fs, h => std_flatF fs h
  | .union vs, h => std_flatV vs h

theorem std_flatF : ∀ (fs : Fields), StdF fs → FlatF fs
  | .nil, _ => trivial
  | .cons _ t fs, h => ⟨std_flat t h.1, std_flatF fs h.2⟩

theorem std_flatV : ∀ (vs : Variants), StdV vs → FlatV vs
  | .nil, _ => trivial
  | .unit vs, h => std_flatV vs h
  | .data t vs, h => ⟨std_flat t h.1, std_flatV vs h.2⟩

end

theorem itemLen_std {t : Ty} (h : elemStd t = true) : itemLen prims t = itemLen isBasic t := by
  cases t with
  | newtype t =>
    have : isBasic (.newtype t) = false := by simpa [elemStd, oneChunk, packs] using h
    simp [itemLen, prims, this]
  | _ => rfl

theorem fieldAt_std {name : String} {k : Nat} {u : Ty} : ∀ {fs : Fields}, StdF fs →
    fieldAt fs name = some (k, u) → Std u
  | .nil, _, h => by cases h
  | .cons n t rest, hs, h => by
    rw [fieldAt] at h
    split at h
    · cases h; exact hs.1
    · obtain ⟨⟨a, b⟩, h1, h2⟩ := Option.map_eq_some_iff.1 h
      cases h2
      exact fieldAt_std hs.2 h1

theorem variantAt_std : ∀ {vs : Variants} {i : Nat} {o : Option Ty}, StdV vs →
    variantAt vs i = some o → Std (o.getD number)
  | .nil, _, _, _, h => by cases h
  | .unit _, 0, _, _, h => by cases h; trivial
  | .unit rest, i + 1, _, hs, h => variantAt_std (vs := rest) (i := i) hs h
  | .data t _, 0, _, hs, h => by cases h; exact hs.1
  | .data _ rest, i + 1, _, hs, h => variantAt_std (vs := rest) (i := i) hs.2 h

theorem step_std : ∀ (t : Ty) (e : PathElement), Std t → stepBy prims t e = stepBy isBasic t e ∧
    ∀ g u, stepBy isBasic t e = some (g, u) → Std u
  | .uint _, e, _ => by cases e <;> exact ⟨rfl, fun _ _ h => by cases h⟩
  | .u256, e, _ => by cases e <;> exact ⟨rfl, fun _ _ h => by cases h⟩
  | .bool, e, _ => by cases e <;> exact ⟨rfl, fun _ _ h => by cases h⟩
  | .node, e, _ => by cases e <;> exact ⟨rfl, fun _ _ h => by cases h⟩
  | .array t n, e, hs => by
    cases e with
    | index i =>
      simp only [stepBy, itemCount, itemLen_std hs.1]
      refine ⟨trivial, fun g u h => ?_⟩
      split at h <;> cases h
      exact hs.2
    | _ => exact ⟨rfl, fun _ _ h => by cases h⟩
  | .vector t n, e, hs => by
    cases e with
    | index i =>
      simp only [stepBy, itemCount, itemLen_std hs.1]
      refine ⟨trivial, fun g u h => ?_⟩
      split at h <;> cases h
      exact hs.2
    | _ => exact ⟨rfl, fun _ _ h => by cases h⟩
  | .list t n, e, hs => by
    cases e with
    | index i =>
      simp only [stepBy, itemCount, itemLen_std hs.1]
      refine ⟨trivial, fun g u h => ?_⟩
      split at h <;> cases h
      exact hs.2
    | length => exact ⟨rfl, fun _ _ h => by cases h; trivial⟩
    | _ => exact ⟨rfl, fun _ _ h => by cases h⟩
  | .bitvector n, e, _ => by
    refine ⟨by cases e <;> rfl, fun g u h => ?_⟩
    cases e with
    | index i =>
      rw [stepBy] at h
      split at h <;> cases h
      trivial
    | _ => cases h
  | .bitlist n, e, _ => by
    refine ⟨by cases e <;> rfl, fun g u h => ?_⟩
    cases e with
    | index i =>
      rw [stepBy] at h
      split at h <;> cases h
      trivial
    | length => cases h; trivial
    | _ => cases h
  | .option t, e, hs => by
    refine ⟨by cases e <;> rfl, fun g u h => ?_⟩
    cases e with
    | index i =>
      rw [stepBy] at h
      split at h
      · cases h; trivial
      · split at h <;> cases h
        exact hs
    | selector => cases h; trivial
    | _ => cases h
  | .newtype t, e, hs => by
    have h := step_std t e hs
    cases e <;> simpa only [stepBy] using h
  | .container fs, e, hs => by
    refine ⟨by cases e <;> rfl, fun g u h => ?_⟩
    cases e with
    | field name =>
      obtain ⟨⟨a, b⟩, h1, h2⟩ := Option.map_eq_some_iff.1 (show (fieldAt fs name).map _ = _ from h)
      cases h2
      exact fieldAt_std hs h1
    | _ => cases h
  | .union vs, e, hs => by
    refine ⟨by cases e <;> rfl, fun g u h => ?_⟩
    cases e with
    | index i =>
      obtain ⟨o, h1, h2⟩ := Option.map_eq_some_iff.1 (show (variantAt vs i).map _ = _ from h)
      cases h2
      exact variantAt_std hs h1
    | selector => cases h; trivial
    | _ => cases h

theorem walk_std : ∀ (path : List PathElement) (t : Ty), Std t →
    walkBy prims t path = walkBy isBasic t path
  | [], _, _ => rfl
  | e :: path, t, hs => by
    obtain ⟨h1, h2⟩ := step_std t e hs
    rw [walkBy, walkBy, h1]
    cases h3 : stepBy isBasic t e with
    | none => rfl
    | some p => simp only [walk_std path p.2 (h2 p.1 p.2 h3)]

/-! ## Parts -/

/-- Found in the same subtrees, or more. -/
def Covers (o o' : Option Found) : Prop :=
  ∀ f, o = some f → ∃ f', o' = some f' ∧ ∀ u, f'.In u → f.In u

theorem covers_refl (o : Option Found) : Covers o o := fun f h => ⟨f, h, fun _ h => h⟩

theorem covers_tree {s s' : MTree} (h : s = s') : Covers (some (.tree s)) (some (.tree s')) := by
  subst h; exact covers_refl _

/-- A subtree that holds the bytes of a value that is one chunk. -/
theorem bytes_leaf {t : Ty} {x : t.Val} (h : oneChunk t = true) {u : MTree}
    (hu : (Found.bytes 0 (enc t x)).In u) : u = .leaf ⟨enc t x, oneChunk_enc x h⟩ := by
  obtain ⟨n, rfl, _, h1⟩ := hu
  rw [oneChunk_enc x h, List.drop_zero, List.take_of_length_le (by rw [n.2])] at h1
  exact congrArg MTree.leaf (Subtype.ext h1)

/-- A part of a value that is one chunk. -/
theorem oneChunk_covers : ∀ {t : Ty} {x : t.Val} {path : List PathElement}, oneChunk t = true →
    Covers (partBy isBasic t x path) (bytesPart t x 0 path)
  | .node, x, [], h => fun f hf => by
    cases hf
    exact ⟨_, rfl, fun u hu => bytes_leaf (t := .node) (x := x) h hu⟩
  | .node, _, _ :: _, _ => fun f hf => by cases hf
  | .array t n, v, [], h => fun f hf => by
    cases hf
    refine ⟨_, rfl, fun u hu => ?_⟩
    show u = treeBy isBasic (.array t n) v
    rw [oneChunk_tree isBasic (fun _ _ h => h) v h]
    exact bytes_leaf h hu
  | .array t n, v, .field _ :: _, _ => fun f hf => by cases hf
  | .array t n, v, .length :: _, _ => fun f hf => by cases hf
  | .array t n, v, .selector :: _, _ => fun f hf => by cases hf
  | .array t n, v, .index i :: path, h => by
    cases hx : v.1[i]? with
    | none => exact fun f h => by simp only [partBy, hx] at h; cases h
    | some x =>
      simp only [partBy, bytesPart, hx]
      have hi : i < n := by
        by_contra hc
        rw [List.getElem?_eq_none (by rw [v.2]; omega)] at hx; cases hx
      rw [oneChunk, Bool.or_eq_true, Bool.and_eq_true, Bool.and_eq_true, Bool.and_eq_true, beq_iff_eq,
        beq_iff_eq] at h
      rcases h with ⟨⟨_, h2⟩, h3⟩ | ⟨h1, rfl⟩
      · rw [if_pos h2, Nat.mod_eq_of_lt, Nat.zero_add]
        · exact covers_refl _
        · rw [← h3, Nat.mul_comm]
          refine Nat.mul_lt_mul_of_pos_left hi ?_
          rcases Nat.eq_zero_or_pos (fixedLen t) with h | h
          · rw [h] at h3; omega
          · exact h
      · rw [oneChunk_basic h1, show i = 0 by omega, Nat.zero_mul, Nat.zero_add]
        exact oneChunk_covers h1

/-- An element of a collection. -/
theorem coll_covers {t : Ty} (hs : elemStd t = true) {i : Nat} {x : t.Val} {rest : List PathElement}
    (ih : Covers (partBy isBasic t x rest) (partBy packs t x rest)) :
    Covers (if isBasic t then bytesPart t x (i * fixedLen t % 32) rest else partBy isBasic t x rest)
      (if packs t then bytesPart t x (i * fixedLen t % 32) rest else partBy packs t x rest) := by
  rw [elemStd, Bool.or_eq_true, beq_iff_eq] at hs
  rcases hs with hs | hp
  · rw [oneChunk_basic hs, oneChunk_packs hs, oneChunk_len hs, Nat.mul_mod_left]
    exact oneChunk_covers hs
  · rw [hp]
    split
    · exact covers_refl _
    · exact ih

mutual

theorem part_std : ∀ (t : Ty) (v : t.Val) (path : List PathElement), Std t →
    Covers (partBy isBasic t v path) (partBy packs t v path)
  | .uint u, v, path, _ => covers_refl _
  | .u256, v, path, _ => covers_refl _
  | .bool, v, path, _ => covers_refl _
  | .node, v, path, _ => covers_refl _
  | .array t n, v, path, hs => by
    match path with
    | [] => exact covers_tree (tree_std (.array t n) v hs).symm
    | .field _ :: _ => exact fun _ h => by cases h
    | .length :: _ => exact fun _ h => by cases h
    | .selector :: _ => exact fun _ h => by cases h
    | .index i :: rest =>
      cases hx : v.1[i]? with
      | none => exact fun f h => by simp only [partBy, hx] at h; cases h
      | some x =>
        simp only [partBy, hx]
        exact coll_covers hs.1 (part_std t x rest hs.2)
  | .vector t n, v, path, hs => by
    match path with
    | [] => exact covers_tree (tree_std (.vector t n) v hs).symm
    | .field _ :: _ => exact fun _ h => by cases h
    | .length :: _ => exact fun _ h => by cases h
    | .selector :: _ => exact fun _ h => by cases h
    | .index i :: rest =>
      cases hx : (show List t.Val from v)[i]? with
      | none => exact fun f h => by simp only [partBy, hx] at h; cases h
      | some x =>
        simp only [partBy, hx]
        exact coll_covers hs.1 (part_std t x rest hs.2)
  | .list t n, v, path, hs => by
    match path with
    | [] => exact covers_tree (tree_std (.list t n) v hs).symm
    | .field _ :: _ => exact fun _ h => by cases h
    | .length :: _ => exact covers_refl _
    | .selector :: _ => exact fun _ h => by cases h
    | .index i :: rest =>
      cases hx : (show List t.Val from v)[i]? with
      | none => exact fun f h => by simp only [partBy, hx] at h; cases h
      | some x =>
        simp only [partBy, hx]
        exact coll_covers hs.1 (part_std t x rest hs.2)
  | .bitvector n, v, path, _ => by
    match path with
    | [] => exact covers_refl _
    | .field _ :: _ => exact covers_refl _
    | .length :: _ => exact covers_refl _
    | .selector :: _ => exact covers_refl _
    | .index i :: rest => exact covers_refl _
  | .bitlist n, v, path, _ => by
    match path with
    | [] => exact covers_refl _
    | .field _ :: _ => exact covers_refl _
    | .length :: _ => exact covers_refl _
    | .selector :: _ => exact covers_refl _
    | .index i :: rest => exact covers_refl _
  | .option t, v, path, hs => by
    match path, v with
    | [], v => exact covers_tree (tree_std (.option t) v hs).symm
    | .field _ :: _, _ => exact covers_refl _
    | .length :: _, _ => exact covers_refl _
    | .selector :: _, _ => exact covers_refl _
    | .index i :: rest, none => exact covers_refl _
    | .index i :: rest, some x =>
      show Covers (if i = 1 then partBy isBasic t x rest else none)
        (if i = 1 then partBy packs t x rest else none)
      split
      · exact part_std t x rest hs
      · exact covers_refl _
  | .newtype t, v, path, hs => part_std t v path hs
  | .container fs, v, path, hs => by
    match path with
    | [] => exact covers_tree (tree_std (.container fs) v hs).symm
    | .index _ :: _ => exact covers_refl _
    | .length :: _ => exact covers_refl _
    | .selector :: _ => exact covers_refl _
    | .field name :: rest => exact part_stdF fs v name rest hs
  | .union vs, v, path, hs => by
    match path with
    | [] => exact covers_tree (tree_std (.union vs) v hs).symm
    | .field _ :: _ => exact covers_refl _
    | .length :: _ => exact covers_refl _
    | .selector :: _ => exact covers_refl _
    | .index i :: rest => exact part_stdV vs v i rest hs

theorem part_stdF : ∀ (fs : Fields) (v : fs.Val) (name : String) (path : List PathElement), StdF fs →
    Covers (partByF isBasic fs v name path) (partByF packs fs v name path)
  | .nil, _, _, _, _ => covers_refl _
  | .cons n t fs, v, name, path, hs => by
    simp only [partByF]
    split
    · exact part_std t v.1 path hs.1
    · exact part_stdF fs v.2 name path hs.2

theorem part_stdV : ∀ (vs : Variants) (v : vs.Val) (i : Nat) (path : List PathElement), StdV vs →
    Covers (partByV isBasic vs v i path) (partByV packs vs v i path)
  | .nil, _, _, _, _ => covers_refl _
  | .unit vs, .inl v, i, path, _ => covers_refl _
  | .unit vs, .inr v, i, path, hs => by
    simp only [partByV]
    split
    · exact covers_refl _
    · exact part_stdV vs v (i - 1) path hs
  | .data t vs, .inl v, i, path, hs => by
    simp only [partByV]
    split
    · exact part_std t v path hs.1
    · exact covers_refl _
  | .data t vs, .inr v, i, path, hs => by
    simp only [partByV]
    split
    · exact covers_refl _
    · exact part_stdV vs v (i - 1) path hs.2

end

end Ssz
