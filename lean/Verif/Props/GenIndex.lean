import Verif.Proofs.Answer
import Verif.Proofs.IndexStd
import Verif.Props.Demo

/-!
# Properties C32 to C35: generalized indices

`Spec.gindex` and `Spec.walkBy` give the index over the natural numbers, without any bound. With
`prims` in place of the basic types, they give the index in the trees that the implementation has for
types outside `Std`. `Countable t path` says that the chunk counts of the collections on the path are
computed without overflow.
-/

namespace Ssz

open Spec

theorem countable_of_ok {E : Env} (hE : E.debug = true) {t : Ty} {path : List PathElement} {g : Nat}
    (h : generalizedIndex (t.impl E) path = .ok g) : Countable t path := by
  obtain ⟨i, w, h1, h2, _⟩ := gi_valid E h
  refine Classical.byContradiction fun hs => ?_
  have h3 := gi_panics E hE (p := 1) h1 h2 hs
  have h : (t.impl E).computeGeneralizedIndex 1 path = .ok g := h
  rw [h] at h3
  cases h3

/-! ## C32 -/

/-- The index computed is the one of the specification, unless it overflows in a build without
overflow checks. -/
theorem index_exact {E : Env} {t : Ty} {path : List PathElement} {g : Nat}
    (hfit : E.debug = false → Countable t path ∧ ∀ i w, walkBy prims t path = some (i, w) → i < 2 ^ 64)
    (h : generalizedIndex (t.impl E) path = .ok g) :
    ∃ w, walkBy prims t path = some (g, w) ∧ lengthOfBits t path = false ∧ g < 2 ^ 64 := by
  obtain ⟨i, w, h1, h2, h3⟩ := gi_valid E h
  have hlt := gi_lt E (show 1 < 2 ^ 64 by decide) h
  rw [one_gcat (walk_pos h1)] at h3
  cases hE : E.debug with
  | true => rw [h3 hE] at hlt ⊢; exact ⟨w, h1, h2, hlt⟩
  | false =>
    obtain ⟨hs, hi⟩ := hfit hE
    have h4 := gi_ok E (Nat.le_refl 1) hs h1 h2 (by rw [one_gcat (walk_pos h1)]; exact hi i w h1)
    have h5 : generalizedIndex (t.impl E) path = .ok i := by
      rw [one_gcat (walk_pos h1)] at h4; exact h4
    rw [h] at h5
    cases h5
    exact ⟨w, h1, h2, hlt⟩

theorem gindex_std {t : Ty} (hs : Std t) {path : List PathElement} {i : Nat} {w : Ty}
    (h : walkBy prims t path = some (i, w)) : gindex t path = some i := by
  rw [walk_std path t hs] at h
  rw [gindex, h]
  rfl

/-- C32 for types where the implementation agrees with the specification about packing: the node of
the tree of the specification at the index is the addressed part, a chunk that contains it at the
right position, or the length or selector. Builds without overflow checks are covered as long as the
index fits in 64 bits. -/
theorem C32_points_partial (E : Env) (t : Ty) (v : t.Val) (path : List PathElement) (g : Nat)
    (f : Found) (hs : Std t) (hv : Valid t v)
    (hfit : E.debug = false → Countable t path ∧ ∀ i, gindex t path = some i → i < 2 ^ 64)
    (hg : generalizedIndex (t.impl E) path = .ok g) (hf : part t v path = some f) :
    ∃ u, (tree t v).sub g = some u ∧ f.In u := by
  obtain ⟨w, h1, _, _⟩ := index_exact (fun hE => ⟨(hfit hE).1, fun i w h =>
    (hfit hE).2 i (gindex_std hs h)⟩) hg
  obtain ⟨f', hf', hin⟩ := part_std t v path hs f hf
  obtain ⟨u, h2, h3⟩ := part_points t v hv path g w f' (flat_on t path (std_flat t hs)) h1 hf'
  refine ⟨u, ?_, hin u h3⟩
  rw [tree, ← tree_std t v hs]
  exact h2

/-- C32 for all types and all paths that do not enter a collection of arrays of packed elements: the
same for the trees that the implementation computes roots of. -/
theorem C32_points_packed_partial (E : Env) (t : Ty) (v : t.Val) (path : List PathElement) (g : Nat)
    (f : Found) (hs : FlatOn t path) (hv : Valid t v)
    (hfit : E.debug = false → Countable t path ∧ ∀ i w, walkBy prims t path = some (i, w) → i < 2 ^ 64)
    (hg : generalizedIndex (t.impl E) path = .ok g) (hf : partBy packs t v path = some f) :
    ∃ u, (treeBy packs t v).sub g = some u ∧ f.In u := by
  obtain ⟨w, h1, _, _⟩ := index_exact hfit hg
  exact part_points t v hv path g w f hs h1 hf

/-- Element 1 of the `List<List<u16, 3>, 2>` in the enum of the struct: the number 7, at position 2
of a chunk. -/
def Demo.path : List PathElement := [.field "e", .index 2, .index 1, .index 1]

theorem Demo.ty_shallow : Shallow Demo.ty := by
  simp [Demo.ty, Shallow, ShallowF, ShallowV, Demo.unionTy, itemCount, itemLen, prims, fixedLen,
    UintTy.bits, countF]

theorem walk_of_index {pk : Ty → Bool} {t : Ty} {path : List PathElement} {g : Nat}
    (h : (walkBy pk t path).map (·.1) = some g) : ∃ w, walkBy pk t path = some (g, w) := by
  obtain ⟨⟨_, w⟩, h1, rfl⟩ := Option.map_eq_some_iff.1 h
  exact ⟨w, h1⟩

theorem Demo.gindex_path : gindex Demo.ty Demo.path = some 322 := by
  rw [gindex]; decide +kernel

example : Std Demo.ty ∧ Valid Demo.ty Demo.val ∧ Shallow Demo.ty ∧
    (∀ i, gindex Demo.ty Demo.path = some i → i < 2 ^ 64) ∧
    part Demo.ty Demo.val Demo.path = some (.bytes 2 [7, 0]) ∧
    ∀ E, generalizedIndex (Demo.ty.impl E) Demo.path = .ok 322 := by
  refine ⟨Demo.ty_std, Demo.val_valid, Demo.ty_shallow, ?_, rfl, fun E => ?_⟩
  · intro i h
    rw [Demo.gindex_path] at h
    cases h; decide
  · obtain ⟨w, hw⟩ := walk_of_index Demo.gindex_path
    have h := gi_ok E (Nat.le_refl 1) (countable_of_shallow Demo.ty_shallow) (path := Demo.path) (g := 322)
      (w := w) (by rw [walk_std _ _ Demo.ty_std]; exact hw)
      (by decide +kernel) (by decide +kernel)
    rw [one_gcat (by decide)] at h
    exact h

/-- `Vector<W, 64>` with `struct W(u8)` -/
def vectorOfNewtypes : Ty := .vector (.newtype (.uint .u8)) 64

def vectorOfNewtypesVal : vectorOfNewtypes.Val := (List.replicate 64 (7 : BitVec 8) : List (BitVec 8))

/-- `Vector<[u8; 4], 16>` -/
def vectorOfWords : Ty := .vector (.array (.uint .u8) 4) 16

def vectorOfWordsVal : vectorOfWords.Val :=
  (List.replicate 16 ⟨[1, 2, 3, 4], rfl⟩ : List { l : List (BitVec 8) // l.length = 4 })

theorem vectorOfWords_ok : Legal vectorOfWords ∧ Fits vectorOfWords ∧ Bounded vectorOfWords ∧
    Shallow vectorOfWords ∧ Valid vectorOfWords vectorOfWordsVal ∧
    InMemory vectorOfWords vectorOfWordsVal := by
  refine ⟨⟨by decide, by decide, trivial⟩, ⟨⟨trivial, by decide⟩, by decide⟩,
    ⟨⟨trivial, fun _ => by decide⟩, fun _ => by decide⟩, ⟨by decide, by decide, trivial⟩,
    ⟨rfl, fun _ _ _ _ => trivial⟩, ⟨⟨by decide, fun _ => by decide⟩, fun x hx =>
      ⟨⟨by rw [x.2]; decide, fun _ => by rw [x.2]; decide⟩, fun _ _ => trivial⟩⟩⟩

theorem full_sub_none : ∀ {d : Nat} {ts : List MTree} {g : Nat}, (∀ s ∈ ts, ∃ n, s = .leaf n) →
    2 ^ (d + 1) ≤ g → (full d ts).sub g = none
  | 0, ts, g, h, hg => by
    have : ∃ n, full 0 ts = .leaf n := by
      cases ts with
      | nil => exact ⟨zeroNode, rfl⟩
      | cons s ts => exact h s (by simp)
    obtain ⟨n, hn⟩ := this
    rw [hn, leaf_sub (by omega)]
  | d + 1, ts, g, h, hg => by
    cases hx : (full (d + 1) ts).sub g with
    | none => rfl
    | some u =>
      have h2 : ∀ k, 2 ^ (d + 2) ≤ gcat 2 k ∨ 2 ^ (d + 2) ≤ gcat 3 k → 1 ≤ k → 2 ^ (d + 1) ≤ k := by
        intro k hk h1
        obtain ⟨e, i, hi, rfl⟩ := exists_pow_add h1
        rw [gcat_pow hi, gcat_pow hi, Nat.pow_succ] at hk
        by_contra hc
        have hed : e ≤ d := by
          by_contra hc'
          have := Nat.pow_le_pow_right (show 0 < 2 by decide) (show d + 1 ≤ e by omega)
          omega
        have h3 := Nat.pow_le_pow_right (show 0 < 2 by decide) hed
        rw [Nat.pow_succ] at hk
        omega
      rw [full] at hx
      rcases node_sub_cases hx with ⟨h1, _⟩ | ⟨k, hk, rfl, h1⟩ | ⟨k, hk, rfl, h1⟩
      · have := Nat.one_lt_two_pow (n := d + 1 + 1) (by omega)
        omega
      · rw [full_sub_none (fun s hs => h s (List.mem_of_mem_take hs)) (h2 k (Or.inl hg) hk)] at h1
        cases h1
      · rw [full_sub_none (fun s hs => h s (List.mem_of_mem_drop hs)) (h2 k (Or.inr hg) hk)] at h1
        cases h1

/-- C32 is false for the trees of the specification: elements that are newtypes of basic types are
given an index as if they were not packed. For `Vector<W, 64>` with `struct W(u8)`, the index 64
of the first element does not exist in the tree, which has two leaves. -/
theorem C32_points_refuted : ∃ (t : Ty) (v : t.Val) (path : List PathElement) (g : Nat) (f : Found),
    Legal t ∧ Valid t v ∧ (∀ E, generalizedIndex (t.impl E) path = .ok g) ∧ part t v path = some f ∧
    (tree t v).sub g = none := by
  refine ⟨vectorOfNewtypes, vectorOfNewtypesVal, [.index 0], 64, _, ⟨by decide, trivial⟩,
    ⟨by decide, fun _ _ => trivial⟩, fun E => ?_, rfl, ?_⟩
  · obtain ⟨w, hw⟩ := walk_of_index (pk := prims) (t := vectorOfNewtypes) (path := [.index 0]) (g := 64)
      (by decide +kernel)
    have h := gi_ok E (Nat.le_refl 1) (t := vectorOfNewtypes)
      (countable_of_shallow ⟨by decide, trivial⟩) hw (by decide +kernel)
      (by decide +kernel)
    rw [one_gcat (by decide)] at h
    exact h
  · have h : tree vectorOfNewtypes vectorOfNewtypesVal =
        full (depthFor 2) (leaves (List.flatMap (enc (.newtype (.uint .u8))) vectorOfNewtypesVal)) := rfl
    rw [h, full_sub_none]
    · intro s hs
      rw [leaves, List.mem_map] at hs
      obtain ⟨n, _, rfl⟩ := hs
      exact ⟨n, rfl⟩
    · decide +kernel

/-- C32 is false for the trees that the implementation computes roots of: arrays that are elements
are packed, but the index is computed as if they were not. For `Vector<[u8; 4], 16>` the index 16 of
the first element does not exist in the tree, which has two leaves. -/
theorem C32_points_packed_refuted : ∃ (t : Ty) (v : t.Val) (path : List PathElement) (g : Nat)
    (f : Found), Legal t ∧ Valid t v ∧ (∀ E, generalizedIndex (t.impl E) path = .ok g) ∧
    partBy packs t v path = some f ∧ (∀ E, (t.impl E).hashTreeRoot v =
      .ok ((treeBy packs t v).root E.sha256)) ∧ (treeBy packs t v).sub g = none := by
  obtain ⟨hl, _, hb, hs, hv, hm⟩ := vectorOfWords_ok
  refine ⟨vectorOfWords, vectorOfWordsVal, [.index 0], 16, _, hl, hv, fun E => ?_, rfl,
    fun E => htr_ok E _ _ hl hb hv hm, ?_⟩
  · obtain ⟨w, hw⟩ := walk_of_index (pk := prims) (t := vectorOfWords) (path := [.index 0]) (g := 16)
      (by decide +kernel)
    have h := gi_ok E (Nat.le_refl 1) (t := vectorOfWords) (countable_of_shallow hs) hw (by decide +kernel)
      (by decide +kernel)
    rw [one_gcat (by decide)] at h
    exact h
  · have h : treeBy packs vectorOfWords vectorOfWordsVal =
        full (depthFor 2) (leaves (List.flatMap (enc (.array (.uint .u8) 4)) vectorOfWordsVal)) := rfl
    rw [h, full_sub_none]
    · intro s hs
      rw [leaves, List.mem_map] at hs
      obtain ⟨n, _, rfl⟩ := hs
      exact ⟨n, rfl⟩
    · decide +kernel

/-! ## C33 -/

/-- C33, builds without overflow checks: the paths accepted are the valid ones that do not take the
length of a `Bitlist`; all others are errors. -/
theorem C33_accepts_partial (E : Env) (hE : E.debug = false) (t : Ty) (path : List PathElement) :
    ((∃ g, generalizedIndex (t.impl E) path = .ok g) ↔
      ValidPath t path ∧ lengthOfBits t path = false) ∧
    (¬ (ValidPath t path ∧ lengthOfBits t path = false) →
      ∃ e, generalizedIndex (t.impl E) path = .err e) := by
  have h1 := gi_release E hE path t 1
  have h2 : (∃ g, generalizedIndex (t.impl E) path = .ok g) ↔
      ValidPath t path ∧ lengthOfBits t path = false := by
    constructor
    · rintro ⟨g, h⟩
      obtain ⟨i, w, h3, h4, _⟩ := gi_valid E h
      exact ⟨walk_valid.2 ⟨i, w, h3⟩, h4⟩
    · rintro ⟨h3, h4⟩
      obtain ⟨i, w, h3⟩ := walk_valid.1 h3
      exact h1.2 i w h3 h4
  refine ⟨h2, fun h => ?_⟩
  rw [← h2] at h
  cases h3 : generalizedIndex (t.impl E) path with
  | ok g => exact absurd ⟨g, h3⟩ h
  | err e => exact ⟨e, rfl⟩
  | panic => exact absurd h3 h1.1

/-- C33 in any build: an accepted path is valid; and if the index of no beginning of the path exceeds
64 bits, the result is an index exactly for the valid paths that do not take the length of a
`Bitlist`, and an error for all others. -/
theorem C33_accepts_fits_partial (E : Env) (t : Ty) (path : List PathElement) :
    (∀ g, generalizedIndex (t.impl E) path = .ok g → ValidPath t path) ∧
    (Countable t path →
      (∀ p q i w, path = p ++ q → walkBy prims t p = some (i, w) → i < 2 ^ 64) →
      ((∃ g, generalizedIndex (t.impl E) path = .ok g) ↔
        ValidPath t path ∧ lengthOfBits t path = false) ∧
      (¬ (ValidPath t path ∧ lengthOfBits t path = false) →
        ∃ e, generalizedIndex (t.impl E) path = .err e)) := by
  have h0 : ∀ g, generalizedIndex (t.impl E) path = .ok g →
      ValidPath t path ∧ lengthOfBits t path = false := by
    intro g h
    obtain ⟨i, w, h3, h4, _⟩ := gi_valid E h
    exact ⟨walk_valid.2 ⟨i, w, h3⟩, h4⟩
  refine ⟨fun g h => (h0 g h).1, fun hs hfit => ?_⟩
  have h2 : (∃ g, generalizedIndex (t.impl E) path = .ok g) ↔
      ValidPath t path ∧ lengthOfBits t path = false := by
    constructor
    · rintro ⟨g, h⟩
      exact h0 g h
    · rintro ⟨h3, h4⟩
      obtain ⟨i, w, h3⟩ := walk_valid.1 h3
      refine ⟨_, gi_ok E (Nat.le_refl 1) hs h3 h4 ?_⟩
      rw [one_gcat (walk_pos h3)]
      exact hfit path [] i w (List.append_nil _).symm h3
  refine ⟨h2, fun h => ?_⟩
  rw [← h2] at h
  cases h3 : generalizedIndex (t.impl E) path with
  | ok g => exact absurd ⟨g, h3⟩ h
  | err e => exact ⟨e, rfl⟩
  | panic =>
    obtain ⟨p, q, i, w, h4, h5, h6⟩ := gi_panic E (Nat.le_refl 1) hs h3
    rw [one_gcat (walk_pos h5)] at h6
    have := hfit p q i w h4 h5
    omega

/-- C33, builds with overflow checks, for every type and path. There is a panic exactly if after some
beginning of the path, itself valid, the index or the chunk count of a collection does not fit in 64
bits; a length or selector followed by something is refused before. Otherwise there is an index
exactly for the valid paths that do not take the length of a `Bitlist`, and an error for all others. -/
theorem C33_checked_partial (E : Env) (hE : E.debug = true) (t : Ty) (path : List PathElement) :
    (generalizedIndex (t.impl E) path = .panic ↔
      ∃ p q i w, path = p ++ q ∧ walkBy prims t p = some (i, w) ∧ lengthOfBits t p = false ∧
        (2 ^ 64 ≤ i ∨ ¬ Countable t p) ∧
        (q = [] ∨ p.getLast? ≠ some .length ∧ p.getLast? ≠ some .selector)) ∧
    (generalizedIndex (t.impl E) path ≠ .panic →
      ((∃ g, generalizedIndex (t.impl E) path = .ok g) ↔
        ValidPath t path ∧ lengthOfBits t path = false)) := by
  have h0 := gi_panic_iff E hE (path := path) (t := t) (p := 1) (Nat.le_refl 1) (by decide)
  refine ⟨h0.trans ?_, fun hn => ?_⟩
  · constructor
    · rintro ⟨q, r, g, w, h1, h2, h3, h4, h5⟩
      rw [one_gcat (walk_pos h2)] at h4
      exact ⟨q, r, g, w, h1, h2, h3, h4, h5.imp id fun h => not_or.1 h⟩
    · rintro ⟨q, r, g, w, h1, h2, h3, h4, h5⟩
      refine ⟨q, r, g, w, h1, h2, h3, ?_, h5.imp id fun h => not_or.2 h⟩
      rw [one_gcat (walk_pos h2)]
      exact h4
  · constructor
    · rintro ⟨g, h⟩
      obtain ⟨i, w, h3, h4, _⟩ := gi_valid E h
      exact ⟨walk_valid.2 ⟨i, w, h3⟩, h4⟩
    · rintro ⟨h3, h4⟩
      obtain ⟨i, w, h3⟩ := walk_valid.1 h3
      cases hr : generalizedIndex (t.impl E) path with
      | ok g => exact ⟨g, rfl⟩
      | err x => exact absurd hr (gi_no_err E h3 h4)
      | panic => exact absurd hr hn

/-- Both occur: in a `List<List<u8, 2^40>, 2^40>` the path to an element of an element panics, also if
it goes on; the path to the length of an element does not. -/
example (E : Env) (hE : E.debug = true) :
    generalizedIndex ((Ty.list (.list (.uint .u8) (2 ^ 40)) (2 ^ 40)).impl E) [.index 0, .index 0, .index 5] = .panic ∧
    ∃ g, generalizedIndex ((Ty.list (.list (.uint .u8) (2 ^ 40)) (2 ^ 40)).impl E) [.index 0, .length] = .ok g := by
  obtain ⟨d, H⟩ := E
  cases hE
  exact ⟨rfl, _, rfl⟩

/-- A valid path, and one that is not. -/
example : ValidPath Demo.ty Demo.path ∧ lengthOfBits Demo.ty Demo.path = false ∧
    ¬ ValidPath Demo.ty [.field "e", .index 3] := by
  refine ⟨by rw [ValidPath]; decide +kernel, by decide +kernel, ?_⟩
  rw [ValidPath]
  decide +kernel

/-- C33 is false of `Bitlist`: its length has a generalized index in the specification, but is
refused in every build. -/
theorem C33_accepts_refuted (n : Nat) : gindex (.bitlist n) [.length] = some 3 ∧
    ∀ E, ∃ e, generalizedIndex ((Ty.bitlist n).impl E) [.length] = .err e := by
  exact ⟨rfl, fun E => ⟨_, rfl⟩⟩

/-! ## C34 -/

/-- `List<List<u8, 2^40>, 2^40>` -/
def nestedLists : Ty := .list (.list (.uint .u8) (2 ^ 40)) (2 ^ 40)

theorem nestedLists_shallow : Shallow nestedLists := ⟨by decide, by decide, trivial⟩

theorem nestedLists_index : walkBy prims nestedLists [.index 0, .index 0] =
    some (2 ^ 77, .uint .u8) := by
  have h1 : depthFor (2 ^ 40) = 40 := depthFor_pow 40
  have h2 : depthFor (2 ^ 35) = 35 := depthFor_pow 35
  have h3 : itemCount prims (.list (.uint .u8) (2 ^ 40)) (2 ^ 40) = 2 ^ 40 := by decide +kernel
  have h4 : itemCount prims (.uint .u8) (2 ^ 40) = 2 ^ 35 := by decide +kernel
  refine walk_cons.2 ⟨2 ^ 41, .list (.uint .u8) (2 ^ 40), 2 ^ 36, ?_, ?_, by decide +kernel⟩
  · rw [nestedLists, stepBy, h3, h1]; rfl
  · refine walk_cons.2 ⟨2 ^ 36, .uint .u8, 1, ?_, rfl, by decide +kernel⟩
    rw [stepBy, h4, h2]; rfl

/-- C34 is false: in builds without overflow checks the index wraps around, in builds with overflow
checks the computation panics. For `List<List<u8, 2^40>, 2^40>` the index `2^77` of the first element
of the first list comes out as 0. -/
theorem C34_overflow_refuted :
    (gindex nestedLists [.index 0, .index 0] = some (2 ^ 77)) ∧ ∀ E : Env,
      (E.debug = false → generalizedIndex (nestedLists.impl E) [.index 0, .index 0] = .ok 0) ∧
      (E.debug = true → generalizedIndex (nestedLists.impl E) [.index 0, .index 0] = .panic) := by
  refine ⟨gindex_std (w := .uint .u8) ?_ nestedLists_index, fun E => ?_⟩
  · simp [nestedLists, Std, elemStd, packs, isBasic]
  · obtain ⟨d, H⟩ := E
    constructor
    · rintro ⟨⟩
      rfl
    · rintro ⟨⟩
      rfl

/-- C34, as far as it goes: in builds with overflow checks no wrong index is returned, and if the
index does not fit in 64 bits no index is returned at all; and in any build an index that fits is
returned correctly. -/
theorem C34_exact_partial (E : Env) (t : Ty) (path : List PathElement) (i : Nat) (w : Ty)
    (h : walkBy prims t path = some (i, w)) :
    (E.debug = true → (∀ g, generalizedIndex (t.impl E) path = .ok g → g = i) ∧
      (2 ^ 64 ≤ i → ∀ g, generalizedIndex (t.impl E) path ≠ .ok g)) ∧
    (Countable t path → i < 2 ^ 64 → lengthOfBits t path = false →
      generalizedIndex (t.impl E) path = .ok i) := by
  refine ⟨fun hE => ?_, fun hs hi hl => ?_⟩
  · have h1 : ∀ g, generalizedIndex (t.impl E) path = .ok g → g = i ∧ g < 2 ^ 64 := by
      intro g hg
      obtain ⟨w', h2, _, h3⟩ := index_exact (fun h' => by rw [hE] at h'; cases h') hg
      rw [h] at h2
      cases h2
      exact ⟨rfl, h3⟩
    refine ⟨fun g hg => (h1 g hg).1, fun hi g hg => ?_⟩
    obtain ⟨rfl, h2⟩ := h1 g hg
    omega
  · have h4 := gi_ok E (Nat.le_refl 1) hs h hl (by rw [one_gcat (walk_pos h)]; exact hi)
    rw [one_gcat (walk_pos h)] at h4
    exact h4

/-- C34: what happens for every valid path that does not take the length of a `Bitlist`. An index that
fits is returned; one that does not fit makes a build with overflow checks panic, and comes out modulo
`2^64` otherwise. -/
theorem C34_outcome_partial (E : Env) (t : Ty) (path : List PathElement) (i : Nat) (w : Ty)
    (hs : Countable t path) (h : walkBy prims t path = some (i, w))
    (hl : lengthOfBits t path = false) :
    generalizedIndex (t.impl E) path =
      if i < 2 ^ 64 then .ok i else if E.debug then .panic else .ok (i % 2 ^ 64) := by
  have h0 := C34_exact_partial E t path i w h
  split
  · exact h0.2 hs ‹_› hl
  · split
    · cases hr : generalizedIndex (t.impl E) path with
      | ok g => exact absurd hr ((h0.1 ‹_›).2 (by omega) g)
      | err x => exact absurd hr (gi_no_err E h hl)
      | panic => rfl
    · have h1 := gi_wraps E (by simpa using ‹¬ E.debug = true›) (p := 1) (by decide) hs h hl
      rw [one_gcat (walk_pos h)] at h1
      exact h1

example : Shallow nestedLists ∧ walkBy prims nestedLists [.index 0, .index 0] = some (2 ^ 77, .uint .u8) ∧
    lengthOfBits nestedLists [.index 0, .index 0] = false :=
  ⟨nestedLists_shallow, nestedLists_index, rfl⟩

/-- For standard types the index in question is that of the specification. -/
theorem C34_exact_std_partial (E : Env) (t : Ty) (path : List PathElement) (i : Nat) (hs : Std t)
    (h : gindex t path = some i) :
    (E.debug = true → (∀ g, generalizedIndex (t.impl E) path = .ok g → g = i) ∧
      (2 ^ 64 ≤ i → ∀ g, generalizedIndex (t.impl E) path ≠ .ok g)) ∧
    (Countable t path → i < 2 ^ 64 → lengthOfBits t path = false →
      generalizedIndex (t.impl E) path = .ok i) := by
  obtain ⟨⟨i', w⟩, h1, h2⟩ := Option.map_eq_some_iff.1 h
  cases h2
  exact C34_exact_partial E t path i' w (by rw [walk_std path t hs]; exact h1)

example : gindex Demo.ty Demo.path = some 322 ∧ 322 < 2 ^ 64 ∧
    gindex nestedLists [.index 0, .index 0] = some (2 ^ 77) ∧ 2 ^ 64 ≤ 2 ^ 77 :=
  ⟨Demo.gindex_path, by decide, C34_overflow_refuted.1, by decide⟩

/-- C34 for all types and all valid paths other than to the length of a `Bitlist`: the index returned
is right if and only if it fits in 64 bits and the chunk counts of the collections on the path are
computed without overflow. -/
theorem C34_right_iff_partial (E : Env) (t : Ty) (path : List PathElement) (i : Nat) (w : Ty)
    (h : walkBy prims t path = some (i, w)) (hl : lengthOfBits t path = false) :
    generalizedIndex (t.impl E) path = .ok i ↔ i < 2 ^ 64 ∧ Countable t path := by
  refine ⟨fun hg => ?_, fun ⟨hi, hs⟩ => (C34_exact_partial E t path i w h).2 hs hi hl⟩
  have hi := gi_lt E (show 1 < 2 ^ 64 by decide) hg
  refine ⟨hi, ?_⟩
  cases hE : E.debug with
  | true => exact countable_of_ok hE hg
  | false =>
    refine Classical.byContradiction fun hs => ?_
    obtain ⟨r, h1, _, h2⟩ := gi_falls E hE (Nat.le_refl 1) (Nat.le_refl 1) h hl
      (by rw [one_gcat (walk_pos h)]; exact hi)
    have h3 := h2 (.inr hs)
    rw [one_gcat (walk_pos h)] at h3
    have h1 : generalizedIndex (t.impl E) path = .ok r := h1
    rw [hg] at h1
    cases h1
    omega

/-- C34 where a chunk count on the path overflows: a panic with overflow checks; without them, an
index that is too small, if the right one fits in 64 bits. -/
theorem C34_count_partial (E : Env) (t : Ty) (path : List PathElement) (i : Nat) (w : Ty)
    (h : walkBy prims t path = some (i, w)) (hl : lengthOfBits t path = false)
    (hs : ¬ Countable t path) :
    (E.debug = true → generalizedIndex (t.impl E) path = .panic) ∧
    (E.debug = false → i < 2 ^ 64 → ∃ r, generalizedIndex (t.impl E) path = .ok r ∧ r < i) := by
  refine ⟨fun hE => gi_panics E hE h hl hs, fun hE hi => ?_⟩
  obtain ⟨r, h1, _, h2⟩ := gi_falls E hE (Nat.le_refl 1) (Nat.le_refl 1) h hl
    (by rw [one_gcat (walk_pos h)]; exact hi)
  have h3 := h2 (.inr hs)
  rw [one_gcat (walk_pos h)] at h3
  exact ⟨r, h1, h3⟩

/-- C34 is false also where the right index fits: the chunk count of a `List<Node, 2^59>` overflows.
The index of the first element is `2^60`; the code gives 2, the root of the elements, or panics. -/
theorem C34_count_refuted : gindex (.list .node (2 ^ 59)) [.index 0] = some (2 ^ 60) ∧ ∀ E : Env,
    (E.debug = false → generalizedIndex ((Ty.list .node (2 ^ 59)).impl E) [.index 0] = .ok 2) ∧
    (E.debug = true → generalizedIndex ((Ty.list .node (2 ^ 59)).impl E) [.index 0] = .panic) := by
  have h1 : depthFor (2 ^ 59) = 59 := depthFor_pow 59
  have h2 : itemCount prims .node (2 ^ 59) = 2 ^ 59 := by decide +kernel
  have hw : walkBy prims (.list .node (2 ^ 59)) [.index 0] = some (2 ^ 60, .node) := by
    refine walk_cons.2 ⟨2 ^ 60, .node, 1, ?_, rfl, by decide +kernel⟩
    rw [stepBy, h2, h1]; rfl
  refine ⟨gindex_std (w := .node) ?_ hw, fun E => ?_⟩
  · exact ⟨rfl, trivial⟩
  · obtain ⟨d, H⟩ := E
    constructor
    · rintro ⟨⟩
      rfl
    · rintro ⟨⟩
      rfl

/-- A `List<Node, 2^58>` has more than `2^56` chunks, and they can still be counted. -/
example : Countable (.list .node (2 ^ 58)) [.index 7] ∧ ¬ Shallow (.list .node (2 ^ 58)) ∧
    ¬ Countable (.list .node (2 ^ 59)) [.index 7] := by
  refine ⟨⟨show 2 ^ 58 * 32 + 31 < 2 ^ 64 by decide, trivial⟩,
    fun h => absurd h.1 (by decide +kernel), fun h => ?_⟩
  have h1 : 2 ^ 59 * 32 + 31 < 2 ^ 64 := h.1
  omega

/-! ## C35 -/

/-- C35, as long as the index fits in 64 bits (in builds with overflow checks, it always does): the
index of `p ++ q` is the concatenation of the index of `p` and the index of `q` in the type reached
by `p`. -/
theorem C35_compose_partial (E : Env) (t : Ty) (p q : List PathElement) (g : Nat)
    (hfit : E.debug = false → Countable t (p ++ q) ∧
      ∀ i w, walkBy prims t (p ++ q) = some (i, w) → i < 2 ^ 64)
    (h : generalizedIndex (t.impl E) (p ++ q) = .ok g) :
    ∃ u a b, typeAt t p = some u ∧ generalizedIndex (t.impl E) p = .ok a ∧
      generalizedIndex (u.impl E) q = .ok b ∧ g = gcat a b ∧ 1 ≤ a ∧ 1 ≤ b ∧ 1 ≤ g := by
  obtain ⟨w, h1, h2, h3⟩ := index_exact hfit h
  obtain ⟨a, u, b, h4, h5, rfl⟩ := walk_append.1 h1
  have ha := walk_pos h4
  have hb := walk_pos h5
  have hla : a < 2 ^ 64 := Nat.lt_of_le_of_lt (le_gcat a b) h3
  have hlb : b < 2 ^ 64 := Nat.lt_of_le_of_lt (le_gcat_right ha hb) h3
  have hbits : lengthOfBits t p = false ∧ lengthOfBits u q = false := by
    rw [lengthOfBits_append h4, Bool.or_eq_false_iff] at h2
    exact h2
  obtain ⟨a', ha'⟩ := walk_type (pk' := isBasic) h4
  have hs : Countable t p ∧ Countable u q := by
    rw [← countable_append h4]
    cases hE : E.debug with
    | true => exact countable_of_ok hE h
    | false => exact (hfit hE).1
  refine ⟨u, a, b, by rw [typeAt, ha']; rfl, (C34_exact_partial E t p a u h4).2 hs.1 hla hbits.1,
    (C34_exact_partial E u q b w h5).2 hs.2 hlb hbits.2, rfl, ha, hb, ?_⟩
  have := le_gcat a b
  omega

example : Countable Demo.ty Demo.path ∧
    Demo.path = [.field "e", .index 2] ++ [.index 1, .index 1] ∧ gcat 40 10 = 322 := by
  refine ⟨countable_of_shallow Demo.ty_shallow, rfl, by decide +kernel⟩

/-- C35 is false in builds without overflow checks once the index does not fit: here the two parts
have the indices `2^41` and `2^36`, the whole path has index 0. -/
theorem C35_compose_refuted (E : Env) (hE : E.debug = false) :
    ∃ (t u : Ty) (p q : List PathElement) (a b g : Nat), Legal t ∧ typeAt t p = some u ∧
      generalizedIndex (t.impl E) p = .ok a ∧ generalizedIndex (u.impl E) q = .ok b ∧
      generalizedIndex (t.impl E) (p ++ q) = .ok g ∧ g ≠ gcat a b ∧ g = 0 := by
  obtain ⟨d, H⟩ := E
  cases hE
  exact ⟨nestedLists, .list (.uint .u8) (2 ^ 40), [.index 0], [.index 0], 2 ^ 41, 2 ^ 36, 0, trivial,
    rfl, rfl, rfl, rfl, by decide +kernel, rfl⟩

end Ssz
