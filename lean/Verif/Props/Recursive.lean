import Verif.Proofs.Recursive

/-!
# C84: types that contain themselves

`struct Tree { value: T, children: List<Tree, N> }`: `Rose.impl E T n Rose.exhausted k` is the derived
implementation with room on the stack for `k` levels of the tree, where `T` is any implementation of the
traits, `c` its codec.
-/

namespace Ssz

open Spec

variable {α : Type}

/-- C84: values with no more levels than there is room for are encoded as SSZ has it, and decoded from
that. -/
theorem C84_round_trip (E : Env) (T : SimpleSerialize α) (c : Codec α) (n k : Nat) (v : Rose α)
    (h : Implements T.toSerializable c) (hs : c.size + 4 < 2 ^ 63) (hv : Tree.Within c.valid n k v)
    (hl : (Tree.enc c v).length < 2 ^ 32) :
    serialize (Rose.impl E T n Rose.exhausted k).toSerializable v = .ok (Tree.enc c v) ∧
    deserialize (Rose.impl E T n Rose.exhausted k).toSerializable (Tree.enc c v) =
      .ok (Tree.norm c v) :=
  C58_round_trip _ (Tree.codec c n k) v (Rose.implements_impl h hs Rose.static_exhausted k) hv hl

/-- C84, for every value within the bounds there is room enough somewhere. -/
theorem C84_levels (P : α → Prop) (n : Nat) (v : Rose α) :
    Tree.Bounds P n v ↔ ∃ k, ∀ j, k ≤ j → Tree.Within P n j v := by
  constructor
  · intro h
    obtain ⟨k, hk⟩ := Rose.within_of_bounds h
    exact ⟨k, fun j hj => Rose.within_mono hj v hk⟩
  · rintro ⟨k, hk⟩
    exact Rose.bounds_of_within k v (hk k (Nat.le_refl k))

/-- C84: whatever is decoded respects the bounds, and has no more levels than there was room for. -/
theorem C84_bounds (E : Env) (T : SimpleSerialize α) (P : α → Prop) (n k : Nat) (b : Bytes) (v : Rose α)
    (h : Spec.Yields T.toSerializable P)
    (hd : deserialize (Rose.impl E T n Rose.exhausted k).toSerializable b = .ok v) :
    Tree.Within P n k v :=
  Rose.yields_impl h k b v hd

/-- C84: with more room on the stack all functions have the same outcome, unless it was an overflow. -/
theorem C84_more (E : Env) (T : SimpleSerialize α) (n k j : Nat) :
    (∀ b, deserialize (Rose.impl E T n Rose.exhausted k).toSerializable b = .panic ∨
      deserialize (Rose.impl E T n Rose.exhausted k).toSerializable b =
        deserialize (Rose.impl E T n Rose.exhausted (k + j)).toSerializable b) ∧
    (∀ v, serialize (Rose.impl E T n Rose.exhausted k).toSerializable v = .panic ∨
      serialize (Rose.impl E T n Rose.exhausted k).toSerializable v =
        serialize (Rose.impl E T n Rose.exhausted (k + j)).toSerializable v) ∧
    (∀ v, (Rose.impl E T n Rose.exhausted k).hashTreeRoot v = .panic ∨
      (Rose.impl E T n Rose.exhausted k).hashTreeRoot v =
        (Rose.impl E T n Rose.exhausted (k + j)).hashTreeRoot v) ∧
    (∀ v path, prove E (Rose.impl E T n Rose.exhausted k) v path = .panic ∨
      prove E (Rose.impl E T n Rose.exhausted k) v path =
        prove E (Rose.impl E T n Rose.exhausted (k + j)) v path) := by
  have h := Rose.refines_more E T n k j
  refine ⟨h.deserialize, fun v => ?_, h.hashTreeRoot, fun v path => ?_⟩
  · unfold serialize
    rcases h.serialize v [] with h1 | h1
    · left
      cases hx : (Rose.impl E T n Rose.exhausted k).serialize v [] with
      | mk b r =>
        rw [hx] at h1
        have h1 : r = .panic := h1
        subst h1
        rfl
    · right; rw [h1]
  · obtain ⟨d, H⟩ := E
    exact below_prove (H := H) (dbg := d) (dbg' := d) h v path

/-- C84 where it holds: an input of fewer than `k` times the bytes that a level takes at least (the
fixed part of the struct, and the offset of a child in the list) never gets to what is below `k` levels.
So with room for `k` levels there is no overflow. -/
theorem C84_short_partial (E : Env) (T : SimpleSerialize α) (c : Codec α) (n k : Nat) (b : Bytes)
    (h : Implements T.toSerializable c) (hs : c.size + 4 < 2 ^ 63) (hb : b.length < k * Tree.overhead c)
    (hl : b.length < 2 ^ 63) :
    (∀ base base', Tree.Static base → Tree.Static base' →
      deserialize (Rose.impl E T n base k).toSerializable b =
        deserialize (Rose.impl E T n base' k).toSerializable b) ∧
    ∀ j, deserialize (Rose.impl E T n Rose.exhausted k).toSerializable b =
      deserialize (Rose.impl E T n Rose.exhausted (k + j)).toSerializable b := by
  refine ⟨fun base base' h1 h2 => Rose.alike_impl h hs h1 h2 k b hb hl, fun j => ?_⟩
  rw [Rose.impl_add]
  exact Rose.alike_impl h hs Rose.static_exhausted (Rose.static_impl Rose.static_exhausted j) k b hb hl

/-- C84, this bound is the best for fixed-size `T`: there is an input of `k` times as many bytes that
gets below `k` levels. -/
theorem C84_exact (E : Env) (T : SimpleSerialize α) (c : Codec α) (n k : Nat) (a : α)
    (h : Implements T.toSerializable c) (hs : c.size + 4 < 2 ^ 63) (ha : c.valid a) (hn : 1 ≤ n)
    (hvar : c.var = false) (hk : k * Tree.overhead c < 2 ^ 32) :
    ∃ b : Bytes, b.length = k * Tree.overhead c ∧
      deserialize (Rose.impl E T n Rose.exhausted k).toSerializable b = .panic ∧
      ∀ x, ∃ base, Tree.Static base ∧ ∃ v,
        base.deserialize [] = .ok x ∧ deserialize (Rose.impl E T n base k).toSerializable b = .ok v := by
  have hl := Rose.wrapBytes_length h ha [] k
  rw [hvar] at hl
  have hl : (Rose.wrapBytes c a [] k).length = k * Tree.overhead c := by simpa using hl
  refine ⟨Rose.wrapBytes c a [] k, hl, Rose.overflow h hs ha hn [] k (by rw [hl]; exact hk), fun x =>
    ⟨{ Rose.exhausted with deserialize := fun _ => .ok x }, ⟨rfl, rfl, rfl, rfl, rfl, rfl⟩, _, rfl,
      Rose.wrap_deserialize h hs ha hn ⟨rfl, rfl, rfl, rfl, rfl, rfl⟩ rfl k (by rw [hl]; exact hk)⟩⟩

/-- C84, that every input is decoded or rejected, refuted: whatever the room `k` on the stack, there is
an encoding of a value within the bounds, as long as `k + 1` of these levels without the last offset,
that overflows it. With room for one level more it would be decoded. -/
theorem C84_overflow_refuted (E : Env) (T : SimpleSerialize α) (c : Codec α) (n k : Nat) (a : α)
    (h : Implements T.toSerializable c) (hs : c.size + 4 < 2 ^ 63) (ha : c.valid a) (hn : 1 ≤ n)
    (hk : (k + 1) * (Tree.overhead c + if c.var then (c.enc a).length else 0) - 4 < 2 ^ 32) :
    ∃ v : Rose α, Tree.Bounds c.valid n v ∧
      (Tree.enc c v).length =
        (k + 1) * (Tree.overhead c + if c.var then (c.enc a).length else 0) - 4 ∧
      deserialize (Rose.impl E T n Rose.exhausted k).toSerializable (Tree.enc c v) = .panic ∧
      deserialize (Rose.impl E T n Rose.exhausted (k + 1)).toSerializable (Tree.enc c v) =
        .ok (Tree.norm c v) := by
  have hw : Tree.Within c.valid n (1 + k) (Rose.wrap a (.node a []) k) :=
    Rose.within_wrap (x := .node a []) (j := 1) ha hn ⟨ha, Nat.zero_le n, nofun⟩ k
  have h0 : (Tree.enc c (.node a [])).length + 4 =
      Tree.overhead c + if c.var then (c.enc a).length else 0 := by
    rw [Tree.enc, Tree.encs, assemble_length]
    have := fun hv => h.length hv a ha
    unfold Tree.overhead
    cases hv : c.var with
    | true => simp [headLen, headSize, tails, assemble, heads]; omega
    | false => simp [headLen, headSize, tails, assemble, heads, this hv]
  have hl : (Tree.enc c (Rose.wrap a (.node a []) k)).length =
      (k + 1) * (Tree.overhead c + if c.var then (c.enc a).length else 0) - 4 := by
    rw [Rose.enc_wrap, Rose.wrapBytes_length h ha, Nat.succ_mul]
    omega
  refine ⟨Rose.wrap a (.node a []) k, Rose.bounds_of_within _ _ hw, hl, ?_, ?_⟩
  · rw [Rose.enc_wrap]
    refine Rose.overflow h hs ha hn _ k ?_
    rw [← Rose.enc_wrap, hl]
    exact hk
  · exact (C84_round_trip E T c n (k + 1) _ h hs (by rw [Nat.add_comm]; exact hw) (by rw [hl]; exact hk)).2

/-- C84, generalized indices: those of paths with fewer than `2 * k` elements are computed, if they fit
in 64 bits, and with overflow checks there are no others. -/
theorem C84_index (E : Env) (T : SimpleSerialize α) (w : Walk) (n k : Nat)
    (h : Resolves E T.computeGeneralizedIndex w) (hn : n ≤ 2 ^ 56) :
    (∀ p path g, path.length < 2 * k → 1 ≤ p → Tree.walk w n path = some g → gcat p g < 2 ^ 64 →
      (Rose.impl E T n Rose.exhausted k).computeGeneralizedIndex p path = .ok (gcat p g)) ∧
    ∀ p path r, (Rose.impl E T n Rose.exhausted k).computeGeneralizedIndex p path = .ok r →
      ∃ g, Tree.walk w n path = some g ∧ (E.debug = true → r = gcat p g) := by
  have hr := Rose.resolves_impl (E := E) h hn k
  refine ⟨fun p path g hp h1 hg hlt => hr.fits p path g h1 ?_ hlt, fun p path r hF => ?_⟩
  · rw [Rose.walk_deep w n k path hp]; exact hg
  · obtain ⟨g, h1, h2⟩ := hr.only p path r hF
    exact ⟨g, Rose.deep_walk w n k path g h1, h2⟩

/-- C84, roots: that of the Merkle tree of the value, of which those of the children are parts. -/
theorem C84_root (E : Env) (T : SimpleSerialize α) (P : α → Prop) (s : α → MTree) (n k : Nat) (v : Rose α)
    (h : ∀ a, P a → TreeOf E T a (s a)) (hn : n ≤ 2 ^ 56) (hv : Tree.Within P n k v) :
    (Rose.impl E T n Rose.exhausted k).hashTreeRoot v = .ok ((Tree.tree s n v).root E.sha256) :=
  (Rose.treeOf_impl h hn Rose.static_exhausted k v hv).root

/-- C84, proofs: `prove` gives the node of this tree that the path leads to, its branch and the root, and
the proof verifies. -/
theorem C84_prove (E : Env) (T : SimpleSerialize α) (P : α → Prop) (s : α → MTree) (w : Walk) (n k : Nat)
    (v : Rose α) (path : List PathElement) (g : Nat) (u : MTree)
    (h : ∀ a, P a → TreeOf E T a (s a)) (hw : Resolves E T.computeGeneralizedIndex w) (hn : n ≤ 2 ^ 56)
    (hv : Tree.Within P n k v) (hp : path.length < 2 * k) (hg : Tree.walk w n path = some g)
    (hlt : g < 2 ^ 64) (hu : (Tree.tree s n v).sub g = some u) :
    ∃ p r, prove E (Rose.impl E T n Rose.exhausted k) v path = .ok (p, r) ∧ p.leaf = u.root E.sha256 ∧
      p.branch = (Tree.tree s n v).branchAt E.sha256 g ∧ p.index = g ∧
      (Rose.impl E T n Rose.exhausted k).hashTreeRoot v = .ok r ∧ p.verify E r = .ok () :=
  C67_prove E _ v (Rose.deep w n k) _ u path g (Rose.resolves_impl hw hn k)
    (Rose.treeOf_impl h hn Rose.static_exhausted k v hv)
    (by rw [Rose.walk_deep w n k path hp]; exact hg) hlt hu

/-! An example: `struct Tree { value: u8, children: List<Tree, 2> }` -/

namespace Family

def val : Rose (BitVec 8) := .node 1 [.node 2 [], .node 3 [.node 4 []]]

/-- The number, the offset of the list, the two offsets in it and the two children; the second child has
a list with one offset and a child. -/
def bytes : Bytes :=
  [1, 5, 0, 0, 0, 8, 0, 0, 0, 13, 0, 0, 0, 2, 5, 0, 0, 0, 3, 5, 0, 0, 0, 4, 0, 0, 0, 4, 5, 0, 0, 0]

theorem val_within : Tree.Within (fun _ : BitVec 8 => True) 2 3 val := by
  refine ⟨trivial, by decide, fun x hx => ?_⟩
  rcases List.mem_cons.1 hx with rfl | hx
  · exact ⟨trivial, by decide, nofun⟩
  · have : x = .node 3 [.node 4 []] := by simpa using hx
    subst this
    refine ⟨trivial, by decide, fun y hy => ?_⟩
    have : y = .node 4 [] := by simpa using hy
    subst this
    exact ⟨trivial, by decide, nofun⟩

/-- The round trip with room for three levels. -/
example (E : Env) :
    serialize (Rose.impl E ((Ty.uint .u8).impl E) 2 Rose.exhausted 3).toSerializable val = .ok bytes ∧
    deserialize (Rose.impl E ((Ty.uint .u8).impl E) 2 Rose.exhausted 3).toSerializable bytes =
      .ok val := by
  have h := C84_round_trip E ((Ty.uint .u8).impl E) (codecOf (.uint .u8)) 2 3 val
    (impl_implements E (.uint .u8) trivial trivial) (by decide) val_within (by decide)
  rw [show Tree.enc (codecOf (.uint .u8)) val = bytes by decide +kernel] at h
  exact h

/-- Decoded values are within the bounds. -/
example (E : Env) : Spec.Yields ((Ty.uint .u8).impl E).toSerializable fun _ => True :=
  fun _ _ _ => trivial

/-- Eight bytes are fewer than a level takes, nine are not. -/
example : Tree.overhead (codecOf (.uint .u8)) = 9 := by decide

/-- With room for a thousand levels, 9005 bytes overflow. -/
example (E : Env) : ∃ v : Rose (BitVec 8), (Tree.enc (codecOf (.uint .u8)) v).length = 9005 ∧
    deserialize (Rose.impl E ((Ty.uint .u8).impl E) 1 Rose.exhausted 1000).toSerializable
      (Tree.enc (codecOf (.uint .u8)) v) = .panic := by
  obtain ⟨v, -, h1, h2, -⟩ := C84_overflow_refuted E ((Ty.uint .u8).impl E) (codecOf (.uint .u8)) 1 1000
    (0 : BitVec 8) (impl_implements E (.uint .u8) trivial trivial) (by decide) trivial (by decide)
    (by decide)
  exact ⟨v, h1, h2⟩

/-- The path to the number in the child of the second child, and its proof. -/
example (E : Env) : ∃ p r, prove E (Rose.impl E ((Ty.uint .u8).impl E) 2 Rose.exhausted 3) val
    [.field "children", .index 1, .field "children", .index 0, .field "value"] = .ok (p, r) ∧
      p.leaf = pad32 [4] ∧ p.index = 216 ∧ p.verify E r = .ok () := by
  obtain ⟨p, r, h1, h2, -, h3, -, h4⟩ := C84_prove E ((Ty.uint .u8).impl E) (fun _ => True)
    (treeBy packs (.uint .u8)) (crateWalk (.uint .u8)) 2 3 val
    [.field "children", .index 1, .field "children", .index 0, .field "value"] 216 (.leaf (pad32 [4]))
    (fun a _ => C67_crate E (.uint .u8) a trivial trivial trivial trivial trivial trivial)
    (C66_crate E (.uint .u8) trivial) (by decide) val_within (by decide) (by decide +kernel) (by decide)
    (by
      have : depthFor 2 = 1 := by decide +kernel
      simp [val, Tree.tree, Tree.trees, MTree.sub, this, full]
      rfl)
  exact ⟨p, r, h1, h2, h3, h4⟩

end Family

end Ssz
