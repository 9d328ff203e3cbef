import Verif.Props.Parts
import Verif.Proofs.PartTrees
import Verif.Props.Prove

/-!
# C66, C67: generalized indices and proofs in types built from parts of any kind

The parts may be of any type that implements the traits, in the crate or elsewhere. C66: if the parts
resolve the paths into them, so does the whole. C67: if the parts hash and prove by a Merkle tree, so
does the whole, and the proof for a path is that of the node of the tree that the path leads to.
-/

namespace Ssz

open Spec

/-! ## C66 -/

/-- C66, the types of the crate are such parts. -/
theorem C66_crate (E : Env) (t : Ty) (hs : Shallow t) :
    Resolves E (t.impl E).computeGeneralizedIndex (crateWalk t) :=
  resolves_crate E t hs

/-- C66 for vectors and arrays; `l` is what the elements give as `item_length`. -/
theorem C66_vector {α : Type} (E : Env) (T : SimpleSerialize α) (w : Walk) (l n : Nat)
    (hl : T.itemLength = .ok l) (h1 : 1 ≤ l) (hc : (n * l + 31) / 32 ≤ 2 ^ 56)
    (h : Resolves E T.computeGeneralizedIndex w) :
    Resolves E (SimpleSerialize.vector E T n).computeGeneralizedIndex (w.vector l n) ∧
    Resolves E (SimpleSerialize.array E T n).computeGeneralizedIndex (w.vector l n) :=
  ⟨resolves_vector hl h1 hc h, resolves_vector hl h1 hc h⟩

/-- C66 for lists. -/
theorem C66_list {α : Type} (E : Env) (T : SimpleSerialize α) (w : Walk) (l n : Nat)
    (hl : T.itemLength = .ok l) (h1 : 1 ≤ l) (hc : (n * l + 31) / 32 ≤ 2 ^ 56)
    (h : Resolves E T.computeGeneralizedIndex w) :
    Resolves E (SimpleSerialize.list E T n).computeGeneralizedIndex (w.list l n) :=
  resolves_list hl h1 hc h

/-- C66 for options. -/
theorem C66_option {α : Type} (E : Env) (T : SimpleSerialize α) (w : Walk)
    (h : Resolves E T.computeGeneralizedIndex w) :
    Resolves E (SimpleSerialize.option E T).computeGeneralizedIndex w.option :=
  resolves_option h

/-- C66 for newtypes: the paths are those of the field. -/
theorem C66_newtype {α : Type} (E : Env) (T : SimpleSerialize α) (w : Walk)
    (h : Resolves E T.computeGeneralizedIndex w) :
    Resolves E (SimpleSerialize.newtype E T).computeGeneralizedIndex w := h

/-- C66 for structs. -/
theorem C66_struct {α : Type} (E : Env) (fs : FieldImpls α) (ws : List (String × Walk))
    (h : FieldsResolve E fs ws) (hc : ws.length ≤ 2 ^ 56) :
    Resolves E (SimpleSerialize.container E fs).computeGeneralizedIndex (.struct ws) :=
  resolves_struct E fs ws h hc

/-- C66 for enums. -/
theorem C66_union {α : Type} (E : Env) (vs : VariantImpls α) (ws : List Walk)
    (h : VariantsResolve E vs ws) :
    Resolves E (SimpleSerialize.union E vs).computeGeneralizedIndex (.union ws) :=
  resolves_union E vs ws h

/-- C66 for transparent enums: the paths are those of the same enum without the attribute. -/
theorem C66_transparent {α : Type} (E : Env) (ps : PayloadImpls α) (ws : List Walk)
    (h : VariantsResolve E ps.variants ws) :
    Resolves E (SimpleSerialize.transparent E ps).computeGeneralizedIndex (.union ws) :=
  resolves_union E ps.variants ws h

/-! ## C67 -/

/-- C67, the types of the crate are such parts. -/
theorem C67_crate (E : Env) (t : Ty) (v : t.Val) (hl : Legal t) (hb : Bounded t) (hs : Shallow t)
    (hf : Flat t) (hv : Valid t v) (hm : InMemory t v) :
    TreeOf E (t.impl E) v (treeBy packs t v) :=
  ⟨htr_ok E t v hl hb hv hm, (has_parts E t v hl hb hs hf hv hm).proves⟩

/-- C67 for lists of composite parts. -/
theorem C67_list {α : Type} (E : Env) (T : SimpleSerialize α) (n : Nat) (vs : List α) (s : α → MTree)
    (hc : T.isCompositeType = true) (h32 : T.itemLength = .ok 32)
    (h : ∀ x ∈ vs, TreeOf E T x (s x)) (hl : vs.length ≤ n) (hn : n ≤ 2 ^ 56) :
    TreeOf E (SimpleSerialize.list E T n) vs
      (.node (full (depthFor n) (vs.map s)) (numLeaf vs.length)) where
  root := by
    rw [C58_list_root E T n vs (fun x => (s x).root E.sha256) hc (fun x hx => (h x hx).root) hl
      (by omega) (by omega)]
    simp only [MTree.root, full_map_root]
  proof := list_proves hc h32 h hl hn

/-- C67 for lists of basic parts. -/
theorem C67_list_basic {α : Type} (E : Env) (T : SimpleSerialize α) (c : Codec α) (n : Nat)
    (vs : List α) (h : Implements T.toSerializable c) (hc : T.isCompositeType = false)
    (hvar : c.var = false) (hi : T.itemLength = .ok c.size) (hsize : c.size < 2 ^ 32)
    (hv : Each c.valid vs) (hl : vs.length ≤ n) (hb : (n * c.size + 31) / 32 ≤ 2 ^ 56) :
    TreeOf E (SimpleSerialize.list E T n) vs
      (.node (full (depthFor ((n * c.size + 31) / 32)) (leaves (vs.flatMap c.enc)))
        (numLeaf vs.length)) := by
  have hp := h.size_pos hvar
  have hm : vs.length < 2 ^ 64 := by
    have h1 := Nat.mul_le_mul_left n (show 1 ≤ c.size from hp)
    omega
  exact ⟨C58_list_root_basic E T c n vs h hc hvar hsize hv hl hm (by omega),
    list_proves_basic h hc hvar hi hsize hv hl hm hb⟩

/-- C67 for vectors and arrays of composite parts. -/
theorem C67_vector {α : Type} (E : Env) (T : SimpleSerialize α) (n : Nat)
    (vs : { l : List α // l.length = n }) (s : α → MTree) (hc : T.isCompositeType = true)
    (h32 : T.itemLength = .ok 32) (h : ∀ x ∈ vs.1, TreeOf E T x (s x)) (hn : n ≤ 2 ^ 56) :
    TreeOf E (SimpleSerialize.vector E T n) vs.1 (full (depthFor n) (vs.1.map s)) ∧
    TreeOf E (SimpleSerialize.array E T n) vs (full (depthFor n) (vs.1.map s)) := by
  have hr := C58_vector_root E T n vs (fun x => (s x).root E.sha256) hc (fun x hx => (h x hx).root)
    (by omega)
  rw [← full_map_root] at hr
  exact ⟨⟨hr.1, vector_proves hc h32 h vs.2 hn rfl rfl rfl rfl⟩,
    ⟨hr.2, vector_proves hc h32 h vs.2 hn rfl rfl rfl rfl⟩⟩

/-- C67 for vectors and arrays of basic parts. -/
theorem C67_vector_basic {α : Type} (E : Env) (T : SimpleSerialize α) (c : Codec α) (n : Nat)
    (vs : { l : List α // l.length = n }) (h : Implements T.toSerializable c)
    (hc : T.isCompositeType = false) (hvar : c.var = false) (hi : T.itemLength = .ok c.size)
    (hsize : c.size < 2 ^ 32) (hv : Each c.valid vs.1) (hb : (n * c.size + 31) / 32 ≤ 2 ^ 56) :
    TreeOf E (SimpleSerialize.vector E T n) vs.1
      (full (depthFor ((n * c.size + 31) / 32)) (leaves (vs.1.flatMap c.enc))) ∧
    TreeOf E (SimpleSerialize.array E T n) vs
      (full (depthFor ((n * c.size + 31) / 32)) (leaves (vs.1.flatMap c.enc))) := by
  have hr := C58_vector_root_basic E T c n vs h hc hvar hsize hv (by omega)
  exact ⟨⟨hr.1, vector_proves_basic h hc hvar hi hsize hv vs.2 hb rfl rfl rfl⟩,
    ⟨hr.2, vector_proves_basic h hc hvar hi hsize hv vs.2 hb rfl rfl rfl⟩⟩

/-- C67 for options. -/
theorem C67_option {α : Type} (E : Env) (T : SimpleSerialize α) :
    TreeOf E (SimpleSerialize.option E T) none (.node (.leaf zeroNode) (numLeaf 0)) ∧
    ∀ x s, TreeOf E T x s →
      TreeOf E (SimpleSerialize.option E T) (some x) (.node s (numLeaf 1)) := by
  refine ⟨⟨?_, (pair_parts (by decide) rfl rfl rfl (Or.inl ⟨_, rfl⟩)).proves⟩, fun x s h => ⟨?_, ?_⟩⟩
  · exact C58_option_root E T none (fun _ => zeroNode) (fun _ h => nomatch h)
  · exact C58_option_root E T (some x) (fun _ => s.root E.sha256) (fun y hy => by cases hy; exact h.root)
  · refine (pair_parts (E := E) (T := SimpleSerialize.option E T) (v := some x) (m := 1) (by decide) rfl
      rfl ?_ (Or.inr h.proof)).proves
    show (T.hashTreeRoot x).map (·.1) = _
    rw [h.root, Res.map_ok]

/-- C67 for newtypes. -/
theorem C67_newtype {α : Type} (E : Env) (T : SimpleSerialize α) (v : α) (s : MTree)
    (h : TreeOf E T v s) : TreeOf E (SimpleSerialize.newtype E T) v s :=
  ⟨C58_newtype_root E T v _ h.root, h.proof⟩

/-- C67 for structs. -/
theorem C67_struct {α : Type} (E : Env) (fs : FieldImpls α) (v : α) (ss : List MTree)
    (h : FieldTrees E fs v ss) (hc : ss.length ≤ 2 ^ 56) :
    TreeOf E (SimpleSerialize.container E fs) v (full (depthFor ss.length) ss) where
  root := by
    rw [C58_struct_root E fs v (ss.map (·.root E.sha256)) (fieldTrees_roots fs v ss h)
      (by rw [List.length_map]; omega), ← full_leaf_root, full_root, List.length_map]
  proof := struct_proves h hc

/-- C67 for enums. -/
theorem C67_union {α : Type} (E : Env) (vs : VariantImpls α) (v : α) (m : Nat) (s : MTree)
    (hu : UnitFirst vs) (hc : vs.count ≤ 256) (h : VariantTree E vs v m s) :
    TreeOf E (SimpleSerialize.union E vs) v (.node s (numLeaf m)) :=
  ⟨union_root vs v m s hu h (by omega), union_proves h (by omega)⟩

theorem payloads_root {E : Env} : {α : Type} → (ps : PayloadImpls α) → (v : α) → (m : Nat) →
    (s : MTree) → VariantTree E ps.variants v m s →
    ps.transparent.hashTreeRoot v = .ok (s.root E.sha256)
  | _, .nil, v, _, _, _ => v.elim
  | _, .cons _ _, .inl _, _, _, h => h.2.root
  | _, .cons _ rest, .inr v, _, s, h => by
    obtain ⟨m', -, h⟩ := h
    exact payloads_root rest v m' s h

/-- C67 for transparent enums, where it fails: they hash by the tree of the payload but prove by the
tree of the same enum without the attribute. -/
theorem C67_transparent_partial {α : Type} (E : Env) (ps : PayloadImpls α) (v : α) (m : Nat)
    (s : MTree) (hc : ps.variants.count ≤ 256) (h : VariantTree E ps.variants v m s) :
    (SimpleSerialize.transparent E ps).hashTreeRoot v = .ok (s.root E.sha256) ∧
    Proves E (computeProof E (SimpleSerialize.transparent E ps) v) (.node s (numLeaf m)) :=
  ⟨payloads_root ps v m s h, union_proves h (by omega)⟩

/-- C67, the proofs: `prove` gives the node that the path leads to, its branch and the root, and the
proof verifies. -/
theorem C67_prove {α : Type} (E : Env) (T : SimpleSerialize α) (v : α) (w : Walk) (s u : MTree)
    (path : List PathElement) (g : Nat) (hw : Resolves E T.computeGeneralizedIndex w)
    (ht : TreeOf E T v s) (hg : w path = some g) (hlt : g < 2 ^ 64) (hu : s.sub g = some u) :
    ∃ p r, prove E T v path = .ok (p, r) ∧ p.leaf = u.root E.sha256 ∧
      p.branch = s.branchAt E.sha256 g ∧ p.index = g ∧ T.hashTreeRoot v = .ok r ∧
      p.verify E r = .ok () := by
  have h1 := hw.pos path g hg
  have h2 := hw.fits 1 path g (Nat.le_refl 1) hg (by rw [one_gcat h1]; exact hlt)
  rw [one_gcat h1] at h2
  have h3 : computeProof E T v (Prover.ofIndex g) =
      .ok ⟨⟨u.root E.sha256, s.branchAt E.sha256 g, g⟩, s.root E.sha256⟩ :=
    ht.proof (Prover.ofIndex g) u hu hlt
  refine ⟨_, _, prove_eq_ok.2 ⟨g, _, h2, h3, rfl, rfl⟩, rfl, rfl, rfl, ht.root, ?_⟩
  rw [verify_eq E _ _ hlt]
  obtain ⟨h4, h5⟩ := climb_complete (H := E.sha256) hu
  exact (if_neg (show ¬ g = 0 by omega)).trans (if_pos ⟨h5, h4⟩)

/-! An example: a struct with a list of elements of a type that the crate does not know. -/

namespace Foreign

/-- A number written with the more significant byte first. -/
def bytesOf (x : BitVec 16) : Bytes := [BitVec.ofNat 8 (x.toNat / 256), BitVec.ofNat 8 x.toNat]

/-- Someone's implementation of the traits for such numbers. -/
def big : SimpleSerialize (BitVec 16) where
  isVariableSize := false
  sizeHint := .ok 2
  serialize x := do BufM.append (bytesOf x); pure 2
  deserialize
    | [a, b] => .ok (BitVec.ofNat 16 (a.toNat * 256 + b.toNat))
    | b => .err (.expectedFurtherInput b.length 2)
  hashTreeRoot x := .ok (pad32 (bytesOf x))
  isCompositeType := true
  itemLength := .ok 32
  chunkCount := .ok 1
  computeGeneralizedIndex parent path :=
    if path.isEmpty then .ok parent else .err (.invalidPath path)
  chunks x := .ok (pad32 (bytesOf x)).1
  proveElement _ _ _ := .err .invalidInnerIndex
  decoration _ := none

theorem big_tree (E : Env) (x : BitVec 16) : TreeOf E big x (.leaf (pad32 (bytesOf x))) :=
  ⟨rfl, (basic_parts rfl rfl rfl).proves⟩

theorem big_resolves (E : Env) : Resolves E big.computeGeneralizedIndex .stop :=
  Resolves.stop (fun _ => rfl) fun _ _ _ => ⟨_, rfl⟩

/-- `struct { id: u8, words: List<Big, 3> }` -/
def fields (E : Env) : FieldImpls (BitVec 8 × (List (BitVec 16) × Unit)) :=
  .cons "id" ((Ty.uint .u8).impl E) (.cons "words" (SimpleSerialize.list E big 3) .nil)

/-- Its paths. -/
def walks : List (String × Walk) :=
  [("id", crateWalk (.uint .u8)), ("words", Walk.stop.list 32 3)]

/-- `{ id: 9, words: [0x0102, 0x0304] }` -/
def val : BitVec 8 × (List (BitVec 16) × Unit) := (9, ([0x0102, 0x0304], ()))

/-- Its tree. -/
def tree : MTree :=
  full 1 [treeBy packs (.uint .u8) (9 : BitVec 8),
    .node (full 2 ([0x0102, 0x0304].map fun x => .leaf (pad32 (bytesOf x)))) (numLeaf 2)]

theorem fields_resolve (E : Env) : FieldsResolve E (fields E) walks :=
  ⟨_, _, rfl, C66_crate E (.uint .u8) trivial, _, _, rfl,
    C66_list E big .stop 32 3 rfl (by decide) (by decide) (big_resolves E), rfl⟩

theorem fields_trees (E : Env) : FieldTrees E (fields E) val
    [treeBy packs (.uint .u8) (9 : BitVec 8),
      .node (full (depthFor 3) ([0x0102, 0x0304].map fun x => .leaf (pad32 (bytesOf x)))) (numLeaf 2)] :=
  ⟨_, _, rfl, C67_crate E (.uint .u8) (9 : BitVec 8) trivial trivial trivial trivial trivial trivial,
    _, _, rfl, C67_list E big 3 [0x0102, 0x0304] (fun x => .leaf (pad32 (bytesOf x))) rfl rfl
      (fun x _ => big_tree E x) (by decide) (by decide), rfl⟩

/-- The proof for the second word: its chunk is at index 25. -/
example (E : Env) : ∃ p r,
    prove E (SimpleSerialize.container E (fields E)) val [.field "words", .index 1] = .ok (p, r) ∧
      p.leaf = pad32 [3, 4] ∧ p.branch = tree.branchAt E.sha256 25 ∧ p.index = 25 ∧
      (SimpleSerialize.container E (fields E)).hashTreeRoot val = .ok r ∧ p.verify E r = .ok () :=
  C67_prove E _ val (.struct walks) tree (.leaf (pad32 (bytesOf 0x0304))) _ 25
    (C66_struct E (fields E) walks (fields_resolve E) (by decide))
    (C67_struct E (fields E) val _ (fields_trees E) (by decide)) (by decide +kernel) (by decide)
    (by simp [tree, MTree.sub, full])

/-- An enum with the variants `None`, `A(Big)` and `B(u8)`. -/
def variants (E : Env) : VariantImpls (Unit ⊕ (BitVec 16 ⊕ (BitVec 8 ⊕ Empty))) :=
  .unit (.data big (.data ((Ty.uint .u8).impl E) .nil))

example (E : Env) (x : BitVec 16) : UnitFirst (variants E) ∧ (variants E).count ≤ 256 ∧
    VariantsResolve E (variants E) [.stop, .stop, crateWalk (.uint .u8)] ∧
    VariantTree E (variants E) (.inl ()) 0 (.leaf zeroNode) ∧
    VariantTree E (variants E) (.inr (.inl x)) 1 (.leaf (pad32 (bytesOf x))) ∧
    VariantTree E (variants E) (.inr (.inr (.inl 5))) 2 (treeBy packs (.uint .u8) (5 : BitVec 8)) :=
  ⟨trivial, by show (3 : Nat) ≤ 256; decide,
    ⟨_, rfl, _, _, rfl, big_resolves E, _, _, rfl, C66_crate E (.uint .u8) trivial, rfl⟩, ⟨rfl, rfl⟩,
    ⟨0, rfl, rfl, big_tree E x⟩,
    ⟨1, rfl, 0, rfl, rfl, C67_crate E (.uint .u8) (5 : BitVec 8) trivial trivial trivial trivial trivial trivial⟩⟩

end Foreign

end Ssz
