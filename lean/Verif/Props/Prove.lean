import Verif.Props.GenIndex
import Verif.Proofs.Verify
import Verif.Proofs.On
import Verif.Spec.Sha256

/-!
# Properties C36 to C39: making Merkle proofs

`treeBy packs t v` is the tree whose root `hash_tree_root` computes (C27, `htr_ok`); for types in
`Std` it is the tree of the specification. `Flat t` excludes collections whose elements are arrays of
packed elements, unless these arrays are exactly one chunk (as `[u8; 32]` is); `FlatOn t path` only
excludes that the path enters one. `SameDepth t` asks that `chunk_count` of the type itself gives the
right depth, which is only in doubt for such collections. `Shallow t` excludes collections of more than
`2^56` chunks, whose trees no memory can hold.
-/

namespace Ssz

open Spec

theorem prove_eq_ok {α : Type} {E : Env} {T : SimpleSerialize α} {v : α} {path : List PathElement}
    {p : Proof} {w : Node} : prove E T v path = .ok (p, w) ↔ ∃ g pr, generalizedIndex T path = .ok g ∧
      computeProof E T v (Prover.ofIndex g) = .ok pr ∧ pr.proof = p ∧ pr.witness = w := by
  simp only [prove, Res.bind_eq_ok, Res.ok.injEq, Prod.mk.injEq]
  constructor
  · rintro ⟨g, h1, pr, h2⟩
    exact ⟨g, pr, h1, h2⟩
  · rintro ⟨g, pr, h1, h2⟩
    exact ⟨g, h1, pr, h2⟩

/-- If the tree has a node at the index of the path, the prover returns it with its branch. -/
theorem prove_node (E : Env) {t : Ty} {v : t.Val} {path : List PathElement} {g : Nat} {u : MTree}
    (hl : Legal t) (hb : Bounded t) (hs : Shallow t) (hf : Flat t) (hv : Valid t v) (hm : InMemory t v)
    (hg : generalizedIndex (t.impl E) path = .ok g) (hu : (treeBy packs t v).sub g = some u) :
    prove E (t.impl E) v path =
      .ok ({ leaf := u.root E.sha256, branch := (treeBy packs t v).branchAt E.sha256 g, index := g },
        (treeBy packs t v).root E.sha256) := by
  refine prove_eq_ok.2 ⟨g, _, hg, (has_parts E t v hl hb hs hf hv hm).proves (Prover.ofIndex g) u hu
    (gi_lt E (show 1 < 2 ^ 64 by decide) hg), ?_, rfl⟩
  simp [Prover.ofIndex]

/-! ## C36 -/

/-- The outcome of `prove` for every type, value and path. -/
theorem prove_answer (E : Env) (t : Ty) (v : t.Val) (path : List PathElement) (hl : Legal t)
    (hb : Bounded t) (hs : Shallow t) (hv : Valid t v) (hm : InMemory t v) :
    prove E (t.impl E) v path =
      (generalizedIndex (t.impl E) path >>= fun g => answer E.sha256 t v g >>= fun a =>
        .ok ({ leaf := a.1, branch := a.2, index := g }, (layer t v).tree.root E.sha256)) := by
  rw [prove]
  cases hg : generalizedIndex (t.impl E) path with
  | panic => rfl
  | err e => rfl
  | ok g =>
    rw [Res.ok_bind, Res.ok_bind, computeProof_answer E t v hl hb hs hv hm (Prover.ofIndex g)
      (gi_lt E (show 1 < 2 ^ 64 by decide) hg)]
    show outcome _ _ (answer E.sha256 t v g) >>= _ = _
    cases answer E.sha256 t v g with
    | panic => rfl
    | err e => rfl
    | ok a => rfl

/-- What C36 comes to, for all types: the witness is the root of the tree over the direct parts with
as many leaves as `chunk_count` says, and there was room for all chunks. -/
theorem C36_exact_partial (E : Env) (t : Ty) (v : t.Val) (path : List PathElement) (p : Proof)
    (w : Node) (hl : Legal t) (hb : Bounded t) (hs : Shallow t) (hv : Valid t v)
    (hm : InMemory t v) (h : prove E (t.impl E) v path = .ok (p, w)) :
    w = (layer t v).tree.root E.sha256 ∧ (layer t v).Fits := by
  rw [prove_answer E t v path hl hb hs hv hm] at h
  obtain ⟨g, _, h⟩ := Res.bind_eq_ok.1 h
  obtain ⟨a, ha, h⟩ := Res.bind_eq_ok.1 h
  cases h
  refine ⟨rfl, ?_⟩
  by_contra hf
  rw [answer, Layer.answer, if_neg hf] at ha
  split at ha
  · cases ha
  · split at ha
    · cases ha
    · split at ha
      all_goals cases ha

/-- C36 where `chunk_count` of the type itself (not of its parts) gives the right depth: the witness
is the root. This excludes only collections of arrays of packed elements, and not all of them. -/
theorem C36_witness_partial (E : Env) (t : Ty) (v : t.Val) (path : List PathElement) (p : Proof)
    (w : Node) (hl : Legal t) (hb : Bounded t) (hs : Shallow t) (hd : SameDepth t) (hv : Valid t v)
    (hm : InMemory t v) (h : prove E (t.impl E) v path = .ok (p, w)) :
    (t.impl E).hashTreeRoot v = .ok w := by
  rw [htr_ok E t v hl hb hv hm, (C36_exact_partial E t v path p w hl hb hs hv hm h).1,
    layer_tree t v hd]

/-- `Vector<[u8; 20], 4>` is four elements to the prover and three chunks to `hash_tree_root`, which
gives the same depth; it is not `Flat`. -/
example : SameDepth (.vector (.array (.uint .u8) 20) 4) ∧ ¬ Flat (.vector (.array (.uint .u8) 20) 4) :=
  ⟨by show depthFor _ = depthFor _; decide +kernel, fun h => absurd h.1 (by decide)⟩

theorem Demo.ty_flat : Flat Demo.ty := std_flat _ Demo.ty_std

theorem Demo.gi_path (E : Env) : generalizedIndex (Demo.ty.impl E) Demo.path = .ok 322 :=
  (C34_exact_std_partial E _ _ _ Demo.ty_std Demo.gindex_path).2 (countable_of_shallow Demo.ty_shallow) (by decide)
    (by decide +kernel)

/-- The prover succeeds on the path of `Demo`. -/
example (E : Env) : ∃ p w, prove E (Demo.ty.impl E) Demo.val Demo.path = .ok (p, w) := by
  obtain ⟨u, hu, _⟩ := C32_points_packed_partial E _ Demo.val Demo.path 322 (.bytes 2 [7, 0])
    (flat_on _ _ Demo.ty_flat) Demo.val_valid (fun _ => ⟨countable_of_shallow Demo.ty_shallow, fun i w h => by
      have h := gindex_std Demo.ty_std h
      rw [Demo.gindex_path] at h
      cases h; decide⟩) (Demo.gi_path E) rfl
  exact ⟨_, _, prove_node E Demo.ty_legal Demo.ty_bounded Demo.ty_shallow Demo.ty_flat Demo.val_valid
    Demo.val_inMemory (Demo.gi_path E) hu⟩

theorem vector_chunks (E : Env) (t : Ty) (n : Nat) (v : (Ty.vector t n).Val)
    (hl : Legal (.vector t n)) (hb : Bounded (.vector t n)) (hv : Valid (.vector t n) v)
    (hm : InMemory (.vector t n) v) : ((Ty.vector t n).impl E).chunks v =
      .ok (flat ((partsOf t v).map (·.root E.sha256))) :=
  assembleChunks_ok E hl.2 hb.2 hv.2 hm.1 fun x hx =>
    htr_ok E t x hl.2 hb.1 (hv.2 x hx) (hm.2 x hx)

/-- The bytes of the value of `Vector<[u8; 4], 16>`, packed. -/
theorem vectorOfWords_parts (E : Env) : Parts E (vectorOfWords.impl E) vectorOfWordsVal
    (partsOf (.array (.uint .u8) 4) vectorOfWordsVal) 16 none := by
  obtain ⟨hl, _, hb, hs, hv, hm⟩ := vectorOfWords_ok
  refine ⟨?_, by decide, ?_, rfl, by simp, ?_⟩
  · show itemChunkCount E _ _ = _
    rw [itemChunkCount_eq, countCalc_ok (by decide)]
    rfl
  · refine Nat.le_trans (Nat.le_of_eq (partsOf_length (t := .array (.uint .u8) 4) hv.2)) ?_
    decide +kernel
  · exact vector_chunks E _ _ vectorOfWordsVal hl hb hv hm

/-- C36 is false: where arrays of packed values are elements, the prover counts them as one chunk
each, while `hash_tree_root` packs them together. The witness is `Vector<[u8; 4], 16>` with the empty
path, with the real hash function. -/
theorem C36_witness_refuted : ∃ (t : Ty) (v : t.Val) (path : List PathElement), Legal t ∧ Fits t ∧
    Bounded t ∧ Shallow t ∧ Valid t v ∧ InMemory t v ∧ ∀ E : Env, E.sha256 = Sha256.sha256 →
      ∃ p w, prove E (t.impl E) v path = .ok (p, w) ∧ (t.impl E).hashTreeRoot v ≠ .ok w := by
  obtain ⟨hl, hft, hb, hs, hv, hm⟩ := vectorOfWords_ok
  refine ⟨vectorOfWords, vectorOfWordsVal, [], hl, hft, hb, hs, hv, hm, fun E hE => ?_⟩
  have h := computeProof_ok (vectorOfWords_parts E) (fun i s hi => Or.inl (leaves_leaf hi))
    (Prover.ofIndex 1) _ (sub_one _) (by decide)
  refine ⟨_, _, prove_eq_ok.2 ⟨1, _, rfl, h, rfl, rfl⟩, ?_⟩
  rw [htr_ok E vectorOfWords vectorOfWordsVal hl hb hv hm, hE]
  simp only [ne_eq, Res.ok.injEq]
  decide +kernel

/-! ## C37 -/

/-- C37 wherever the tree has a node at the index of the proof: the proof verifies against the
witness. -/
theorem C37_verifies_node_partial (E : Env) (t : Ty) (v : t.Val) (path : List PathElement) (p : Proof)
    (w : Node) (hl : Legal t) (hb : Bounded t) (hs : Shallow t) (hf : Flat t) (hv : Valid t v)
    (hm : InMemory t v) (h : prove E (t.impl E) v path = .ok (p, w))
    (hn : (treeBy packs t v).sub p.index ≠ none) : p.verify E w = .ok () := by
  obtain ⟨g, pr, h1, h2, rfl, rfl⟩ := prove_eq_ok.1 h
  obtain ⟨ts, c, deco, hP, _⟩ := has_parts E t v hl hb hs hf hv hm
  have hi : pr.proof.index = g := computeProof_index hP h2
  rw [hi] at hn
  obtain ⟨u, hu⟩ := Option.ne_none_iff_exists'.1 hn
  have hlt := gi_lt E (show 1 < 2 ^ 64 by decide) h1
  have h3 := prove_node E hl hb hs hf hv hm h1 hu
  rw [h, Res.ok.injEq, Prod.mk.injEq] at h3
  rw [h3.1, h3.2, verify_eq E _ _ hlt]
  obtain ⟨h4, h5⟩ := climb_complete (H := E.sha256) hu
  rw [if_neg (by have := sub_pos hu; simp only; omega), if_pos ⟨h5, h4⟩]

/-- On a path that does not enter a collection of arrays of packed elements and names, in every
`Option` and enum, the variant that the value has: the prover returns the node of the tree at the index
with its branch, and panics if there is none. -/
theorem prove_on (E : Env) {t : Ty} {v : t.Val} {path : List PathElement} {g : Nat}
    (hl : Legal t) (hb : Bounded t) (hs : Shallow t) (hv : Valid t v) (hm : InMemory t v)
    (hf : FlatOn t path) (hd : path = [] → SameDepth t) (ha : Active t v path)
    (hfit : E.debug = false → ∀ i w, walkBy prims t path = some (i, w) → i < 2 ^ 64)
    (hg : generalizedIndex (t.impl E) path = .ok g) :
    ((treeBy packs t v).sub g = none ∧ prove E (t.impl E) v path = .panic) ∨
    ∃ u, (treeBy packs t v).sub g = some u ∧ prove E (t.impl E) v path =
      .ok ({ leaf := u.root E.sha256, branch := (treeBy packs t v).branchAt E.sha256 g, index := g },
        (treeBy packs t v).root E.sha256) := by
  obtain ⟨w, h1, _, _⟩ := index_exact (fun hE => ⟨countable_of_shallow hs, hfit hE⟩) hg
  obtain ⟨hd, h⟩ := answer_on E.sha256 hv hf hd h1 ha
  rw [prove_answer E t v path hl hb hs hv hm, hg, Res.ok_bind, layer_tree t v hd]
  rcases h with ⟨h2, h3⟩ | ⟨u, h2, h3⟩
  · exact .inl ⟨h2, by rw [h3]; rfl⟩
  · exact .inr ⟨u, h2, by rw [h3]; rfl⟩

/-- C37 for paths that do not enter a collection of arrays of packed elements and name, in every
`Option` and enum, the variant that the value has: whenever the prover succeeds, its proof verifies. -/
theorem C37_verifies_partial (E : Env) (t : Ty) (v : t.Val) (path : List PathElement) (p : Proof)
    (w : Node) (hl : Legal t) (hb : Bounded t) (hs : Shallow t) (hv : Valid t v) (hm : InMemory t v)
    (hf : FlatOn t path) (hd : path = [] → SameDepth t) (ha : Active t v path)
    (hfit : E.debug = false → ∀ i w, walkBy prims t path = some (i, w) → i < 2 ^ 64)
    (h : prove E (t.impl E) v path = .ok (p, w)) : p.verify E w = .ok () := by
  obtain ⟨g, pr, h1, h2, rfl, rfl⟩ := prove_eq_ok.1 h
  rcases prove_on E hl hb hs hv hm hf hd ha hfit h1 with ⟨_, h3⟩ | ⟨u, h3, h4⟩
  · rw [h] at h3; cases h3
  · rw [h, Res.ok.injEq, Prod.mk.injEq] at h4
    have hlt := gi_lt E (show 1 < 2 ^ 64 by decide) h1
    rw [h4.1, h4.2, verify_eq E _ _ hlt]
    obtain ⟨h5, h6⟩ := climb_complete (H := E.sha256) h3
    rw [if_neg (by have := sub_pos h3; simp only; omega), if_pos ⟨h6, h5⟩]

theorem Demo.path_active : Active Demo.ty Demo.val Demo.path := by
  have h0 : ∀ (v : BitVec 16), Active (.uint .u16) v [] := fun _ => trivial
  simp [Demo.ty, Demo.path, Demo.val, Active, ActiveF, ActiveV, Demo.unionTy]

/-- A path to an element beyond the end of the list of a `Demo` value is also meant. -/
example : Active Demo.ty Demo.val Demo.path ∧ Active Demo.ty Demo.val [.field "b", .index 3] := by
  refine ⟨Demo.path_active, ?_⟩
  simp [Demo.ty, Demo.val, Active, ActiveF]

/-- `struct { a: u64, b: List<[u8; 48], 8> }` is not `Flat`, but a path to `a`, and one that ends at
`b`, do not enter the list. -/
def keysTy : Ty := .container (.cons "a" (.uint .u64) (.cons "b" (.list (.array (.uint .u8) 48) 8) .nil))

def keysVal : keysTy.Val :=
  ((5 : BitVec 64), ([⟨List.replicate 48 7, rfl⟩] : List { l : List (BitVec 8) // l.length = 48 }), ())

theorem keys_ok : Legal keysTy ∧ Bounded keysTy ∧ Shallow keysTy ∧ Valid keysTy keysVal ∧
    InMemory keysTy keysVal := by
  refine ⟨⟨by decide, by decide, trivial, ⟨by decide, trivial⟩, trivial⟩,
    ⟨⟨trivial, ⟨⟨trivial, fun _ => by decide⟩, fun _ => by decide, by decide⟩, trivial⟩, by decide⟩,
    ⟨by decide, trivial, ⟨by decide, by decide, trivial⟩, trivial⟩,
    ⟨trivial, ⟨by decide, fun _ _ _ _ => trivial⟩, trivial⟩,
    ⟨trivial, ⟨⟨by decide, fun _ => by decide⟩, fun x _ => ⟨⟨?_, fun _ => ?_⟩, fun _ _ => trivial⟩⟩,
      trivial⟩⟩
  · exact Nat.lt_of_le_of_lt (Nat.le_of_eq x.2) (by decide)
  · exact Nat.lt_of_le_of_lt (Nat.mul_le_mul_right _ (Nat.le_of_eq x.2)) (by decide)

example : ¬ Flat keysTy ∧ FlatOn keysTy [.field "a"] ∧ FlatOn keysTy [.field "b"] ∧
    Active keysTy keysVal [.field "b"] ∧ SameDepth keysTy ∧
    (∃ w, walkBy prims keysTy [.field "b"] = some (3, w)) ∧
    lengthOfBits keysTy [.field "b"] = false ∧ partBy packs keysTy keysVal [.field "b"] ≠ none := by
  refine ⟨fun h => absurd h.2.1.1 (by decide), trivial, trivial, trivial, trivial, ⟨_, rfl⟩,
    by decide +kernel, ?_⟩
  intro h
  cases h

/-- `struct { c: u8, d: u8 }` -/
def pairTy : Ty := .container (.cons "c" (.uint .u8) (.cons "d" (.uint .u8) .nil))

/-- `enum { A(Option<Pair>), B(struct { a: u8, b: Pair }) }` -/
def trapTy : Ty :=
  .union (.data (.option pairTy)
    (.data (.container (.cons "a" (.uint .u8) (.cons "b" pairTy .nil))) .nil))

/-- `A(Some(Pair { c: 1, d: 2 }))` -/
def trapVal : trapTy.Val :=
  (.inl (some ((1 : BitVec 8), (2 : BitVec 8), ()) : Option pairTy.Val) : (Option pairTy.Val) ⊕ _)

def trapPath : List PathElement := [.index 1, .field "b", .field "c"]

/-- Does the prover succeed, and does its proof verify? -/
def provesWrongly (E : Env) (t : Ty) (v : t.Val) (path : List PathElement) : Bool :=
  match prove E (t.impl E) v path with
  | .ok (p, w) =>
    match p.verify E w with
    | .err .invalidProof => true
    | _ => false
  | _ => false

theorem provesWrongly_spec {E : Env} {t : Ty} {v : t.Val} {path : List PathElement}
    (h : provesWrongly E t v path = true) :
    ∃ p w, prove E (t.impl E) v path = .ok (p, w) ∧ p.verify E w = .err .invalidProof := by
  unfold provesWrongly at h
  split at h
  · rename_i p w h1
    split at h
    · rename_i h2
      exact ⟨p, w, h1, h2⟩
    · cases h
  · cases h

theorem trap_ok : Legal trapTy ∧ Fits trapTy ∧ Bounded trapTy ∧ Shallow trapTy ∧ Std trapTy ∧
    Valid trapTy trapVal ∧ InMemory trapTy trapVal := by
  refine ⟨?_, ?_, ?_, ?_, ?_, ?_, ?_⟩
  · simp [trapTy, pairTy, Legal, LegalV, LegalF, unionShape, noUnitV, countV, namesF]
  · simp [trapTy, pairTy, Fits, FitsV, FitsF, fixedLen, fixedLenF, isVar, isVarF, UintTy.bits]
  · simp [trapTy, pairTy, Bounded, BoundedV, BoundedF, countF]
  · simp [trapTy, pairTy, Shallow, ShallowV, ShallowF, countF]
  · simp [trapTy, pairTy, Std, StdV, StdF]
  · intro x hx
    exact ⟨trivial, trivial, trivial⟩
  · intro x hx
    exact ⟨trivial, trivial, trivial⟩

/-- C37 is false: for a path into a variant that the value does not have, the prover may descend into
the payload of the actual variant and return a proof that does not verify. -/
theorem C37_verifies_refuted : ∃ (t : Ty) (v : t.Val) (path : List PathElement), Legal t ∧ Fits t ∧
    Bounded t ∧ Shallow t ∧ Std t ∧ Valid t v ∧ InMemory t v ∧ ∀ E : Env, E.sha256 = Sha256.sha256 →
      ∃ p w, prove E (t.impl E) v path = .ok (p, w) ∧ p.verify E w = .err .invalidProof := by
  obtain ⟨h1, h2, h3, h4, h5, h6, h7⟩ := trap_ok
  refine ⟨trapTy, trapVal, trapPath, h1, h2, h3, h4, h5, h6, h7, fun E hE => ?_⟩
  obtain ⟨d, H⟩ := E
  have hE : H = Sha256.sha256 := hE
  subst hE
  cases d <;> exact provesWrongly_spec (by decide +kernel)

/-! ## C38 -/

/-- C38, types where the implementation agrees with the specification about packing: for a path to an
existing part (other than the length of a `Bitlist`, see C33) whose index fits in 64 bits, the prover
returns the node of the tree at the index of the path, and that node is the part, the chunk containing
it, or the length or selector. -/
theorem C38_leaf_partial (E : Env) (t : Ty) (v : t.Val) (path : List PathElement) (f : Found) (i : Nat)
    (hl : Legal t) (hb : Bounded t) (hs : Shallow t) (hstd : Std t) (hv : Valid t v)
    (hm : InMemory t v) (hi : gindex t path = some i) (hfit : i < 2 ^ 64)
    (hbits : lengthOfBits t path = false) (hf : part t v path = some f) :
    ∃ u p, prove E (t.impl E) v path = .ok (p, htr E.sha256 t v) ∧ p.index = i ∧
      (tree t v).sub i = some u ∧ f.In u ∧ p.leaf = u.root E.sha256 ∧
      p.branch = (tree t v).branchAt E.sha256 i := by
  have hg := (C34_exact_std_partial E t path i hstd hi).2 (countable_of_shallow hs) hfit hbits
  obtain ⟨u, h1, h2⟩ := C32_points_partial E t v path i f hstd hv
    (fun _ => ⟨countable_of_shallow hs, fun j hj => by rw [hi] at hj; cases hj; exact hfit⟩) hg hf
  have h3 := tree_std t v hstd
  have h4 := prove_node E hl hb hs (std_flat t hstd) hv hm hg (by rw [h3]; exact h1)
  rw [h3] at h4
  exact ⟨u, _, h4, rfl, h1, h2, rfl, rfl⟩

/-- C38 for all types and all paths that do not enter a collection of arrays of packed elements, with
the trees that the implementation computes roots of. -/
theorem C38_leaf_packed_partial (E : Env) (t : Ty) (v : t.Val) (path : List PathElement) (f : Found)
    (i : Nat) (w : Ty) (hl : Legal t) (hb : Bounded t) (hs : Shallow t) (hv : Valid t v)
    (hm : InMemory t v) (hf : FlatOn t path) (hd : path = [] → SameDepth t)
    (hi : walkBy prims t path = some (i, w)) (hfit : i < 2 ^ 64)
    (hbits : lengthOfBits t path = false) (hp : partBy packs t v path = some f) :
    ∃ u p, prove E (t.impl E) v path = .ok (p, (treeBy packs t v).root E.sha256) ∧ p.index = i ∧
      (treeBy packs t v).sub i = some u ∧ f.In u ∧ p.leaf = u.root E.sha256 ∧
      p.branch = (treeBy packs t v).branchAt E.sha256 i := by
  have hg := (C34_exact_partial E t path i w hi).2 (countable_of_shallow hs) hfit hbits
  obtain ⟨u, h1, h2⟩ := part_points t v hv path i w f hf hi hp
  rcases prove_on E hl hb hs hv hm hf hd (part_active t v path f hp) (fun _ j x hj => by
    rw [hi] at hj; cases hj; exact hfit) hg with ⟨h3, _⟩ | ⟨u', h3, h4⟩
  · rw [h1] at h3; cases h3
  · rw [h1] at h3
    cases h3
    exact ⟨u, _, h4, rfl, h1, h2, rfl, rfl⟩

/-- C38 for every proof produced on a path that does not enter a collection of arrays of packed
elements and names, in every `Option` and enum, the variant that the value has (elements beyond the end
of a list included): the leaf and the branch are those of the node at the index of the path. -/
theorem C38_node_partial (E : Env) (t : Ty) (v : t.Val) (path : List PathElement) (p : Proof)
    (w : Node) (hl : Legal t) (hb : Bounded t) (hs : Shallow t) (hv : Valid t v) (hm : InMemory t v)
    (hf : FlatOn t path) (hd : path = [] → SameDepth t) (ha : Active t v path)
    (hfit : E.debug = false → ∀ i w, walkBy prims t path = some (i, w) → i < 2 ^ 64)
    (h : prove E (t.impl E) v path = .ok (p, w)) :
    ∃ u x, walkBy prims t path = some (p.index, x) ∧ (treeBy packs t v).sub p.index = some u ∧
      p.leaf = u.root E.sha256 ∧ p.branch = (treeBy packs t v).branchAt E.sha256 p.index ∧
      w = (treeBy packs t v).root E.sha256 := by
  obtain ⟨g, pr, h1, _, _, _⟩ := prove_eq_ok.1 h
  obtain ⟨x, h2, _, _⟩ := index_exact (fun hE => ⟨countable_of_shallow hs, hfit hE⟩) h1
  rcases prove_on E hl hb hs hv hm hf hd ha hfit h1 with ⟨_, h3⟩ | ⟨u, h3, h4⟩
  · rw [h] at h3; cases h3
  · rw [h, Res.ok.injEq, Prod.mk.injEq] at h4
    rw [h4.1, h4.2]
    exact ⟨u, x, h2, h3, rfl, rfl, rfl⟩

example : Legal Demo.ty ∧ Bounded Demo.ty ∧ Shallow Demo.ty ∧ Std Demo.ty ∧ Valid Demo.ty Demo.val ∧
    InMemory Demo.ty Demo.val ∧ gindex Demo.ty Demo.path = some 322 ∧
    lengthOfBits Demo.ty Demo.path = false ∧
    part Demo.ty Demo.val Demo.path = some (.bytes 2 [7, 0]) :=
  ⟨Demo.ty_legal, Demo.ty_bounded, Demo.ty_shallow, Demo.ty_std, Demo.val_valid, Demo.val_inMemory,
    Demo.gindex_path, by decide +kernel, rfl⟩

/-- Lists in lists: `List<u8, 64>`, `List<List<u8, 64>, 2>` and so on. -/
def nest : Nat → Ty
  | 0 => .list (.uint .u8) 64
  | k + 1 => .list (nest k) 2

/-- A list of 33 bytes, in a list of one element, and so on. -/
def nestVal : (k : Nat) → (nest k).Val
  | 0 => (List.replicate 33 (9 : BitVec 8) : List (BitVec 8))
  | k + 1 => ([nestVal k] : List (nest k).Val)

/-- The path to the last byte. -/
def nestPath : Nat → List PathElement
  | 0 => [.index 32]
  | k + 1 => .index 0 :: nestPath k

theorem nest_notPacked (k : Nat) : packs (nest k) = false ∧ isBasic (nest k) = false := by
  cases k <;> exact ⟨rfl, rfl⟩

theorem nest_itemLen (k : Nat) : itemLen prims (nest k) = 32 := by
  cases k <;> rfl

theorem nest_ok : ∀ k, Legal (nest k) ∧ Bounded (nest k) ∧ Shallow (nest k) ∧ Std (nest k) ∧
    Valid (nest k) (nestVal k) ∧ InMemory (nest k) (nestVal k)
  | 0 => ⟨trivial, ⟨trivial, fun _ => by decide, by decide⟩, ⟨by decide, trivial⟩, ⟨rfl, trivial⟩,
    ⟨by decide, fun _ _ => trivial⟩, ⟨⟨by decide, fun _ => by decide⟩, fun _ _ => trivial⟩⟩
  | k + 1 => by
    obtain ⟨h1, h2, h3, h4, h5, h6⟩ := nest_ok k
    obtain ⟨h7, h8⟩ := nest_notPacked k
    refine ⟨h1, ⟨h2, fun h => ?_, ?_⟩, ⟨?_, h3⟩, ⟨?_, h4⟩, ⟨(by decide : 1 ≤ 2), ?_⟩,
      ⟨⟨(by decide : 1 < 2 ^ 58), fun h => ?_⟩, ?_⟩⟩
    · rw [h7] at h; cases h
    · rw [h7, if_neg (by simp)]; decide
    · rw [itemCount, nest_itemLen]; decide
    · cases k <;> rfl
    · intro x hx
      have hx : x ∈ [nestVal k] := hx
      rw [List.mem_singleton] at hx
      rw [hx]; exact h5
    · rw [h7] at h; cases h
    · intro x hx
      have hx : x ∈ [nestVal k] := hx
      rw [List.mem_singleton] at hx
      rw [hx]; exact h6

theorem nest_part : ∀ k, part (nest k) (nestVal k) (nestPath k) = some (.bytes 0 [9])
  | 0 => rfl
  | k + 1 => by
    have h : part (nest (k + 1)) (nestVal (k + 1)) (.index 0 :: nestPath k) =
        part (nest k) (nestVal k) (nestPath k) := by
      cases k <;> rfl
    exact h.trans (nest_part k)

/-- C38 is false in builds without overflow checks once the index of the path does not fit in 64
bits: with 32 nested lists, the index of a byte wraps around to 1, and the proof has the root of the
whole value as its leaf. -/
theorem C38_leaf_refuted : ∃ (t : Ty) (v : t.Val) (path : List PathElement) (pos : Nat) (b : Bytes),
    Legal t ∧ Bounded t ∧ Shallow t ∧ Std t ∧ Valid t v ∧ InMemory t v ∧
    part t v path = some (.bytes pos b) ∧
    ∀ E : Env, E.debug = false → E.sha256 = Sha256.sha256 →
      ∃ p w, prove E (t.impl E) v path = .ok (p, w) ∧ p.index = 1 ∧
        (p.leaf.1.drop pos).take b.length ≠ b := by
  obtain ⟨h1, h2, h3, h4, h5, h6⟩ := nest_ok 31
  refine ⟨nest 31, nestVal 31, nestPath 31, 0, [9], h1, h2, h3, h4, h5, h6, ?_, fun E hE hH => ?_⟩
  · exact nest_part 31
  obtain ⟨d, H⟩ := E
  have hE : d = false := hE
  have hH : H = Sha256.sha256 := hH
  subst hE hH
  have hg : generalizedIndex ((nest 31).impl ⟨false, Sha256.sha256⟩) (nestPath 31) = .ok 1 := by
    decide +kernel
  have hp := prove_node _ h1 h2 h3 (std_flat _ h4) h5 h6 hg (sub_one _)
  refine ⟨_, _, hp, rfl, ?_⟩
  decide +kernel

/-! ## C39 -/

/-- C39 is false: a path through an element beyond the end of a list makes the prover panic, in every
build. -/
theorem C39_panics_refuted : ∃ (t : Ty) (v : t.Val) (path : List PathElement), Legal t ∧ Fits t ∧
    Bounded t ∧ Shallow t ∧ Std t ∧ Valid t v ∧ InMemory t v ∧
    ∀ E : Env, prove E (t.impl E) v path = .panic := by
  refine ⟨.list (.list (.uint .u8) 4) 2, ([] : List (List (BitVec 8))), [.index 1, .index 0], trivial,
    trivial, ⟨⟨trivial, fun _ => by decide, by decide⟩, fun h => by simp [packs] at h,
      by decide⟩, ⟨by decide, by decide, trivial⟩, ⟨rfl, rfl, trivial⟩,
    ⟨by decide, fun x hx => absurd hx List.not_mem_nil⟩,
    ⟨⟨by decide, fun h => by simp [packs] at h⟩, fun x hx => absurd hx List.not_mem_nil⟩, fun E => ?_⟩
  obtain ⟨d, H⟩ := E
  cases d <;> with_unfolding_all rfl

/-- C39 is also false of vectors whose elements are arrays of packed values, even for the empty path:
`Vector<[u8; 64], 1>` has two chunks, but the prover makes room for one. -/
theorem C39_panics_array_refuted : ∃ (t : Ty) (v : t.Val), Legal t ∧ Fits t ∧
    Bounded t ∧ Shallow t ∧ Valid t v ∧ InMemory t v ∧ ∀ E : Env, prove E (t.impl E) v [] = .panic := by
  refine ⟨.vector (.array (.uint .u8) 64) 1,
    ([⟨List.replicate 64 0, rfl⟩] : List { l : List (BitVec 8) // l.length = 64 }),
    ⟨by decide, by decide, trivial⟩, ⟨⟨trivial, by decide⟩, by decide⟩,
    ⟨⟨trivial, fun _ => by decide⟩, fun _ => by decide⟩, ⟨by decide, by decide, trivial⟩,
    ⟨rfl, fun _ _ _ _ => trivial⟩, ⟨⟨by decide, fun _ => by decide⟩, fun x hx =>
      ⟨⟨by rw [x.2]; decide, fun _ => by rw [x.2]; decide⟩, fun _ _ => trivial⟩⟩, fun E => ?_⟩
  obtain ⟨d, H⟩ := E
  cases d <;> with_unfolding_all rfl

/-- C39 is also false of types with room for so many chunks that the tree of the prover would have
`2^63` bytes or more, even for an empty list and the empty path, while `hash_tree_root` returns the
root. -/
theorem C39_panics_large_refuted : ∃ (t : Ty) (v : t.Val), Legal t ∧ Fits t ∧
    Bounded t ∧ Std t ∧ Valid t v ∧ InMemory t v ∧ ∀ E : Env, prove E (t.impl E) v [] = .panic ∧
      (t.impl E).hashTreeRoot v = .ok (htr E.sha256 t v) := by
  let v : (Ty.list (.uint .u8) (2 ^ 62)).Val := ([] : List (BitVec 8))
  have hl : Legal (.list (.uint .u8) (2 ^ 62)) := trivial
  have hb : Bounded (.list (.uint .u8) (2 ^ 62)) := ⟨trivial, fun _ => by decide, by decide⟩
  have hs : Std (.list (.uint .u8) (2 ^ 62)) := ⟨rfl, trivial⟩
  have hv : Valid (.list (.uint .u8) (2 ^ 62)) v :=
    ⟨by decide, fun _ _ => trivial⟩
  have hm : InMemory (.list (.uint .u8) (2 ^ 62)) v :=
    ⟨⟨by decide, fun _ => by decide⟩, fun _ _ => trivial⟩
  refine ⟨.list (.uint .u8) (2 ^ 62), v, hl, trivial, hb, hs, hv, hm,
    fun E => ⟨?_, ?_⟩⟩
  · obtain ⟨d, H⟩ := E
    cases d <;> with_unfolding_all rfl
  · rw [htr_ok E _ v hl hb hv hm, tree_std _ v hs]
    rfl

/-- What C39 comes to, for all types and paths: the prover panics exactly if computing the index does
(see C34), or the index leads to a missing list element or through a collection that has more chunks
than `chunk_count` says. -/
theorem C39_exact_partial (E : Env) (t : Ty) (v : t.Val) (path : List PathElement) (hl : Legal t)
    (hb : Bounded t) (hs : Shallow t) (hv : Valid t v) (hm : InMemory t v) :
    prove E (t.impl E) v path = .panic ↔ generalizedIndex (t.impl E) path = .panic ∨
      ∃ g, generalizedIndex (t.impl E) path = .ok g ∧ answer E.sha256 t v g = .panic := by
  rw [prove_answer E t v path hl hb hs hv hm]
  cases hg : generalizedIndex (t.impl E) path with
  | panic => simp
  | err e => simp
  | ok g =>
    rw [Res.ok_bind]
    cases ha : answer E.sha256 t v g with
    | panic => simp [ha]
    | err e => simp [ha]
    | ok a => simp [ha]

/-- C39 for values in which every `List` has its maximal length, so that no element is missing, and
types without collections of arrays of packed values with more than 32 bytes: the prover does not
panic on any path, except that a build with overflow checks panics if the index of a beginning of the
path does not fit in 64 bits. -/
theorem C39_full_partial (E : Env) (t : Ty) (v : t.Val) (path : List PathElement)
    (hl : Legal t) (hb : Bounded t) (hs : Shallow t) (hn : Narrow t) (hv : Valid t v)
    (hm : InMemory t v) (hu : FullLists t v)
    (hfit : E.debug = true → ∀ p q i w, path = p ++ q → walkBy prims t p = some (i, w) → i < 2 ^ 64) :
    prove E (t.impl E) v path ≠ .panic := by
  have hnp : generalizedIndex (t.impl E) path ≠ .panic := by
    cases hE : E.debug with
    | false => exact (gi_release E hE path t 1).1
    | true =>
      intro h
      obtain ⟨p, q, i, w, h4, h5, h6⟩ := gi_panic E (Nat.le_refl 1) (countable_of_shallow hs) h
      rw [one_gcat (walk_pos h5)] at h6
      have := hfit hE p q i w h4 h5
      omega
  rw [Ne, C39_exact_partial E t v path hl hb hs hv hm]
  rintro (h | ⟨g, _, h⟩)
  · exact hnp h
  · obtain ⟨h1, h2⟩ := answer_total E.sha256 t v hn hv hu
    exact answer_ne_panic h1 h2 g h

/-- `List<[u8; 20], 4>` is not `Flat`. -/
example : Narrow (.list (.array (.uint .u8) 20) 4) ∧ ¬ Flat (.list (.array (.uint .u8) 20) 4) :=
  ⟨⟨fun _ => by decide, fun _ => by decide, trivial⟩, fun h => absurd h.1 (by decide)⟩

/-- C39 for paths that do not enter a collection of arrays of packed elements and name, in every
`Option` and enum, the variant that the value has: once the index is computed, the prover panics
exactly if the tree has no node there. -/
theorem C39_active_partial (E : Env) (t : Ty) (v : t.Val) (path : List PathElement) (g : Nat)
    (hl : Legal t) (hb : Bounded t) (hs : Shallow t) (hv : Valid t v) (hm : InMemory t v)
    (hf : FlatOn t path) (hd : path = [] → SameDepth t) (ha : Active t v path)
    (hfit : E.debug = false → ∀ i w, walkBy prims t path = some (i, w) → i < 2 ^ 64)
    (hg : generalizedIndex (t.impl E) path = .ok g) :
    prove E (t.impl E) v path = .panic ↔ (treeBy packs t v).sub g = none := by
  rcases prove_on E hl hb hs hv hm hf hd ha hfit hg with ⟨h1, h2⟩ | ⟨u, h1, h2⟩
  · simp [h1, h2]
  · simp [h1, h2]

/-- C39 for paths to existing parts that do not enter a collection of arrays of packed elements: the
prover returns a proof. -/
theorem C39_exists_partial (E : Env) (t : Ty) (v : t.Val) (path : List PathElement) (f : Found)
    (i : Nat) (w : Ty) (hl : Legal t) (hb : Bounded t) (hs : Shallow t) (hv : Valid t v)
    (hm : InMemory t v) (hf : FlatOn t path) (hd : path = [] → SameDepth t)
    (hi : walkBy prims t path = some (i, w)) (hfit : i < 2 ^ 64)
    (hbits : lengthOfBits t path = false) (hp : partBy packs t v path = some f) :
    ∃ p w, prove E (t.impl E) v path = .ok (p, w) := by
  obtain ⟨_, p, h, _⟩ := C38_leaf_packed_partial E t v path f i w hl hb hs hv hm hf hd hi hfit hbits hp
  exact ⟨p, _, h⟩

/-- A full list in the last element of a vector of optional lists. -/
example : FullLists (.vector (.option (.list (.uint .u16) 2)) 2)
    ([none, some [5, 6]] : List (Option (List (BitVec 16)))) := by
  have h : ∀ x : Option (List (BitVec 16)), x ∈ [none, some [5, 6]] →
      FullLists (.option (.list (.uint .u16) 2)) x := by
    intro x hx
    simp only [List.mem_cons, List.not_mem_nil, or_false] at hx
    rcases hx with rfl | rfl
    · intro y hy; cases hy
    · intro y hy
      have hy : ([5, 6] : List (BitVec 16)) = y := Option.some.inj hy
      subst hy
      exact ⟨rfl, fun _ _ => trivial⟩
  exact h

end Ssz
