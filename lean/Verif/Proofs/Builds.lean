import Verif.Model.Multiproofs
import Verif.Proofs.Prove

/-!
# Debug and release builds

`x ≼ y`: the outcome `x` is a panic or the outcome `y`. Every function of the model, run with overflow
checks and debug assertions, is below the same function run without. What is built from parts is below
what is built from parts that are above, in the same build or in one with fewer checks.
-/

namespace Ssz

variable {ε ε' α β : Type}

/-- A panic, or the same outcome. -/
def Below (x y : Res ε α) : Prop := x = .panic ∨ x = y

@[inherit_doc] infix:50 " ≼ " => Below

/-- The build with overflow checks and debug assertions. -/
@[reducible] def debugBuild (H : Bytes → Node) : Env := ⟨true, H⟩

/-- The build without. -/
@[reducible] def releaseBuild (H : Bytes → Node) : Env := ⟨false, H⟩

/-- The build with or without. -/
@[reducible] def build (debug : Bool) (H : Bytes → Node) : Env := ⟨debug, H⟩

/-- The second build has no checks that the first does not have. -/
class FewerChecks (d d' : Bool) : Prop where
  imp : d' = true → d = true

instance (d : Bool) : FewerChecks d d := ⟨id⟩

instance (d : Bool) : FewerChecks d false := ⟨nofun⟩

/-- The builds are the same, or debug and release. -/
theorem fewer_checks {P : Env → Env → Prop} (H : Bytes → Node) (d d' : Bool) [FewerChecks d d']
    (h : P (debugBuild H) (releaseBuild H)) (hr : ∀ E, P E E) : P (build d H) (build d' H) := by
  have h' : d' = true → d = true := FewerChecks.imp
  revert h'
  cases d <;> cases d' <;> intro h'
  · exact hr _
  · cases h' rfl
  · exact h
  · exact hr _

namespace Below

theorem rfl' {x : Res ε α} : x ≼ x := Or.inr rfl

theorem of_eq {x y : Res ε α} (h : x = y) : x ≼ y := Or.inr h

theorem panic {y : Res ε α} : Res.panic ≼ y := Or.inl rfl

theorem seq {x y : Res ε α} {f g : α → Res ε β} (h : x ≼ y) (hf : ∀ a, f a ≼ g a) :
    (x >>= f) ≼ (y >>= g) := by
  rcases h with rfl | rfl
  · exact panic
  · cases x with
    | ok a => exact hf a
    | err e => exact rfl'
    | panic => exact panic

theorem lift {x y : Calc α} (h : x ≼ y) : (x.lift : Res ε α) ≼ y.lift := by
  rcases h with rfl | rfl
  · exact panic
  · exact rfl'

theorem map {x y : Res ε α} {f : α → β} (h : x ≼ y) : x.map f ≼ y.map f := by
  rcases h with rfl | rfl
  · exact panic
  · exact rfl'

theorem mapErr {x y : Res ε α} {f : ε → ε'} (h : x ≼ y) : x.mapErr f ≼ y.mapErr f := by
  rcases h with rfl | rfl
  · exact panic
  · exact rfl'

theorem ite' {c : Prop} [Decidable c] {x x' y y' : Res ε α} (h : x ≼ x') (h' : y ≼ y') :
    (if c then x else y) ≼ (if c then x' else y') := by
  split
  · exact h
  · exact h'

theorem dite {c : Prop} [Decidable c] {x x' : c → Res ε α} {y y' : ¬ c → Res ε α}
    (h : ∀ p, x p ≼ x' p) (h' : ∀ p, y p ≼ y' p) :
    (if p : c then x p else y p) ≼ (if p : c then x' p else y' p) := by
  split
  · exact h _
  · exact h' _

/-- The meaning of the relation: results of the first are results of the second. -/
theorem eq {x y : Res ε α} (h : x ≼ y) (hx : x ≠ .panic) : y = x :=
  (h.resolve_left hx).symm

theorem mapList {f g : α → Res ε β} (h : ∀ a, f a ≼ g a) :
    ∀ l, Res.mapList f l ≼ Res.mapList g l
  | [] => rfl'
  | a :: as => by
    unfold Res.mapList
    rcases h a with ha | ha <;> rw [ha]
    · exact panic
    · cases g a with
      | ok b =>
        rcases mapList h as with hs | hs <;> rw [hs]
        · exact panic
        · exact rfl'
      | err e => exact rfl'
      | panic => exact rfl'

end Below

open Below

/-- `Below` for computations on a buffer. -/
def BelowB (x y : BufM ε α) : Prop := ∀ buf, (x buf).2 = .panic ∨ x buf = y buf

namespace BelowB

theorem rfl' {x : BufM ε α} : BelowB x x := fun _ => Or.inr rfl

theorem bind {x y : BufM ε α} {f g : α → BufM ε β} (h : BelowB x y) (hf : ∀ a, BelowB (f a) (g a)) :
    BelowB (x >>= f) (y >>= g) := by
  intro buf
  show (BufM.bind x f buf).2 = .panic ∨ BufM.bind x f buf = BufM.bind y g buf
  unfold BufM.bind
  rcases h buf with h | h
  · cases hx : x buf with
    | mk b r =>
      rw [hx] at h
      have h : r = .panic := h
      subst h
      exact Or.inl rfl
  · rw [h]
    cases hy : y buf with
    | mk b r =>
      cases r with
      | ok a => exact hf a b
      | err e => exact Or.inr rfl
      | panic => exact Or.inr rfl

theorem ofRes {x y : Res ε α} (h : x ≼ y) : BelowB (BufM.ofRes x) (BufM.ofRes y) := by
  intro buf
  rcases h with rfl | rfl
  · exact Or.inl rfl
  · exact Or.inr rfl

theorem ite {c : Prop} [Decidable c] {x x' y y' : BufM ε α} (h : BelowB x x') (h' : BelowB y y') :
    BelowB (if c then x else y) (if c then x' else y') := by
  split
  · exact h
  · exact h'

end BelowB

variable (H : Bytes → Node)

/-! ## Arithmetic -/

theorem below_ite_debug {c : Prop} [Decidable c] {x y z : Res ε α} :
    (if c then x else if (debugBuild H).debug then .panic else z) ≼
      (if c then x else if (releaseBuild H).debug then y else z) := by
  by_cases h : c
  · rw [if_pos h, if_pos h]; exact rfl'
  · rw [if_neg h]; exact panic

theorem below_add (a b : Nat) : (debugBuild H).add a b ≼ (releaseBuild H).add a b :=
  below_ite_debug H

theorem below_sub (a b : Nat) : (debugBuild H).sub a b ≼ (releaseBuild H).sub a b :=
  below_ite_debug H

theorem below_mul (a b : Nat) : (debugBuild H).mul a b ≼ (releaseBuild H).mul a b :=
  below_ite_debug H

theorem below_add32 (a b : Nat) : (debugBuild H).add32 a b ≼ (releaseBuild H).add32 a b :=
  below_ite_debug H

theorem below_pow2 (a : Nat) : (debugBuild H).pow2 a ≼ (releaseBuild H).pow2 a :=
  below_ite_debug H

theorem below_npt (a : Nat) : (debugBuild H).nextPowerOfTwo a ≼ (releaseBuild H).nextPowerOfTwo a :=
  below_ite_debug H

theorem below_assert (c : Bool) : (debugBuild H).debugAssert c ≼ (releaseBuild H).debugAssert c := by
  cases c
  · exact panic
  · exact rfl'

theorem below_getBit (i p : Nat) : getBit (debugBuild H) i p ≼ getBit (releaseBuild H) i p :=
  below_ite_debug H

/-! ## Merkleization -/

theorem below_layersLoop (height : Nat) : ∀ k last layer,
    layersLoop (debugBuild H) height k last layer ≼ layersLoop (releaseBuild H) height k last layer
  | 0, _, _ => rfl'
  | k + 1, last, layer => by
    unfold layersLoop
    refine seq (lift (below_pow2 H _)) fun bound => seq ?_ fun layer' =>
      below_layersLoop height k _ _
    exact of_eq (layerLoop_same H bound last _ 0 layer)
where
  layerLoop_same (H : Bytes → Node) (bound last depth i : Nat) (layer : Bytes) :
      layerLoop (debugBuild H) bound last depth i layer =
        layerLoop (releaseBuild H) bound last depth i layer := by
    have hz : ∀ steps i b, zeroHashesLoop (debugBuild H) steps i b =
        zeroHashesLoop (releaseBuild H) steps i b := by
      intro steps
      induction steps with
      | zero => intro i b; rfl
      | succ k ih => intro i b; unfold zeroHashesLoop; simp only [ih]; rfl
    have hc : ∀ i, contextIndex (debugBuild H) i = contextIndex (releaseBuild H) i := by
      intro i; unfold contextIndex computeZeroHashes; rw [hz]
    induction hn : bound - i using Nat.strong_induction_on generalizing i layer with
    | _ n ih =>
      unfold layerLoop
      split
      · rename_i hi
        have ih' : ∀ l, layerLoop (debugBuild H) bound last depth (i + 2) l =
            layerLoop (releaseBuild H) bound last depth (i + 2) l :=
          fun l => ih (bound - (i + 2)) (by omega) (i + 2) l rfl
        simp only [ih', hc]
        rfl
      · rfl

theorem context_same (i : Nat) :
    contextIndex (debugBuild H) i = contextIndex (releaseBuild H) i := by
  have hz : ∀ steps i b, zeroHashesLoop (debugBuild H) steps i b =
      zeroHashesLoop (releaseBuild H) steps i b := by
    intro steps
    induction steps with
    | zero => intro i b; rfl
    | succ k ih => intro i b; unfold zeroHashesLoop; simp only [ih]; rfl
  unfold contextIndex computeZeroHashes; rw [hz]

theorem below_check {x : Res MerkError Unit} (h : x = .panic ∨ x = .ok ()) : x ≼ .ok () := h

theorem below_powerCheck (leafCount : Nat) :
    (if (debugBuild H).debug then
      (do let p ← ((debugBuild H).nextPowerOfTwo leafCount).lift
          ((debugBuild H).debugAssert (p == leafCount)).lift : Res MerkError Unit)
    else .ok ()) ≼
    (if (releaseBuild H).debug then
      (do let p ← ((releaseBuild H).nextPowerOfTwo leafCount).lift
          ((releaseBuild H).debugAssert (p == leafCount)).lift : Res MerkError Unit)
    else .ok ()) := by
  rw [if_pos rfl, if_neg (by simp)]
  cases h : (debugBuild H).nextPowerOfTwo leafCount with
  | err e => exact e.elim
  | panic => exact panic
  | ok p =>
    show ((debugBuild H).debugAssert (p == leafCount)).lift ≼ .ok ()
    exact lift (below_assert H _)

theorem below_padded (chunks : Bytes) (leafCount : Nat) :
    merkleizeChunksWithVirtualPadding (debugBuild H) chunks leafCount ≼
      merkleizeChunksWithVirtualPadding (releaseBuild H) chunks leafCount := by
  unfold merkleizeChunksWithVirtualPadding
  refine seq (lift (below_assert H _)) fun _ => seq (below_powerCheck H _) fun _ =>
    seq (lift (below_assert H _)) fun _ => ite' ?_ ?_
  · simp only [context_same]; exact rfl'
  · exact seq (below_layersLoop H _ _ _ _) fun _ => rfl'

theorem below_merkleize (chunks : Bytes) (limit : Option Nat) :
    merkleize (debugBuild H) chunks limit ≼ merkleize (releaseBuild H) chunks limit := by
  unfold merkleize
  refine seq (lift (below_assert H _)) fun _ => seq (lift (below_npt H _)) fun _ => ?_
  cases limit with
  | none => exact below_padded H _ _
  | some l => exact ite' rfl' (seq (lift (below_npt H _)) fun _ => below_padded H _ _)

theorem below_mixIn (root : Node) (d : Nat) :
    mixInDecoration (debugBuild H) root d ≼ mixInDecoration (releaseBuild H) root d := rfl'

theorem below_treeGet (tree : Tree) (g : Nat) :
    Tree.get (debugBuild H) tree g ≼ Tree.get (releaseBuild H) tree g :=
  seq (lift (below_sub H _ _)) fun _ => seq (lift (below_mul H _ _)) fun _ =>
    seq (lift (below_mul H _ _)) fun _ => rfl'

theorem below_treeSet (tree : Tree) (g : Nat) (src : Bytes) :
    Tree.set (debugBuild H) tree g src ≼ Tree.set (releaseBuild H) tree g src :=
  seq (lift (below_sub H _ _)) fun _ => seq (lift (below_mul H _ _)) fun _ =>
    seq (lift (below_mul H _ _)) fun _ => rfl'

theorem below_treeMix (tree : Tree) (d : Nat) :
    Tree.mixInDecoration (debugBuild H) tree d ≼ Tree.mixInDecoration (releaseBuild H) tree d :=
  seq (below_treeGet H _ _) fun _ => seq rfl' fun _ => seq (below_treeSet H _ _ _) fun _ =>
    seq (below_treeGet H _ _) fun _ => seq (below_treeGet H _ _) fun _ => below_treeSet H _ _ _

theorem treeLoop_same : ∀ i b, treeLoop (debugBuild H) i b = treeLoop (releaseBuild H) i b := by
  intro i
  induction i using Nat.strong_induction_on with
  | _ i ih =>
    intro b
    cases i with
    | zero => rw [treeLoop, treeLoop]
    | succ i =>
      rw [treeLoop, treeLoop]
      simp only [fun l => ih (i - 1) (by omega) l]
      rfl

theorem below_computeMerkleTree (chunks : Bytes) (leafCount : Nat) :
    computeMerkleTree (debugBuild H) chunks leafCount ≼
      computeMerkleTree (releaseBuild H) chunks leafCount := by
  unfold computeMerkleTree
  refine seq (lift (below_assert H _)) fun _ => seq (below_powerCheck H _) fun _ =>
    seq (lift (below_mul H _ _)) fun _ => seq (lift (below_sub H _ _)) fun _ =>
    seq (lift (below_sub H _ _)) fun _ => seq (lift (below_mul H _ _)) fun _ =>
    seq (lift (below_mul H _ _)) fun _ => seq rfl' fun _ =>
    seq (lift (below_add H _ _)) fun _ => seq rfl' fun _ => ?_
  exact of_eq (treeLoop_same H _ _)

/-! ## Proofs -/

theorem below_getIndex (i d : Nat) :
    getIndex (debugBuild H) i d ≼ getIndex (releaseBuild H) i d :=
  seq (lift (below_pow2 H _)) fun _ => rfl'

theorem below_subtree (i : Nat) :
    getSubtreeIndex (debugBuild H) i ≼ getSubtreeIndex (releaseBuild H) i :=
  seq rfl' fun _ => below_getIndex H _ _

theorem below_local (i n : Nat) : computeLocalMerkleCoordinates (debugBuild H) i n ≼
    computeLocalMerkleCoordinates (releaseBuild H) i n :=
  seq (lift (below_mul H _ _)) fun _ => seq (lift (below_sub H _ _)) fun _ => seq rfl' fun _ =>
    seq (below_getIndex H _ _) fun _ => rfl'

theorem below_siblings (tree : Tree) : ∀ n target branch,
    siblingsLoop (debugBuild H) tree n target branch ≼ siblingsLoop (releaseBuild H) tree n target branch
  | 0, _, _ => rfl'
  | n + 1, target, branch => by
    unfold siblingsLoop
    have hk : ∀ sibling : Bytes, (do
        let node ← toNode sibling
        siblingsLoop (debugBuild H) tree n (target / 2) (branch ++ [node])) ≼ (do
        let node ← toNode sibling
        siblingsLoop (releaseBuild H) tree n (target / 2) (branch ++ [node])) :=
      fun _ => seq rfl' fun _ => below_siblings tree n _ _
    exact ite' (seq (seq (lift (below_sub H _ _)) fun _ => below_treeGet H _ _) hk)
      (seq (seq (lift (below_add H _ _)) fun _ => below_treeGet H _ _) hk)

theorem below_branchLoop (i : Nat) : ∀ branch k derived,
    branchLoop (debugBuild H) i k branch derived ≼ branchLoop (releaseBuild H) i k branch derived
  | [], _, _ => rfl'
  | _ :: rest, k, _ => seq (lift (below_pow2 H _)) fun _ => seq rfl' fun _ =>
      below_branchLoop i rest (k + 1) _

theorem below_branch (leaf : Node) (branch : List Node) (depth i : Nat) (root : Node) :
    isValidMerkleBranch (debugBuild H) leaf branch depth i root ≼
      isValidMerkleBranch (releaseBuild H) leaf branch depth i root :=
  ite' rfl' (seq (below_branchLoop H _ _ _ _) fun _ => rfl')

theorem below_branchIndex (leaf : Node) (branch : List Node) (i : Nat) (root : Node) :
    isValidMerkleBranchForGeneralizedIndex (debugBuild H) leaf branch i root ≼
      isValidMerkleBranchForGeneralizedIndex (releaseBuild H) leaf branch i root :=
  seq rfl' fun _ => seq (below_subtree H _) fun _ => below_branch H _ _ _ _ _

theorem below_rootLoop (index : Nat) : ∀ proof i result,
    merkleRootLoop (debugBuild H) index i proof result ≼
      merkleRootLoop (releaseBuild H) index i proof result
  | [], _, _ => rfl'
  | _ :: rest, i, _ => seq (lift (below_getBit H _ _)) fun _ => below_rootLoop index rest (i + 1) _

theorem below_calculateRoot (leaf : Node) (proof : List Node) (i : Nat) :
    calculateMerkleRoot (debugBuild H) leaf proof i ≼ calculateMerkleRoot (releaseBuild H) leaf proof i :=
  seq rfl' fun _ => ite' rfl' (below_rootLoop H _ _ _ _)

theorem multiproofLoop_same (keys : List Nat) (objects : Objects) :
    multiproofLoop (debugBuild H) keys objects = multiproofLoop (releaseBuild H) keys objects := by
  induction keys, objects using multiproofLoop.induct (debugBuild H) with
  | case1 objects => rw [multiproofLoop, multiproofLoop]
  | case2 objects key keys hc ri li l r hl hr node ih =>
    rw [multiproofLoop, multiproofLoop, dif_pos hc, dif_pos hc]
    simp only [ri, li] at hl hr
    simp only [hl, hr]
    exact ih
  | case3 objects key keys hc ri li hno =>
    rw [multiproofLoop, multiproofLoop, dif_pos hc, dif_pos hc]
    simp only
    split
    · rename_i a b ha hb
      exact absurd hb (hno a b ha)
    · rfl
  | case4 objects key keys hc ih =>
    rw [multiproofLoop, multiproofLoop, dif_neg hc, dif_neg hc]
    exact ih

theorem multiRoot_same (leaves proof : List Node) (indices : List Nat) :
    calculateMultiMerkleRoot (debugBuild H) leaves proof indices =
      calculateMultiMerkleRoot (releaseBuild H) leaves proof indices := by
  unfold calculateMultiMerkleRoot
  simp only [multiproofLoop_same]

/-! ## The same for two builds of which the second has fewer checks -/

variable {dbg dbg' : Bool} [FewerChecks dbg dbg']

theorem lower_add (a b : Nat) :
    (build dbg H).add a b ≼ (build dbg' H).add a b :=
  fewer_checks (P := fun E E' => E.add a b ≼ E'.add a b) H dbg dbg'
    (below_add H a b) fun _ => rfl'

theorem lower_sub (a b : Nat) :
    (build dbg H).sub a b ≼ (build dbg' H).sub a b :=
  fewer_checks (P := fun E E' => E.sub a b ≼ E'.sub a b) H dbg dbg'
    (below_sub H a b) fun _ => rfl'

theorem lower_mul (a b : Nat) :
    (build dbg H).mul a b ≼ (build dbg' H).mul a b :=
  fewer_checks (P := fun E E' => E.mul a b ≼ E'.mul a b) H dbg dbg'
    (below_mul H a b) fun _ => rfl'

theorem lower_add32 (a b : Nat) :
    (build dbg H).add32 a b ≼ (build dbg' H).add32 a b :=
  fewer_checks (P := fun E E' => E.add32 a b ≼ E'.add32 a b) H dbg dbg'
    (below_add32 H a b) fun _ => rfl'

theorem lower_pow2 (a : Nat) :
    (build dbg H).pow2 a ≼ (build dbg' H).pow2 a :=
  fewer_checks (P := fun E E' => E.pow2 a ≼ E'.pow2 a) H dbg dbg'
    (below_pow2 H a) fun _ => rfl'

theorem lower_npt (a : Nat) :
    (build dbg H).nextPowerOfTwo a ≼ (build dbg' H).nextPowerOfTwo a :=
  fewer_checks (P := fun E E' => E.nextPowerOfTwo a ≼ E'.nextPowerOfTwo a) H dbg dbg'
    (below_npt H a) fun _ => rfl'

theorem lower_assert (c : Bool) :
    (build dbg H).debugAssert c ≼ (build dbg' H).debugAssert c :=
  fewer_checks (P := fun E E' => E.debugAssert c ≼ E'.debugAssert c) H dbg dbg'
    (below_assert H c) fun _ => rfl'

theorem lower_computeMerkleTree (chunks : Bytes) (leafCount : Nat) :
    computeMerkleTree (build dbg H) chunks leafCount ≼ computeMerkleTree (build dbg' H) chunks leafCount :=
  fewer_checks (P := fun E E' => computeMerkleTree E chunks leafCount ≼ computeMerkleTree E' chunks leafCount) H dbg dbg'
    (below_computeMerkleTree H chunks leafCount) fun _ => rfl'

theorem lower_local (i n : Nat) :
    computeLocalMerkleCoordinates (build dbg H) i n ≼ computeLocalMerkleCoordinates (build dbg' H) i n :=
  fewer_checks (P := fun E E' => computeLocalMerkleCoordinates E i n ≼ computeLocalMerkleCoordinates E' i n) H dbg dbg'
    (below_local H i n) fun _ => rfl'

theorem lower_merkleize (chunks : Bytes) (limit : Option Nat) :
    merkleize (build dbg H) chunks limit ≼ merkleize (build dbg' H) chunks limit :=
  fewer_checks (P := fun E E' => merkleize E chunks limit ≼ merkleize E' chunks limit) H dbg dbg'
    (below_merkleize H chunks limit) fun _ => rfl'

theorem lower_siblings (tree : Tree) (n target : Nat) (branch : List Node) :
    siblingsLoop (build dbg H) tree n target branch ≼ siblingsLoop (build dbg' H) tree n target branch :=
  fewer_checks (P := fun E E' => siblingsLoop E tree n target branch ≼ siblingsLoop E' tree n target branch) H dbg dbg'
    (below_siblings H tree n target branch) fun _ => rfl'

theorem lower_treeGet (tree : Tree) (g : Nat) :
    Tree.get (build dbg H) tree g ≼ Tree.get (build dbg' H) tree g :=
  fewer_checks (P := fun E E' => Tree.get E tree g ≼ Tree.get E' tree g) H dbg dbg'
    (below_treeGet H tree g) fun _ => rfl'

theorem lower_treeMix (tree : Tree) (m : Nat) :
    Tree.mixInDecoration (build dbg H) tree m ≼ Tree.mixInDecoration (build dbg' H) tree m :=
  fewer_checks (P := fun E E' => Tree.mixInDecoration E tree m ≼ Tree.mixInDecoration E' tree m) H dbg dbg'
    (below_treeMix H tree m) fun _ => rfl'

/-! ## Implementations -/

/-- Every function of the second implementation refines that of the first. -/
structure Refines (T T' : SimpleSerialize α) : Prop where
  isVariableSize : T.isVariableSize = T'.isVariableSize
  isCompositeType : T.isCompositeType = T'.isCompositeType
  decoration : T.decoration = T'.decoration
  sizeHint : T.sizeHint ≼ T'.sizeHint
  serialize : ∀ v, BelowB (T.serialize v) (T'.serialize v)
  deserialize : ∀ b, T.deserialize b ≼ T'.deserialize b
  hashTreeRoot : ∀ v, T.hashTreeRoot v ≼ T'.hashTreeRoot v
  itemLength : T.itemLength ≼ T'.itemLength
  chunkCount : T.chunkCount ≼ T'.chunkCount
  index : ∀ p path, T.computeGeneralizedIndex p path ≼ T'.computeGeneralizedIndex p path
  chunks : ∀ v, T.chunks v ≼ T'.chunks v
  proveElement : ∀ v i p, T.proveElement v i p ≼ T'.proveElement v i p

theorem Refines.refl (T : SimpleSerialize α) : Refines T T where
  isVariableSize := rfl
  isCompositeType := rfl
  decoration := rfl
  sizeHint := rfl'
  serialize _ := BelowB.rfl'
  deserialize _ := rfl'
  hashTreeRoot _ := rfl'
  itemLength := rfl'
  chunkCount := rfl'
  index _ _ := rfl'
  chunks _ := rfl'
  proveElement _ _ _ := rfl'

variable {H}

theorem computeProof_unfold (E : Env) (T : SimpleSerialize α) (v : α) (pr : Prover) :
    computeProof E T v pr =
      (T.chunkCount.lift >>= fun cc => (E.nextPowerOfTwo cc).lift >>= fun l0 =>
      (if (T.decoration v).isSome then (E.mul l0 2).lift else .ok l0) >>= fun l =>
      computeLocalMerkleCoordinates E pr.proof.index l >>= fun c =>
      innerProof E T v pr c.1 c.2.1 c.2.2 >>= fun p1 =>
      finishProof E T v l pr.proof.index c.1 c.2.2 p1) := by
  unfold computeProof
  cases hd : T.decoration v with
  | none =>
    simp only [innerProof, finishProof, builtTree, hd, Res.bind_assoc, res_ite_bind,
      Option.isSome_none, Bool.false_eq_true, if_false, Res.ok_bind]
  | some m =>
    simp only [innerProof, finishProof, builtTree, hd, Res.bind_assoc, res_ite_bind,
      Option.isSome_some, if_true, Res.ok_bind]

theorem below_builtTree (chunks : Bytes) (n : Nat) (deco : Option Nat) :
    builtTree (build dbg H) chunks n deco ≼ builtTree (build dbg' H) chunks n deco := by
  unfold builtTree
  refine seq (lower_computeMerkleTree H _ _) fun _ => ?_
  cases deco with
  | none => exact rfl'
  | some d => exact lower_treeMix H _ _

theorem below_computeProof {T T' : SimpleSerialize α} (h : Refines T T') (v : α) (pr : Prover) :
    computeProof (build dbg H) T v pr ≼ computeProof (build dbg' H) T' v pr := by
  rw [computeProof_unfold, computeProof_unfold, h.decoration]
  refine seq (lift h.chunkCount) fun _ => seq (lift (lower_npt H _)) fun _ =>
    seq (ite' (lift (lower_mul H _ _)) rfl') fun _ => seq (lower_local H _ _) fun _ =>
    seq ?_ fun _ => ?_
  · unfold innerProof
    exact ite' (seq rfl' fun _ => seq (lift (lower_sub H _ _)) fun _ =>
      seq (lift (lower_pow2 H _)) fun _ => seq rfl' fun _ => seq (lift (lower_add H _ _)) fun _ =>
      seq (h.proveElement _ _ _) fun _ => rfl') rfl'
  · unfold finishProof
    rw [h.decoration]
    refine seq (h.chunks v) fun _ => seq (below_builtTree _ _ _) fun _ => ?_
    have hk : ∀ tree : Tree, ∀ leaf : Node, ∀ b : List Node, ∀ ld lg i : Nat, (do
        let branch ← siblingsLoop (build dbg H) tree ld lg b
        let rootBytes ← Tree.get (build dbg H) tree 1
        let root ← toNode rootBytes
        .ok { proof := { leaf := leaf, branch := branch, index := i }, witness := root } :
          Res MerkError Prover) ≼ (do
        let branch ← siblingsLoop (build dbg' H) tree ld lg b
        let rootBytes ← Tree.get (build dbg' H) tree 1
        let root ← toNode rootBytes
        .ok { proof := { leaf := leaf, branch := branch, index := i }, witness := root }) :=
      fun _ _ _ _ _ _ => seq (lower_siblings H _ _ _ _) fun _ => seq (lower_treeGet H _ _) fun _ => rfl'
    exact ite' (seq (seq (lower_treeGet H _ _) fun _ => rfl') fun _ => hk _ _ _ _ _ _)
      (seq rfl' fun _ => hk _ _ _ _ _ _)

theorem below_prove {T T' : SimpleSerialize α} (h : Refines T T') (v : α) (path : List PathElement) :
    prove (build dbg H) T v path ≼ prove (build dbg' H) T' v path :=
  seq (h.index _ _) fun _ => seq (below_computeProof h _ _) fun _ => rfl'

/-! ## Serialization of collections -/

theorem below_withElement {T T' : SimpleSerialize α} (h : Refines T T') (s : Serializer) (v : α) :
    s.withElement T.toSerializable v ≼ s.withElement T'.toSerializable v := by
  unfold Serializer.withElement
  refine seq (lift h.sizeHint) fun _ => seq rfl' fun _ => ?_
  rw [h.isVariableSize]
  rcases h.serialize v [] with hs | hs
  · cases hx : T.serialize v [] with
    | mk b r =>
      rw [hx] at hs
      have hs : r = .panic := hs
      subst hs
      exact panic
  · rw [hs]; exact rfl'

theorem below_withElements {T T' : SimpleSerialize α} (h : Refines T T') : ∀ vs s,
    Serializer.withElements T.toSerializable s vs ≼ Serializer.withElements T'.toSerializable s vs
  | [], _ => rfl'
  | v :: vs, s => seq (below_withElement h s v) fun s' => below_withElements h vs s'

theorem below_writeParts : ∀ ps running,
    BelowB (writeParts (build dbg H) running ps) (writeParts (build dbg' H) running ps)
  | [], _ => BelowB.rfl'
  | .fixed _ :: rest, running => BelowB.bind BelowB.rfl' fun _ => below_writeParts rest running
  | .offset _ :: rest, _ => BelowB.bind BelowB.rfl' fun _ =>
      BelowB.bind (BelowB.ofRes (lift (lower_assert H _))) fun _ =>
      BelowB.bind (BelowB.ofRes (lift (lower_add32 H _ _))) fun r => below_writeParts rest r

theorem below_serializer (s : Serializer) :
    BelowB (s.serialize (build dbg H)) (s.serialize (build dbg' H)) :=
  BelowB.ite BelowB.rfl' (BelowB.bind (below_writeParts _ _) fun _ => BelowB.rfl')

theorem below_fixed {T T' : SimpleSerialize α} (h : Refines T T') (b : Bytes) :
    deserializeFixedHomogeneousComposite (build dbg H) T.toSerializable b ≼
      deserializeFixedHomogeneousComposite (build dbg' H) T'.toSerializable b :=
  seq (lift h.sizeHint) fun _ => ite' rfl' (seq (lift (lower_assert H _)) fun _ =>
    Below.mapList h.deserialize _)

theorem below_spans {T T' : SimpleSerialize α} (h : Refines T T') (b : Bytes) : ∀ offsets,
    deserializeSpans T.toSerializable b offsets ≼ deserializeSpans T'.toSerializable b offsets
  | [] => rfl'
  | [_] => rfl'
  | _ :: stop :: rest => ite' rfl' (seq rfl' fun _ => seq (h.deserialize _) fun _ =>
      seq (below_spans h b (stop :: rest)) fun _ => rfl')

theorem below_variable {T T' : SimpleSerialize α} (h : Refines T T') (b : Bytes) :
    deserializeVariableHomogeneousComposite T.toSerializable b ≼
      deserializeVariableHomogeneousComposite T'.toSerializable b := by
  unfold deserializeVariableHomogeneousComposite
  refine ite' rfl' ?_
  cases getRange b 0 4 with
  | none => exact rfl'
  | some w => exact seq rfl' fun _ => ite' rfl' (ite' rfl' (seq rfl' fun _ =>
      seq rfl' fun _ => below_spans h b _))

theorem below_homogeneous {T T' : SimpleSerialize α} (h : Refines T T') (b : Bytes) :
    deserializeHomogeneousComposite (build dbg H) T.toSerializable b ≼
      deserializeHomogeneousComposite (build dbg' H) T'.toSerializable b := by
  unfold deserializeHomogeneousComposite
  rw [h.isVariableSize]
  exact ite' (below_variable h b) (below_fixed h b)

theorem below_vectorLength {T T' : SimpleSerialize α} (h : Refines T T') (n : Nat) (b : Bytes) :
    checkVectorLength (build dbg H) T.toSerializable n b ≼
      checkVectorLength (build dbg' H) T'.toSerializable n b := by
  unfold checkVectorLength
  rw [h.isVariableSize]
  exact ite' rfl' (seq (lift h.sizeHint) fun _ => seq (lift (lower_mul H _ _)) fun _ => rfl')

theorem below_listLength {T T' : SimpleSerialize α} (h : Refines T T') (b : Bytes) :
    checkListLength (build dbg H) T.toSerializable b ≼
      checkListLength (build dbg' H) T'.toSerializable b := by
  unfold checkListLength
  rw [h.isVariableSize]
  exact ite' rfl' (seq (lift h.sizeHint) fun _ => seq rfl' fun _ =>
    ite' (seq (lift (lower_sub H _ _)) fun _ => rfl') rfl')

/-! ## Roots and indices of collections -/

theorem below_packLoop {T T' : SimpleSerialize α} (h : Refines T T') : ∀ vs b,
    packLoop T.toSerializable vs b ≼ packLoop T'.toSerializable vs b
  | [], _ => rfl'
  | v :: vs, b => by
    unfold packLoop
    rcases h.serialize v b with hs | hs
    · cases hx : T.serialize v b with
      | mk b r =>
        rw [hx] at hs
        have hs : r = .panic := hs
        subst hs
        exact panic
    · rw [hs]
      cases T'.serialize v b with
      | mk b r =>
        cases r with
        | ok a => exact below_packLoop h vs b
        | err e => exact rfl'
        | panic => exact rfl'

theorem below_elementsLoop {f g : α → Res MerkError Node} (h : ∀ v, f v ≼ g v) : ∀ vs i b,
    elementsToChunksLoop f i vs b ≼ elementsToChunksLoop g i vs b
  | [], _, _ => rfl'
  | v :: vs, i, _ => seq (h v) fun _ => seq rfl' fun _ => below_elementsLoop h vs (i + 1) _

theorem below_assemble {T T' : SimpleSerialize α} (h : Refines T T') (vs : List α) :
    assembleChunks (build dbg H) T vs ≼ assembleChunks (build dbg' H) T' vs := by
  unfold assembleChunks
  rw [h.isCompositeType]
  exact ite' (seq (lift (lower_mul H _ _)) fun _ => seq rfl' fun _ =>
    below_elementsLoop h.hashTreeRoot _ _ _) (Below.map (below_packLoop h _ _))

theorem below_itemCount {T T' : SimpleSerialize α} (h : Refines T T') (n : Nat) :
    itemChunkCount (build dbg H) T n ≼ itemChunkCount (build dbg' H) T' n :=
  seq h.itemLength fun _ => seq (lower_mul H _ _) fun _ => seq (lower_add H _ _) fun _ => rfl'

theorem below_vectorIndex {T T' : SimpleSerialize α} (h : Refines T T') (n p : Nat) :
    ∀ path, vectorGeneralizedIndex (build dbg H) T n p path ≼
      vectorGeneralizedIndex (build dbg' H) T' n p path
  | [] => rfl'
  | .index _ :: _ => ite' rfl' (seq (lift h.itemLength) fun _ =>
      seq (lift (lower_mul H _ _)) fun _ => seq (lift (below_itemCount h n)) fun _ =>
      seq (lift (lower_npt H _)) fun _ => seq (lift (lower_mul H _ _)) fun _ =>
      seq (lift (lower_add H _ _)) fun _ => h.index _ _)
  | .field _ :: _ => rfl'
  | .length :: _ => rfl'
  | .selector :: _ => rfl'

theorem below_listIndex {T T' : SimpleSerialize α} (h : Refines T T') (n p : Nat) :
    ∀ path, listGeneralizedIndex (build dbg H) T n p path ≼
      listGeneralizedIndex (build dbg' H) T' n p path
  | [] => rfl'
  | .index _ :: _ => ite' rfl' (seq (lift h.itemLength) fun _ =>
      seq (lift (lower_mul H _ _)) fun _ => seq (lift (lower_mul H _ _)) fun _ =>
      seq (lift (below_itemCount h n)) fun _ =>
      seq (lift (lower_npt H _)) fun _ => seq (lift (lower_mul H _ _)) fun _ =>
      seq (lift (lower_add H _ _)) fun _ => h.index _ _)
  | .length :: _ => ite' (seq (lift (lower_mul H _ _)) fun _ => lift (lower_add H _ _)) rfl'
  | .field _ :: _ => rfl'
  | .selector :: _ => rfl'

theorem below_collectionProve {T T' : SimpleSerialize α} (h : Refines T T') (n : Nat) (vs : List α)
    (i : Nat) (pr : Prover) : collectionProveElement (build dbg H) T n vs i pr ≼
      collectionProveElement (build dbg' H) T' n vs i pr :=
  ite' rfl' (seq rfl' fun _ => below_computeProof h _ _)

theorem refines_array {T T' : SimpleSerialize α} (h : Refines T T') (n : Nat) :
    Refines (SimpleSerialize.array (build dbg H) T n) (SimpleSerialize.array (build dbg' H) T' n) where
  isVariableSize := h.isVariableSize
  isCompositeType := h.isCompositeType
  decoration := rfl
  sizeHint := seq h.sizeHint fun _ => lower_mul H _ _
  serialize v := BelowB.ite BelowB.rfl'
    (BelowB.bind (BelowB.ofRes (below_withElements h v.1 {})) fun _ => below_serializer _)
  deserialize b := ite' rfl' (seq (below_vectorLength h n b) fun _ =>
    seq (below_homogeneous h b) fun _ => rfl')
  hashTreeRoot v := seq (below_assemble h v.1) fun _ => lower_merkleize H _ _
  itemLength := rfl'
  chunkCount := below_itemCount h n
  index p path := below_vectorIndex h n p path
  chunks v := below_assemble h v.1
  proveElement v i pr := below_collectionProve h n v.1 i pr

theorem refines_vector {T T' : SimpleSerialize α} (h : Refines T T') (n : Nat) :
    Refines (SimpleSerialize.vector (build dbg H) T n)
      (SimpleSerialize.vector (build dbg' H) T' n) where
  isVariableSize := h.isVariableSize
  isCompositeType := rfl
  decoration := rfl
  sizeHint := seq h.sizeHint fun _ => lower_mul H _ _
  serialize v := BelowB.ite BelowB.rfl'
    (BelowB.bind (BelowB.ofRes (below_withElements h v {})) fun _ => below_serializer _)
  deserialize b := ite' rfl' (seq (below_vectorLength h n b) fun _ =>
    seq (below_homogeneous h b) fun _ => rfl')
  hashTreeRoot v := seq (below_assemble h v) fun _ => lower_merkleize H _ _
  itemLength := rfl'
  chunkCount := below_itemCount h n
  index p path := below_vectorIndex h n p path
  chunks v := below_assemble h v
  proveElement v i pr := below_collectionProve h n v i pr

theorem refines_list {T T' : SimpleSerialize α} (h : Refines T T') (n : Nat) :
    Refines (SimpleSerialize.list (build dbg H) T n) (SimpleSerialize.list (build dbg' H) T' n) where
  isVariableSize := rfl
  isCompositeType := rfl
  decoration := rfl
  sizeHint := rfl'
  serialize v := BelowB.ite BelowB.rfl'
    (BelowB.bind (BelowB.ofRes (below_withElements h v {})) fun _ => below_serializer _)
  deserialize b := seq (below_listLength h b) fun _ => seq (below_homogeneous h b) fun _ => rfl'
  hashTreeRoot v := by
    refine seq (below_assemble h v) fun _ => ?_
    rw [h.isCompositeType]
    exact ite' (seq (lower_merkleize H _ _) fun _ => rfl')
      (seq (lift (seq h.sizeHint fun _ => seq (lower_mul H _ _) fun _ => rfl')) fun _ =>
        seq (lower_merkleize H _ _) fun _ => rfl')
  itemLength := rfl'
  chunkCount := below_itemCount h n
  index p path := below_listIndex h n p path
  chunks v := below_assemble h v
  proveElement v i pr := below_collectionProve h n v i pr

/-! ## Bits, options, newtypes -/

theorem refines_bitvector (n : Nat) : Refines (SimpleSerialize.bitvector (build dbg H) n)
    (SimpleSerialize.bitvector (build dbg' H) n) where
  isVariableSize := rfl
  isCompositeType := rfl
  decoration := rfl
  sizeHint := rfl'
  serialize _ := BelowB.rfl'
  deserialize _ := rfl'
  hashTreeRoot _ := seq rfl' fun _ => lower_merkleize H _ _
  itemLength := rfl'
  chunkCount := rfl'
  index _ path := match path with
    | [] => rfl'
    | .index _ :: _ => ite' rfl' (seq (lift (lower_npt H _)) fun _ =>
        seq (lift (lower_mul H _ _)) fun _ => seq (lift (lower_add H _ _)) fun _ => rfl')
    | .field _ :: _ => rfl'
    | .length :: _ => rfl'
    | .selector :: _ => rfl'
  chunks _ := rfl'
  proveElement _ _ _ := rfl'

theorem below_bitlistDeserialize (n : Nat) (b : Bytes) :
    Bitlist.deserialize (build dbg H) n b ≼ Bitlist.deserialize (build dbg' H) n b := by
  unfold Bitlist.deserialize
  cases b.getLast? with
  | none => exact rfl'
  | some l =>
    refine seq (lift (seq (lower_add H _ _) fun _ => seq (lower_sub H _ _) fun _ =>
      seq (lower_add H _ _) fun _ => rfl')) fun _ => ite' rfl' (ite' rfl' ?_)
    exact seq (lift (lower_sub H _ _)) fun _ => seq (lift (lower_sub H _ _)) fun _ => rfl'

theorem refines_bitlist (n : Nat) : Refines (SimpleSerialize.bitlist (build dbg H) n)
    (SimpleSerialize.bitlist (build dbg' H) n) where
  isVariableSize := rfl
  isCompositeType := rfl
  decoration := rfl
  sizeHint := rfl'
  serialize _ := BelowB.rfl'
  deserialize b := below_bitlistDeserialize n b
  hashTreeRoot _ := seq rfl' fun _ => seq (lower_merkleize H _ _) fun _ => rfl'
  itemLength := rfl'
  chunkCount := rfl'
  index _ path := match path with
    | [] => rfl'
    | .index _ :: _ => ite' rfl' (seq (lift (lower_mul H _ _)) fun _ =>
        seq (lift (lower_npt H _)) fun _ =>
        seq (lift (lower_mul H _ _)) fun _ => seq (lift (lower_add H _ _)) fun _ => rfl')
    | .field _ :: _ => rfl'
    | .length :: _ => rfl'
    | .selector :: _ => rfl'
  chunks _ := rfl'
  proveElement _ _ _ := rfl'

theorem below_selector {T T' : SimpleSerialize α} (h : Refines T T') (s : Nat) (v : α) :
    BelowB (serializeWithSelector T.toSerializable s v) (serializeWithSelector T'.toSerializable s v) :=
  BelowB.bind BelowB.rfl' fun _ => BelowB.bind (h.serialize v) fun _ => BelowB.rfl'

theorem below_optionChunks {T T' : SimpleSerialize α} (h : Refines T T') : ∀ v,
    optionChunks T v ≼ optionChunks T' v
  | none => rfl'
  | some v => Below.map (h.hashTreeRoot v)

theorem refines_option {T T' : SimpleSerialize α} (h : Refines T T') :
    Refines (SimpleSerialize.option (build dbg H) T) (SimpleSerialize.option (build dbg' H) T') where
  isVariableSize := rfl
  isCompositeType := rfl
  decoration := rfl
  sizeHint := rfl'
  serialize v := match v with
    | none => BelowB.rfl'
    | some v => below_selector h 1 v
  deserialize b := match b with
    | [] => rfl'
    | _ :: _ => ite' rfl' (ite' (seq (h.deserialize _) fun _ => rfl') rfl')
  hashTreeRoot v := seq (below_optionChunks h v) fun _ => rfl'
  itemLength := rfl'
  chunkCount := rfl'
  index _ path := match path with
    | [] => rfl'
    | .index _ :: _ => ite' rfl' (seq (lift (lower_mul H _ _)) fun _ =>
        ite' rfl' (h.index _ _))
    | .selector :: _ => ite' (seq (lift (lower_mul H _ _)) fun _ => lift (lower_add H _ _)) rfl'
    | .field _ :: _ => rfl'
    | .length :: _ => rfl'
  chunks v := below_optionChunks h v
  proveElement v _ _ := match v with
    | none => ite' rfl' (below_computeProof (Refines.refl _) _ _)
    | some _ => ite' rfl' (below_computeProof h _ _)

theorem refines_newtype {T T' : SimpleSerialize α} (h : Refines T T') :
    Refines (SimpleSerialize.newtype (build dbg H) T) (SimpleSerialize.newtype (build dbg' H) T') where
  isVariableSize := h.isVariableSize
  isCompositeType := rfl
  decoration := h.decoration
  sizeHint := by
    show (if T.isVariableSize then _ else _) ≼ (if T'.isVariableSize then _ else _)
    rw [h.isVariableSize]
    exact ite' rfl' h.sizeHint
  serialize v := h.serialize v
  deserialize b := seq (h.deserialize b) fun _ => rfl'
  hashTreeRoot v := seq (h.hashTreeRoot v) fun _ => seq rfl' fun _ => lower_merkleize H _ _
  itemLength := rfl'
  chunkCount := h.chunkCount
  index p path := h.index p path
  chunks v := h.chunks v
  proveElement v i pr := h.proveElement v i pr

/-! ## Structs -/

/-- Fields with refined implementations. -/
inductive RefinesF : {α : Type} → FieldImpls α → FieldImpls α → Prop where
  | nil : RefinesF .nil .nil
  | cons {α β : Type} {name : String} {T T' : SimpleSerialize α} {fs fs' : FieldImpls β} :
      Refines T T' → RefinesF fs fs' → RefinesF (.cons name T fs) (.cons name T' fs')

variable {fs fs' : FieldImpls α}

theorem RefinesF.count (h : RefinesF fs fs') : fs.count = fs'.count := by
  induction h with
  | nil => rfl
  | cons _ _ ih => simp only [FieldImpls.count, ih]

theorem RefinesF.isVariableSize (h : RefinesF fs fs') : fs.isVariableSize = fs'.isVariableSize := by
  induction h with
  | nil => rfl
  | cons h _ ih => simp only [FieldImpls.isVariableSize, ih, h.isVariableSize]

theorem RefinesF.sizeHintSum (h : RefinesF fs fs') : ∀ acc,
    fs.sizeHintSum (build dbg H) acc ≼ fs'.sizeHintSum (build dbg' H) acc := by
  induction h with
  | nil => exact fun _ => rfl'
  | cons h _ ih => exact fun _ => seq h.sizeHint fun _ => seq (lower_add H _ _) fun _ => ih _

theorem RefinesF.withElements (h : RefinesF fs fs') : ∀ v s,
    fs.withElements v s ≼ fs'.withElements v s := by
  induction h with
  | nil => exact fun _ _ => rfl'
  | cons h _ ih => exact fun _ _ => seq (below_withElement h _ _) fun _ => ih _ _

theorem below_checkOffset (n : Nat) (prev : Option Nat) (next : Nat) :
    checkOffset (build dbg H) n prev next ≼ checkOffset (build dbg' H) n prev next := by
  unfold checkOffset
  cases prev with
  | none => exact rfl'
  | some p =>
    exact ite' rfl' (ite'
      (seq (lift (lower_sub H _ _)) fun _ => seq (lift (lower_sub H _ _)) fun _ => rfl')
      (ite' (seq (lift (lower_sub H _ _)) fun _ => seq (lift (lower_sub H _ _)) fun _ => rfl')
        rfl'))

theorem below_parse {T T' : SimpleSerialize α} (h : Refines T T') (d : ContainerDeserializer)
    (b : Bytes) : d.parse (build dbg H) T.toSerializable b ≼
      d.parse (build dbg' H) T'.toSerializable b := by
  unfold ContainerDeserializer.parse
  rw [h.isVariableSize]
  refine ite' (seq (lift (lower_sub H _ _)) fun _ => ?_)
    (seq (lift h.sizeHint) fun _ => seq (lift (lower_add H _ _)) fun _ => ite' rfl'
      (ite' (seq (lift (lower_sub H _ _)) fun _ => rfl')
        (seq (lift (lower_add H _ _)) fun _ => rfl')))
  split
  · exact rfl'
  · exact seq rfl' fun _ => seq (below_checkOffset _ _ _) fun _ => rfl'

theorem RefinesF.parseAll (h : RefinesF fs fs') (b : Bytes) : ∀ d,
    fs.parseAll (build dbg H) b d ≼ fs'.parseAll (build dbg' H) b d := by
  induction h with
  | nil => exact fun _ => rfl'
  | cons h _ ih => exact fun _ => seq (below_parse h _ _) fun _ => ih _

theorem below_finalizeSegments (n : Nat) : ∀ segs offsets total,
    finalizeSegments (build dbg H) n segs offsets total ≼
      finalizeSegments (build dbg' H) n segs offsets total
  | [], _, _ => rfl'
  | .fixed _ _ :: rest, offsets, total =>
    seq (below_finalizeSegments n rest offsets total) fun _ => rfl'
  | .offset :: rest, offsets, total => by
    unfold finalizeSegments
    cases offsets[0]? with
    | none => exact rfl'
    | some start =>
      cases offsets[1]? with
      | none => exact rfl'
      | some stop =>
        exact ite' rfl' (ite' rfl' (seq (lift (lower_sub H _ _)) fun _ =>
          seq (lift (lower_add H _ _)) fun _ =>
          seq (below_finalizeSegments n rest _ _) fun _ => rfl'))

theorem below_finalize (d : ContainerDeserializer) (b : Bytes) :
    d.finalize (build dbg H) b ≼ d.finalize (build dbg' H) b :=
  seq (below_finalizeSegments _ _ _ _) fun _ => rfl'

theorem RefinesF.initFields (h : RefinesF fs fs') (b : Bytes) (spans : List Nat) : ∀ i,
    fs.initFields b spans i ≼ fs'.initFields b spans i := by
  induction h with
  | nil => exact fun _ => rfl'
  | cons h _ ih =>
    intro i
    refine seq rfl' fun _ => seq rfl' fun _ => seq rfl' fun _ => ?_
    exact seq (h.deserialize _) fun _ => seq (ih _) fun _ => rfl'

theorem RefinesF.assembleLoop (h : RefinesF fs fs') : ∀ v i b,
    fs.assembleLoop v i b ≼ fs'.assembleLoop v i b := by
  induction h with
  | nil => exact fun _ _ _ => rfl'
  | cons h _ ih => exact fun _ _ _ => seq (h.hashTreeRoot _) fun _ => seq rfl' fun _ => ih _ _ _

theorem RefinesF.assembleChunks (h : RefinesF fs fs') (v : α) :
    fs.assembleChunks v ≼ fs'.assembleChunks v := by
  unfold FieldImpls.assembleChunks
  rw [h.count]
  exact h.assembleLoop _ _ _

theorem RefinesF.byField (h : RefinesF fs fs') (total p : Nat) (path : List PathElement)
    (field : String) : ∀ i, fs.generalizedIndexByField (build dbg H) total p path field i ≼
      fs'.generalizedIndexByField (build dbg' H) total p path field i := by
  induction h with
  | nil => exact fun _ => rfl'
  | cons h _ ih => exact fun _ => ite' (seq (lift (lower_npt H _)) fun _ =>
      seq (lift (lower_mul H _ _)) fun _ => seq (lift (lower_add H _ _)) fun _ => h.index _ _) (ih _)

theorem RefinesF.proveField (h : RefinesF fs fs') (pr : Prover) : ∀ v i,
    fs.proveField (build dbg H) pr v i ≼ fs'.proveField (build dbg' H) pr v i := by
  induction h with
  | nil => exact fun _ _ => rfl'
  | cons h _ ih => exact fun _ i => match i with
    | 0 => below_computeProof h _ _
    | i + 1 => ih _ i

theorem refines_container (h : RefinesF fs fs') :
    Refines (SimpleSerialize.container (build dbg H) fs)
      (SimpleSerialize.container (build dbg' H) fs') where
  isVariableSize := h.isVariableSize
  isCompositeType := rfl
  decoration := rfl
  sizeHint := by
    show (if fs.isVariableSize then _ else _) ≼ (if fs'.isVariableSize then _ else _)
    rw [h.isVariableSize]
    exact ite' rfl' (h.sizeHintSum _)
  serialize v := BelowB.bind (BelowB.ofRes (h.withElements _ _)) fun _ => below_serializer _
  deserialize b := seq (h.parseAll _ _) fun _ => seq (below_finalize _ _) fun _ =>
    h.initFields _ _ _
  hashTreeRoot v := seq (h.assembleChunks _) fun _ => lower_merkleize H _ _
  itemLength := rfl'
  chunkCount := of_eq (by show Res.ok fs.count = Res.ok fs'.count; rw [h.count])
  index _ path := match path with
    | [] => rfl'
    | .field name :: rest => by
      rename_i p
      show fs.generalizedIndexByField _ fs.count p rest name 0 ≼
        fs'.generalizedIndexByField _ fs'.count p rest name 0
      rw [h.count]
      exact h.byField _ _ _ _ _
    | .index _ :: _ => rfl'
    | .length :: _ => rfl'
    | .selector :: _ => rfl'
  chunks v := h.assembleChunks v
  proveElement v i pr := by
    show (if i ≥ fs.count then _ else _) ≼ (if i ≥ fs'.count then _ else _)
    rw [h.count]
    exact ite' rfl' (h.proveField _ _ _)

/-! ## Enums -/

/-- Variants with refined implementations. -/
inductive RefinesV : {α : Type} → VariantImpls α → VariantImpls α → Prop where
  | nil : RefinesV .nil .nil
  | unit {β : Type} {vs vs' : VariantImpls β} : RefinesV vs vs' → RefinesV (.unit vs) (.unit vs')
  | data {α β : Type} {T T' : SimpleSerialize α} {vs vs' : VariantImpls β} :
      Refines T T' → RefinesV vs vs' → RefinesV (.data T vs) (.data T' vs')

variable {vs vs' : VariantImpls α}

theorem RefinesV.count (h : RefinesV vs vs') : vs.count = vs'.count := by
  induction h with
  | nil => rfl
  | unit _ ih => simp only [VariantImpls.count, ih]
  | data _ _ ih => simp only [VariantImpls.count, ih]

theorem RefinesV.serialize (h : RefinesV vs vs') : ∀ i v,
    BelowB (vs.serialize i v) (vs'.serialize i v) := by
  induction h with
  | nil => exact fun _ v => v.elim
  | unit _ ih => exact fun i v => match v with
    | .inl _ => BelowB.rfl'
    | .inr v => ih (i + 1) v
  | data h _ ih => exact fun i v => match v with
    | .inl v => below_selector h i v
    | .inr v => ih (i + 1) v

theorem RefinesV.deserialize (h : RefinesV vs vs') (b : Byte) (rest e : Bytes) : ∀ i,
    vs.deserialize b rest e i ≼ vs'.deserialize b rest e i := by
  induction h with
  | nil => exact fun _ => rfl'
  | unit _ ih => exact fun i => ite' rfl' (Below.map (ih _))
  | data h _ ih => exact fun i => ite' (Below.map (h.deserialize _)) (Below.map (ih _))

theorem RefinesV.hashTreeRoot (h : RefinesV vs vs') : ∀ i v,
    vs.hashTreeRoot (build dbg H) i v ≼ vs'.hashTreeRoot (build dbg' H) i v := by
  induction h with
  | nil => exact fun _ v => v.elim
  | unit _ ih => exact fun i v => match v with
    | .inl _ => rfl'
    | .inr v => ih (i + 1) v
  | data h _ ih => exact fun i v => match v with
    | .inl v => seq (h.hashTreeRoot v) fun _ => rfl'
    | .inr v => ih (i + 1) v

theorem RefinesV.chunks (h : RefinesV vs vs') : ∀ v, vs.chunks v ≼ vs'.chunks v := by
  induction h with
  | nil => exact fun v => v.elim
  | unit _ ih => exact fun v => match v with
    | .inl _ => rfl'
    | .inr v => ih v
  | data h _ ih => exact fun v => match v with
    | .inl v => Below.map (h.hashTreeRoot v)
    | .inr v => ih v

theorem RefinesV.index (h : RefinesV vs vs') (c : Nat) (path : List PathElement) : ∀ i,
    vs.generalizedIndex c path i ≼ vs'.generalizedIndex c path i := by
  induction h with
  | nil => exact fun _ => rfl'
  | unit _ ih => exact fun i => match i with
    | 0 => rfl'
    | i + 1 => ih i
  | data h _ ih => exact fun i => match i with
    | 0 => h.index _ _
    | i + 1 => ih i

theorem RefinesV.proveVariant (h : RefinesV vs vs') (pr : Prover) : ∀ v,
    vs.proveVariant (build dbg H) pr v ≼ vs'.proveVariant (build dbg' H) pr v := by
  induction h with
  | nil => exact fun v => v.elim
  | unit _ ih => exact fun v => match v with
    | .inl _ => below_computeProof (Refines.refl _) _ _
    | .inr v => ih v
  | data h _ ih => exact fun v => match v with
    | .inl v => below_computeProof h v pr
    | .inr v => ih v

theorem RefinesV.decoration (h : RefinesV vs vs') : ∀ i v, vs.decoration i v = vs'.decoration i v := by
  induction h with
  | nil => exact fun _ v => v.elim
  | unit _ ih => exact fun i v => match v with
    | .inl _ => rfl
    | .inr v => ih (i + 1) v
  | data h _ ih => exact fun i v => match v with
    | .inl v => rfl
    | .inr v => ih (i + 1) v

theorem refines_union (h : RefinesV vs vs') :
    Refines (SimpleSerialize.union (build dbg H) vs) (SimpleSerialize.union (build dbg' H) vs') where
  isVariableSize := rfl
  isCompositeType := rfl
  decoration := by
    funext v
    show some (vs.decoration 0 v) = some (vs'.decoration 0 v)
    rw [h.decoration]
  sizeHint := rfl'
  serialize v := h.serialize 0 v
  deserialize b := match b with
    | [] => rfl'
    | _ :: _ => h.deserialize _ _ _ _
  hashTreeRoot v := h.hashTreeRoot 0 v
  itemLength := rfl'
  chunkCount := rfl'
  index _ path := match path with
    | [] => rfl'
    | .index i :: rest => by
      show (if i ≥ vs.count then _ else _) ≼ (if i ≥ vs'.count then _ else _)
      rw [h.count]
      exact ite' rfl' (seq (lift (lower_mul H _ _)) fun _ => h.index _ _ _)
    | .selector :: _ => ite' (seq (lift (lower_mul H _ _)) fun _ => lift (lower_add H _ _)) rfl'
    | .field _ :: _ => rfl'
    | .length :: _ => rfl'
  chunks v := h.chunks v
  proveElement v i pr := by
    show (if i ≥ vs.count then _ else _) ≼ (if i ≥ vs'.count then _ else _)
    rw [h.count]
    exact ite' rfl' (h.proveVariant _ _)

/-! ## All types -/

mutual

/-- The two builds of every type. -/
theorem refines (H : Bytes → Node) : ∀ t : Ty, Refines (t.impl (debugBuild H)) (t.impl (releaseBuild H))
  | .uint u => Refines.refl (SimpleSerialize.uint u)
  | .u256 => Refines.refl SimpleSerialize.u256
  | .bool => Refines.refl SimpleSerialize.bool
  | .node => Refines.refl SimpleSerialize.node
  | .array t n => refines_array (refines H t) n
  | .vector t n => refines_vector (refines H t) n
  | .list t n => refines_list (refines H t) n
  | .bitvector n => refines_bitvector n
  | .bitlist n => refines_bitlist n
  | .option t => refines_option (refines H t)
  | .newtype t => refines_newtype (refines H t)
  | .container fs => refines_container (refinesF H fs)
  | .union vs => refines_union (refinesV H vs)

theorem refinesF (H : Bytes → Node) : ∀ fs : Fields,
    RefinesF (fs.impls (debugBuild H)) (fs.impls (releaseBuild H))
  | .nil => .nil
  | .cons _ t rest => .cons (refines H t) (refinesF H rest)

theorem refinesV (H : Bytes → Node) : ∀ vs : Variants,
    RefinesV (vs.impls (debugBuild H)) (vs.impls (releaseBuild H))
  | .nil => .nil
  | .unit rest => .unit (refinesV H rest)
  | .data t rest => .data (refines H t) (refinesV H rest)

end

end Ssz
