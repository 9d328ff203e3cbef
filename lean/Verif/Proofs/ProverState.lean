import Verif.Model.ProverState
import Verif.Proofs.Builds

/-!
# The prover as it is left behind: proofs
-/

namespace Ssz

open ProverM

/-- The result of a computation with a prover, in the form of `Model/Proofs.lean`: the prover if it
succeeds. -/
def proverOf : Prover × Res MerkError Unit → Res MerkError Prover
  | (p, .ok _) => .ok p
  | (_, .err e) => .err e
  | (_, .panic) => .panic

/-! ## Without what failures leave behind the functions are the same -/

theorem of_run {α : Type} (r : Res MerkError α) (f : α → ProverM Unit) (p : Prover) :
    proverOf ((run r >>= f) p) = r >>= fun a => proverOf (f a p) := by
  cases r <;> rfl

theorem of_seq (x : ProverM Unit) (f : Unit → ProverM Unit) (p : Prover) :
    proverOf ((x >>= f) p) = proverOf (x p) >>= fun q => proverOf (f () q) := by
  show proverOf (ProverM.bind x f p) = _
  unfold ProverM.bind
  obtain ⟨q, r⟩ := x p
  cases r <;> rfl

theorem of_own (f : Nat → ProverM Unit) (p : Prover) :
    proverOf ((ownIndex >>= f) p) = proverOf (f p.proof.index p) := rfl

theorem of_set (i : Nat) (p : Prover) :
    proverOf (setIndex i p) = .ok { p with proof := { p.proof with index := i } } := rfl

theorem of_leaf (b : Bytes) (p : Prover) :
    proverOf (setLeaf b p) = (toNode b : Res MerkError Node) >>= fun n =>
      .ok { p with proof := { p.proof with leaf := n } } := by
  rw [setLeaf, of_run]
  cases (toNode b : Res MerkError Node) <;> rfl

theorem of_witness (b : Bytes) (p : Prover) :
    proverOf (setWitness b p) = (toNode b : Res MerkError Node) >>= fun n =>
      .ok { p with witness := n } := by
  rw [setWitness, of_run]
  cases (toNode b : Res MerkError Node) <;> rfl

theorem of_pure (p : Prover) : proverOf ((pure () : ProverM Unit) p) = .ok p := rfl

theorem of_ite (c : Prop) [Decidable c] (x y : ProverM Unit) (p : Prover) :
    proverOf ((if c then x else y) p) = if c then proverOf (x p) else proverOf (y p) := by
  split <;> rfl

theorem of_siblings (E : Env) (tree : Tree) : ∀ (n target : Nat) (p : Prover),
    proverOf (siblingsLoopS E tree n target p) = siblingsLoop E tree n target p.proof.branch >>= fun b =>
      .ok { p with proof := { p.proof with branch := b } }
  | 0, _, p => rfl
  | n + 1, target, p => by
    rw [siblingsLoopS, siblingsLoop, of_run]
    simp only [Res.bind_assoc, res_ite_bind]
    have h : ∀ s : Bytes, proverOf ((do extendBranch s; siblingsLoopS E tree n (target / 2)) p) =
        (toNode s : Res MerkError Node) >>= fun node =>
          siblingsLoop E tree n (target / 2) (p.proof.branch ++ [node]) >>= fun b =>
            .ok { p with proof := { p.proof with branch := b } } := by
      intro s
      rw [of_seq, extendBranch, of_run]
      cases (toNode s : Res MerkError Node) with
      | err e => rfl
      | panic => rfl
      | ok node => exact of_siblings E tree n (target / 2) _
    simp only [h]

theorem computeProofS_of {α : Type} (E : Env) (T : SimpleSerialize α) {pe : α → Nat → ProverM Unit} {v : α}
    (h : ∀ i p, proverOf (pe v i p) = T.proveElement v i p) (pr : Prover) :
    proverOf (computeProofS E T pe v pr) = computeProof E T v pr := by
  unfold computeProofS computeProof
  cases hd : T.decoration v <;>
  simp only [of_run, of_own, of_ite, of_set, of_leaf, of_witness, of_seq, of_siblings, of_pure, h,
    res_ite_bind, Res.bind_assoc, Res.ok_bind, Option.isSome_none, Option.isSome_some,
    Bool.false_eq_true, if_false, if_true, Bool.not_eq_true', decide_eq_false_iff_not]

theorem zeroProofS_of (E : Env) (p : Prover) :
    proverOf (zeroProofS E p) = computeProof E (SimpleSerialize.uint .usize) (0 : BitVec 64) p :=
  computeProofS_of E _ (fun _ _ => rfl) p

theorem collectionS_of {α : Type} (E : Env) (T : SimpleSerialize α) {compute : α → ProverM Unit} {n : Nat}
    {xs : List α} (h : ∀ x p, proverOf (compute x p) = computeProof E T x p) (i : Nat) (p : Prover) :
    proverOf (collectionProveElementS compute n xs i p) = collectionProveElement E T n xs i p := by
  unfold collectionProveElementS collectionProveElement
  split
  · rfl
  · simp only [of_run, h]

mutual

theorem proveElementS_of (E : Env) : ∀ (t : Ty) (v : t.Val) (i : Nat) (p : Prover),
    proverOf (t.proveElementS E v i p) = (t.impl E).proveElement v i p
  | .uint _, _, _, _ => rfl
  | .u256, _, _, _ => rfl
  | .bool, _, _, _ => rfl
  | .node, _, _, _ => rfl
  | .array t n, v, i, p => collectionS_of E (t.impl E) (xs := v.1) (fun x =>
      computeProofS_of E (t.impl E) (proveElementS_of E t x)) i p
  | .vector t n, v, i, p => collectionS_of E (t.impl E) (xs := v) (fun x =>
      computeProofS_of E (t.impl E) (proveElementS_of E t x)) i p
  | .list t n, v, i, p => collectionS_of E (t.impl E) (xs := v) (fun x =>
      computeProofS_of E (t.impl E) (proveElementS_of E t x)) i p
  | .bitvector _, _, _, _ => rfl
  | .bitlist _, _, _, _ => rfl
  | .option t, v, i, p => by
    match v with
    | none =>
      show proverOf ((if i ≥ 2 then _ else zeroProofS E : ProverM Unit) p) = if i ≥ 2 then _ else _
      split
      · rfl
      · exact zeroProofS_of E p
    | some x =>
      show proverOf ((if i ≥ 2 then _ else Ssz.computeProofS E (t.impl E)
        (fun x i => t.proveElementS E x i) x : ProverM Unit) p) = if i ≥ 2 then _ else _
      split
      · rfl
      · exact computeProofS_of E (t.impl E) (proveElementS_of E t x) p
  | .newtype t, v, i, p => proveElementS_of E t v i p
  | .container fs, v, i, p => by
    show proverOf ((if i ≥ (fs.impls E).count then _ else fs.proveFieldS E v i : ProverM Unit) p) =
      if i ≥ (fs.impls E).count then _ else _
    split
    · rfl
    · exact proveFieldS_of E fs v i p
  | .union vs, v, i, p => by
    show proverOf ((if i ≥ (vs.impls E).count then _ else vs.proveVariantS E v : ProverM Unit) p) =
      if i ≥ (vs.impls E).count then _ else _
    split
    · rfl
    · exact proveVariantS_of E vs v p

theorem proveFieldS_of (E : Env) : ∀ (fs : Fields) (v : fs.Val) (i : Nat) (p : Prover),
    proverOf (fs.proveFieldS E v i p) = (fs.impls E).proveField E p v i
  | .nil, _, _, _ => rfl
  | .cons _ t _, v, 0, p => computeProofS_of E (t.impl E) (proveElementS_of E t v.1) p
  | .cons _ _ rest, v, i + 1, p => proveFieldS_of E rest v.2 i p

theorem proveVariantS_of (E : Env) : ∀ (vs : Variants) (v : vs.Val) (p : Prover),
    proverOf (vs.proveVariantS E v p) = (vs.impls E).proveVariant E p v
  | .nil, v, _ => Empty.elim v
  | .unit _, .inl _, p => zeroProofS_of E p
  | .unit rest, .inr v, p => proveVariantS_of E rest v p
  | .data t _, .inl v, p => computeProofS_of E (t.impl E) (proveElementS_of E t v) p
  | .data _ rest, .inr v, p => proveVariantS_of E rest v p

end

theorem tyComputeProofS_of (E : Env) (t : Ty) (v : t.Val) (p : Prover) :
    proverOf (t.computeProofS E v p) = computeProof E (t.impl E) v p :=
  computeProofS_of E (t.impl E) (proveElementS_of E t v) p

/-! ## A second proof with the same prover -/

/-- `p` with `q`'s results, the branch behind that of `p`. -/
def behind (p q : Prover) : Prover :=
  { q with proof := { q.proof with branch := p.proof.branch ++ q.proof.branch } }

/-- From any prover the outcome is the one from a fresh prover, the branch behind the old branch. -/
def Again (f : Prover → Res MerkError Prover) : Prop :=
  ∀ p, f p = (f (Prover.ofIndex p.proof.index)).map (behind p)

theorem siblings_again (E : Env) (tree : Tree) (b : List Node) : ∀ (n target : Nat) (c : List Node),
    siblingsLoop E tree n target (b ++ c) = (siblingsLoop E tree n target c).map (b ++ ·)
  | 0, _, _ => rfl
  | n + 1, target, c => by
    rw [siblingsLoop, siblingsLoop]
    simp only [res_ite_bind, Res.bind_assoc]
    have h : ∀ x : Res MerkError Bytes, (x >>= fun s => (toNode s : Res MerkError Node) >>= fun node =>
        siblingsLoop E tree n (target / 2) (b ++ c ++ [node])) =
        (x >>= fun s => (toNode s : Res MerkError Node) >>= fun node =>
        siblingsLoop E tree n (target / 2) (c ++ [node])).map (b ++ ·) := by
      intro x
      cases x with
      | err e => rfl
      | panic => rfl
      | ok s =>
        simp only [Res.ok_bind]
        cases (toNode s : Res MerkError Node) with
        | err e => rfl
        | panic => rfl
        | ok node =>
          simp only [Res.ok_bind, List.append_assoc]
          exact siblings_again E tree b n (target / 2) (c ++ [node])
    split
    · rw [← Res.bind_assoc, h, Res.bind_assoc]
    · rw [← Res.bind_assoc, h, Res.bind_assoc]

theorem map_after {α β γ : Type} (r : Res MerkError α) (f : α → Res MerkError β) (g : β → γ) :
    (r >>= f).map g = r >>= fun a => (f a).map g := by
  cases r <;> rfl

theorem after_map {α β γ : Type} (r : Res MerkError α) (f : β → Res MerkError γ) (g : α → β) :
    r.map g >>= f = r >>= fun a => f (g a) := by
  cases r <;> rfl

theorem bind_same {α β : Type} (r : Res MerkError α) {f g : α → Res MerkError β} (h : ∀ a, f a = g a) :
    r >>= f = r >>= g := by
  rw [funext h]

theorem finish_again {α : Type} (E : Env) (T : SimpleSerialize α) (v : α) (n i ld lg : Nat) (p q r : Prover)
    (h1 : q.proof.index = r.proof.index) (h2 : q.proof.branch = p.proof.branch ++ r.proof.branch)
    (h3 : lg < i → q.proof.leaf = r.proof.leaf) :
    finishProof E T v n i ld lg q = (finishProof E T v n i ld lg r).map (behind p) := by
  unfold finishProof
  simp only [map_after]
  refine bind_same _ fun chunks => bind_same _ fun tree => ?_
  have hk : ∀ leaf : Node, (do
      let branch ← siblingsLoop E tree ld lg q.proof.branch
      let rootBytes ← Tree.get E tree 1
      let root ← toNode rootBytes
      .ok { proof := { leaf := leaf, branch := branch, index := q.proof.index }, witness := root } :
        Res MerkError Prover) = (do
      let branch ← siblingsLoop E tree ld lg r.proof.branch
      let rootBytes ← Tree.get E tree 1
      let root ← toNode rootBytes
      .ok { proof := { leaf := leaf, branch := branch, index := r.proof.index }, witness := root } :
        Res MerkError Prover).map (behind p) := by
    intro leaf
    rw [h2, siblings_again, after_map, h1]
    simp only [map_after]
    exact bind_same _ fun branch => bind_same _ fun bytes => bind_same _ fun root => rfl
  by_cases hlt : lg < i
  · simp only [hlt, decide_true, Bool.not_true, Bool.false_eq_true, if_false, Res.ok_bind]
    rw [h3 hlt]
    exact hk _
  · simp only [hlt, decide_false, Bool.not_false, if_true, map_after]
    exact bind_same _ fun leaf => by simpa only [map_after] using hk leaf

theorem computeProof_again {α : Type} (E : Env) (T : SimpleSerialize α) {v : α}
    (h : ∀ i, Again (T.proveElement v i)) : Again (computeProof E T v) := by
  intro p
  rw [computeProof_unfold, computeProof_unfold]
  simp only [map_after]
  refine bind_same _ fun cc => bind_same _ fun l0 => bind_same _ fun l => bind_same _ fun c => ?_
  unfold innerProof
  simp only [Prover.ofIndex]
  by_cases hlt : c.2.2 < p.proof.index
  · simp only [hlt, if_true, Res.bind_assoc]
    refine bind_same _ fun pd => bind_same _ fun cd => bind_same _ fun nc => bind_same _ fun r =>
      bind_same _ fun ci => ?_
    rw [h _ { p with proof := { p.proof with index := ci } },
      h _ (Prover.mk { leaf := zeroNode, branch := [], index := ci } zeroNode), after_map, after_map]
    refine bind_same _ fun q => ?_
    exact finish_again E T v l _ _ _ p _ _ rfl rfl fun _ => rfl
  · simp only [hlt, if_false, Res.ok_bind]
    exact finish_again E T v l _ _ _ p _ _ rfl (List.append_nil _).symm fun h => absurd h hlt

theorem again_err (e : MerkError) : Again (fun _ => .err e) := fun _ => rfl
theorem again_panic : Again (fun _ => .panic) := fun _ => rfl

theorem zero_again (E : Env) :
    Again (computeProof E (SimpleSerialize.uint .usize) (0 : BitVec 64)) :=
  computeProof_again E _ fun _ => again_err _

theorem collection_again {α : Type} (E : Env) (T : SimpleSerialize α) {n : Nat} {xs : List α}
    (h : ∀ x, Again (computeProof E T x)) (i : Nat) : Again (collectionProveElement E T n xs i) := by
  intro p
  unfold collectionProveElement
  split
  · rfl
  · rw [map_after]
    exact bind_same _ fun x => h x p

mutual

theorem proveElement_again (E : Env) : ∀ (t : Ty) (v : t.Val) (i : Nat),
    Again ((t.impl E).proveElement v i)
  | .uint _, _, _ => again_err _
  | .u256, _, _ => again_err _
  | .bool, _, _ => again_err _
  | .node, _, _ => again_err _
  | .array t n, v, i => collection_again E (t.impl E) (xs := v.1) (fun x =>
      computeProof_again E (t.impl E) (proveElement_again E t x)) i
  | .vector t n, v, i => collection_again E (t.impl E) (xs := v) (fun x =>
      computeProof_again E (t.impl E) (proveElement_again E t x)) i
  | .list t n, v, i => collection_again E (t.impl E) (xs := v) (fun x =>
      computeProof_again E (t.impl E) (proveElement_again E t x)) i
  | .bitvector _, _, _ => again_err _
  | .bitlist _, _, _ => again_err _
  | .option t, v, i => by
    intro p
    match v with
    | none =>
      show (if i ≥ 2 then _ else _) = Res.map _ (if i ≥ 2 then _ else _)
      split
      · rfl
      · exact zero_again E p
    | some x =>
      show (if i ≥ 2 then _ else _) = Res.map _ (if i ≥ 2 then _ else _)
      split
      · rfl
      · exact computeProof_again E (t.impl E) (proveElement_again E t x) p
  | .newtype t, v, i => proveElement_again E t v i
  | .container fs, v, i => by
    intro p
    show (if i ≥ (fs.impls E).count then _ else _) =
      Res.map _ (if i ≥ (fs.impls E).count then _ else _)
    split
    · rfl
    · exact proveField_again E fs v i p
  | .union vs, v, i => by
    intro p
    show (if i ≥ (vs.impls E).count then _ else _) =
      Res.map _ (if i ≥ (vs.impls E).count then _ else _)
    split
    · rfl
    · exact proveVariant_again E vs v p

theorem proveField_again (E : Env) : ∀ (fs : Fields) (v : fs.Val) (i : Nat),
    Again (fun p => (fs.impls E).proveField E p v i)
  | .nil, _, _ => again_panic
  | .cons _ t _, v, 0 => computeProof_again E (t.impl E) (proveElement_again E t v.1)
  | .cons _ _ rest, v, i + 1 => proveField_again E rest v.2 i

theorem proveVariant_again (E : Env) : ∀ (vs : Variants) (v : vs.Val),
    Again (fun p => (vs.impls E).proveVariant E p v)
  | .nil, v => Empty.elim v
  | .unit _, .inl _ => zero_again E
  | .unit rest, .inr v => proveVariant_again E rest v
  | .data t _, .inl v => computeProof_again E (t.impl E) (proveElement_again E t v)
  | .data _ rest, .inr v => proveVariant_again E rest v

end

theorem tyComputeProof_again (E : Env) (t : Ty) (v : t.Val) : Again (computeProof E (t.impl E) v) :=
  computeProof_again E (t.impl E) (proveElement_again E t v)

/-! ## What is left behind -/

/-- The branch is only extended, by `n` nodes if `x` succeeds; then the index is what it was. If not, it
may be one of a subtree. -/
structure Tracks (x : ProverM Unit) (n : Nat) (p : Prover) : Prop where
  branch : p.proof.branch <+: (x p).1.proof.branch
  success : (x p).2 = .ok () → (x p).1.proof.index = p.proof.index ∧
    (x p).1.proof.branch.length = p.proof.branch.length + n
  index : (x p).1.proof.index = p.proof.index ∨ ∃ k < Nat.log2 p.proof.index,
    (x p).1.proof.index = 2 ^ k + p.proof.index % 2 ^ k

theorem tracks_pure (p : Prover) : Tracks (pure ()) 0 p :=
  ⟨List.prefix_rfl, fun _ => ⟨rfl, rfl⟩, Or.inl rfl⟩

theorem tracks_err (e : MerkError) (n : Nat) (p : Prover) : Tracks (run (.err e)) n p :=
  ⟨List.prefix_rfl, fun h => (nomatch h), Or.inl rfl⟩

theorem tracks_panic (n : Nat) (p : Prover) : Tracks (run .panic) n p :=
  ⟨List.prefix_rfl, fun h => (nomatch h), Or.inl rfl⟩

theorem tracks_run {α : Type} {r : Res MerkError α} {f : α → ProverM Unit} {n : Nat} {p : Prover}
    (h : ∀ a, r = .ok a → Tracks (f a) n p) : Tracks (run r >>= f) n p := by
  cases r with
  | ok a => exact h a rfl
  | err e => exact tracks_err e n p
  | panic => exact tracks_panic n p

theorem tracks_own {f : Nat → ProverM Unit} {n : Nat} {p : Prover} (h : Tracks (f p.proof.index) n p) :
    Tracks (ownIndex >>= f) n p := ⟨h.branch, h.success, h.index⟩

theorem tracks_seq {x : ProverM Unit} {f : Unit → ProverM Unit} {n m : Nat} {p : Prover}
    (h1 : Tracks x n p) (h2 : ∀ q, q.proof.index = p.proof.index → Tracks (f ()) m q) :
    Tracks (x >>= f) (n + m) p := by
  have hb : (x >>= f) p = ProverM.bind x f p := rfl
  obtain ⟨b, s, i⟩ := h1
  cases hx : x p with
  | mk q r =>
    rw [hx] at b s i
    cases r with
    | ok u =>
      have e : (x >>= f) p = f () q := by rw [hb, ProverM.bind, hx]
      obtain ⟨s1, s2⟩ := s rfl
      obtain ⟨b', s', i'⟩ := h2 q s1
      simp only at s1 s2
      refine ⟨?_, ?_, ?_⟩
      · rw [e]; exact b.trans b'
      · rw [e]; intro ho; obtain ⟨t1, t2⟩ := s' ho
        exact ⟨t1.trans s1, by rw [t2, s2, Nat.add_assoc]⟩
      · rw [e]; rw [s1] at i'; exact i'
    | err e =>
      have e : (x >>= f) p = (q, .err e) := by rw [hb, ProverM.bind, hx]
      exact ⟨by rw [e]; exact b, (by rw [e]; intro ho; exact nomatch ho), by rw [e]; exact i⟩
    | panic =>
      have e : (x >>= f) p = (q, .panic) := by rw [hb, ProverM.bind, hx]
      exact ⟨by rw [e]; exact b, (by rw [e]; intro ho; exact nomatch ho), by rw [e]; exact i⟩

theorem tracks_leaf (b : Bytes) (p : Prover) : Tracks (setLeaf b) 0 p :=
  tracks_run fun _ _ => ⟨List.prefix_rfl, fun _ => ⟨rfl, rfl⟩, Or.inl rfl⟩

theorem tracks_witness (b : Bytes) (p : Prover) : Tracks (setWitness b) 0 p :=
  tracks_run fun _ _ => ⟨List.prefix_rfl, fun _ => ⟨rfl, rfl⟩, Or.inl rfl⟩

theorem tracks_extend (b : Bytes) (p : Prover) : Tracks (extendBranch b) 1 p :=
  tracks_run fun _ _ => ⟨List.prefix_append _ _, fun _ => ⟨rfl, List.length_append⟩, Or.inl rfl⟩

theorem tracks_siblings (E : Env) (tree : Tree) : ∀ (n target : Nat) (p : Prover),
    Tracks (siblingsLoopS E tree n target) n p
  | 0, _, p => tracks_pure p
  | n + 1, target, p => by
    rw [siblingsLoopS]
    refine tracks_run fun s _ => ?_
    rw [Nat.add_comm n 1]
    exact tracks_seq (tracks_extend s p) fun q _ => tracks_siblings E tree n (target / 2) q

theorem shrink_le (m i : Nat) : shrinkIndex m i ≤ i := by
  induction i using Nat.strongRecOn with
  | _ i ih =>
    rw [shrinkIndex]
    split
    · exact Nat.le_trans (ih _ (by omega)) (Nat.div_le_self _ _)
    · exact Nat.le_refl _

theorem local_spec {E : Env} {i n : Nat} {c : Nat × Nat × Nat}
    (h : computeLocalMerkleCoordinates E i n = .ok c) :
    c.1 = Nat.log2 c.2.2 ∧ c.2.2 ≤ i ∧ c.2.2 ≠ 0 := by
  rw [computeLocalMerkleCoordinates] at h
  obtain ⟨a, _, h⟩ := Res.bind_eq_ok.1 h
  obtain ⟨m, _, h⟩ := Res.bind_eq_ok.1 h
  obtain ⟨d, hd, h⟩ := Res.bind_eq_ok.1 h
  obtain ⟨x, _, h⟩ := Res.bind_eq_ok.1 h
  cases h
  rw [getDepth, log2] at hd
  by_cases h0 : shrinkIndex m i = 0
  · simp [h0] at hd
  · simp only [h0, if_false, Res.ok.injEq] at hd
    exact ⟨hd.symm, shrink_le m i, h0⟩

/-- The inner proof: the index of the element in its own tree, the proof, the index as before. -/
theorem tracks_inner {x : ProverM Unit} {d : Nat} {p : Prover} (h0 : p.proof.index ≠ 0)
    (hd : d ≤ Nat.log2 p.proof.index)
    (h : ∀ q, q.proof.index = 2 ^ d + p.proof.index % 2 ^ d → Tracks x d q) :
    Tracks (setIndex (2 ^ d + p.proof.index % 2 ^ d) >>= fun _ => x >>= fun _ =>
      setIndex p.proof.index) d p := by
  have hb : (setIndex (2 ^ d + p.proof.index % 2 ^ d) >>= fun _ => x >>= fun _ =>
      setIndex p.proof.index) p = ProverM.bind x (fun _ => setIndex p.proof.index)
        { p with proof := { p.proof with index := 2 ^ d + p.proof.index % 2 ^ d } } := rfl
  have hlog : Nat.log2 (2 ^ d + p.proof.index % 2 ^ d) = d :=
    log2_pow_add (Nat.mod_lt _ (Nat.two_pow_pos d))
  obtain ⟨b, s, i⟩ := h { p with proof := { p.proof with index := 2 ^ d + p.proof.index % 2 ^ d } } rfl
  simp only [hlog] at b s i
  rw [ProverM.bind] at hb
  generalize hx : x { p with proof := { p.proof with index := 2 ^ d + p.proof.index % 2 ^ d } } = z at *
  obtain ⟨q, r⟩ := z
  simp only at b s i hb
  have hi : q.proof.index = p.proof.index ∨ ∃ k < Nat.log2 p.proof.index,
      q.proof.index = 2 ^ k + p.proof.index % 2 ^ k := by
    rcases i with i | ⟨k, hk, i⟩
    · rcases Nat.lt_or_eq_of_le hd with hd | hd
      · exact Or.inr ⟨d, hd, i⟩
      · left
        obtain ⟨l1, l2⟩ := (log2_spec h0).1 hd.symm
        rw [Nat.pow_succ] at l2
        rw [i, Nat.mod_eq_sub_mod l1, Nat.mod_eq_of_lt (by omega)]
        omega
    · right
      refine ⟨k, by omega, ?_⟩
      rw [i, Nat.add_mod, Nat.mod_mod_of_dvd p.proof.index (Nat.pow_dvd_pow 2 (Nat.le_of_lt hk)),
        Nat.mod_eq_zero_of_dvd (Nat.pow_dvd_pow 2 (Nat.le_of_lt hk)), Nat.zero_add, Nat.mod_mod]
  cases r with
  | ok u =>
    have hb' : (setIndex (2 ^ d + p.proof.index % 2 ^ d) >>= fun _ => x >>= fun _ =>
      setIndex p.proof.index) p = ({ q with proof := { q.proof with index := p.proof.index } }, .ok ()) := hb
    constructor
    · rw [hb']; exact b
    · rw [hb']; exact fun _ => ⟨rfl, (s rfl).2⟩
    · rw [hb']; exact Or.inl rfl
  | err e =>
    constructor
    · rw [hb]; exact b
    · rw [hb]; exact fun h => nomatch h
    · rw [hb]; exact hi
  | panic =>
    constructor
    · rw [hb]; exact b
    · rw [hb]; exact fun h => nomatch h
    · rw [hb]; exact hi

theorem log2_le_log2 {a b : Nat} (ha : a ≠ 0) (h : a ≤ b) : Nat.log2 a ≤ Nat.log2 b := by
  rw [Nat.le_log2 (by omega)]
  exact Nat.le_trans ((log2_spec ha).1 rfl).1 h

theorem tracks_computeProof {α : Type} (E : Env) (T : SimpleSerialize α) {pe : α → Nat → ProverM Unit} {v : α}
    (h : ∀ i p, p.proof.index < 2 ^ 64 → Tracks (pe v i) (Nat.log2 p.proof.index) p) (p : Prover)
    (hp : p.proof.index < 2 ^ 64) :
    Tracks (computeProofS E T pe v) (Nat.log2 p.proof.index) p := by
  unfold computeProofS
  refine tracks_run fun cc _ => tracks_run fun l0 _ => tracks_own (tracks_run fun l _ =>
    tracks_run fun c hc => ?_)
  obtain ⟨h1, h2, h3⟩ := local_spec hc
  obtain ⟨ld, li, lg⟩ := c
  simp only at h1 h2 h3 ⊢
  have h0 : p.proof.index ≠ 0 := by omega
  have hle : ld ≤ Nat.log2 p.proof.index := h1 ▸ log2_le_log2 h3 h2
  have he : Nat.log2 p.proof.index = (Nat.log2 p.proof.index - ld) + ld := by omega
  rw [he]
  refine tracks_seq ?_ fun q hq => ?_
  · split
    · refine tracks_run fun pd hpd => ?_
      rw [getDepth, log2, if_neg h0] at hpd
      cases hpd
      have hlog := log2_lt64 hp
      have hlt : Nat.log2 p.proof.index - ld < 64 := by omega
      have hm := Nat.mod_lt p.proof.index (Nat.two_pow_pos (Nat.log2 p.proof.index - ld))
      have hsum : 2 ^ (Nat.log2 p.proof.index - ld) + p.proof.index % 2 ^ (Nat.log2 p.proof.index - ld) <
          2 ^ 64 := by
        have : 2 ^ (Nat.log2 p.proof.index - ld + 1) ≤ 2 ^ 64 := Nat.pow_le_pow_right (by omega) (by omega)
        rw [Nat.pow_succ] at this
        omega
      refine tracks_run fun cd e => ?_
      rw [Env.sub_eq_ok hle] at e
      cases e
      refine tracks_run fun nc e => ?_
      rw [pow2_ok hlt] at e
      cases e
      refine tracks_run fun r e => ?_
      rw [usizeRem_pow] at e
      cases e
      refine tracks_run fun ci e => ?_
      rw [Env.add_eq_ok hsum] at e
      cases e
      refine tracks_inner h0 (Nat.sub_le _ _) fun q hq => ?_
      have := h li q (by rw [hq]; exact hsum)
      rw [hq, log2_pow_add hm] at this
      exact this
    · rename_i hn
      have : lg = p.proof.index := by omega
      rw [h1, this, Nat.sub_self]
      exact tracks_pure p
  · refine tracks_run fun chunks _ => tracks_run fun t0 _ => tracks_run fun tree _ => ?_
    rw [← Nat.zero_add ld]
    refine tracks_seq ?_ fun q _ => ?_
    · split
      · exact tracks_run fun b _ => tracks_leaf b q
      · exact tracks_pure q
    · rw [Nat.zero_add]
      exact tracks_seq (m := 0) (tracks_siblings E tree ld lg q) fun q _ =>
        tracks_run fun r _ => tracks_witness r q

theorem zero_tracks (E : Env) (p : Prover) (hp : p.proof.index < 2 ^ 64) :
    Tracks (zeroProofS E) (Nat.log2 p.proof.index) p :=
  tracks_computeProof E _ (fun _ _ _ => tracks_err _ _ _) p hp

theorem collection_tracks {α : Type} {compute : α → ProverM Unit} {n : Nat} {xs : List α}
    (h : ∀ x p, p.proof.index < 2 ^ 64 → Tracks (compute x) (Nat.log2 p.proof.index) p) (i : Nat)
    (p : Prover) (hp : p.proof.index < 2 ^ 64) :
    Tracks (collectionProveElementS compute n xs i) (Nat.log2 p.proof.index) p := by
  unfold collectionProveElementS
  split
  · exact tracks_err _ _ _
  · exact tracks_run fun x _ => h x p hp

mutual

theorem proveElement_tracks (E : Env) : ∀ (t : Ty) (v : t.Val) (i : Nat) (p : Prover),
    p.proof.index < 2 ^ 64 → Tracks (t.proveElementS E v i) (Nat.log2 p.proof.index) p
  | .uint _, _, _, _, _ => tracks_err _ _ _
  | .u256, _, _, _, _ => tracks_err _ _ _
  | .bool, _, _, _, _ => tracks_err _ _ _
  | .node, _, _, _, _ => tracks_err _ _ _
  | .array t n, v, i, p, hp => collection_tracks (xs := v.1) (fun x =>
      tracks_computeProof E (t.impl E) (proveElement_tracks E t x)) i p hp
  | .vector t n, v, i, p, hp => collection_tracks (xs := v) (fun x =>
      tracks_computeProof E (t.impl E) (proveElement_tracks E t x)) i p hp
  | .list t n, v, i, p, hp => collection_tracks (xs := v) (fun x =>
      tracks_computeProof E (t.impl E) (proveElement_tracks E t x)) i p hp
  | .bitvector _, _, _, _, _ => tracks_err _ _ _
  | .bitlist _, _, _, _, _ => tracks_err _ _ _
  | .option t, v, i, p, hp => by
    match v with
    | none =>
      show Tracks (if i ≥ 2 then _ else zeroProofS E : ProverM Unit) _ p
      split
      · exact tracks_err _ _ _
      · exact zero_tracks E p hp
    | some x =>
      show Tracks (if i ≥ 2 then _ else Ssz.computeProofS E (t.impl E)
        (fun x i => t.proveElementS E x i) x : ProverM Unit) _ p
      split
      · exact tracks_err _ _ _
      · exact tracks_computeProof E (t.impl E) (proveElement_tracks E t x) p hp
  | .newtype t, v, i, p, hp => proveElement_tracks E t v i p hp
  | .container fs, v, i, p, hp => by
    show Tracks (if i ≥ (fs.impls E).count then _ else fs.proveFieldS E v i : ProverM Unit) _ p
    split
    · exact tracks_err _ _ _
    · exact proveField_tracks E fs v i p hp
  | .union vs, v, i, p, hp => by
    show Tracks (if i ≥ (vs.impls E).count then _ else vs.proveVariantS E v : ProverM Unit) _ p
    split
    · exact tracks_err _ _ _
    · exact proveVariant_tracks E vs v p hp

theorem proveField_tracks (E : Env) : ∀ (fs : Fields) (v : fs.Val) (i : Nat) (p : Prover),
    p.proof.index < 2 ^ 64 → Tracks (fs.proveFieldS E v i) (Nat.log2 p.proof.index) p
  | .nil, _, _, _, _ => tracks_panic _ _
  | .cons _ t _, v, 0, p, hp => tracks_computeProof E (t.impl E) (proveElement_tracks E t v.1) p hp
  | .cons _ _ rest, v, i + 1, p, hp => proveField_tracks E rest v.2 i p hp

theorem proveVariant_tracks (E : Env) : ∀ (vs : Variants) (v : vs.Val) (p : Prover),
    p.proof.index < 2 ^ 64 → Tracks (vs.proveVariantS E v) (Nat.log2 p.proof.index) p
  | .nil, v, _, _ => Empty.elim v
  | .unit _, .inl _, p, hp => zero_tracks E p hp
  | .unit rest, .inr v, p, hp => proveVariant_tracks E rest v p hp
  | .data t _, .inl v, p, hp => tracks_computeProof E (t.impl E) (proveElement_tracks E t v) p hp
  | .data _ rest, .inr v, p, hp => proveVariant_tracks E rest v p hp

end

theorem tyComputeProof_tracks (E : Env) (t : Ty) (v : t.Val) (p : Prover) (hp : p.proof.index < 2 ^ 64) :
    Tracks (t.computeProofS E v) (Nat.log2 p.proof.index) p :=
  tracks_computeProof E (t.impl E) (proveElement_tracks E t v) p hp

end Ssz
