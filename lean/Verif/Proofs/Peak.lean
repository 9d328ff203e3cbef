import Verif.Model.Peak
import Verif.Spec.Peak
import Verif.Proofs.Cost
import Verif.Proofs.ProveCost

/-!
# What the making of roots and proofs holds: proofs
-/

namespace Ssz

open Spec Peak

/-! ## Without the number the functions are the same -/

namespace Peak

variable {α β : Type}

@[simp] theorem bind_res (x : Peak α) (f : α → Peak β) :
    (x >>= f).2 = x.2 >>= fun a => (f a).2 := by
  show (Peak.bind x f).2 = _
  unfold Peak.bind
  cases x.2 <;> rfl

@[simp] theorem free_res (r : Res MerkError α) : (free r).2 = r := rfl
@[simp] theorem holding_res (n : Nat) (x : Peak α) : (holding n x).2 = x.2 := rfl
@[simp] theorem vec_res (r : Res MerkError Bytes) : (vec r).2 = r := rfl

end Peak

theorem packLoopP_res {α : Type} (T : Serializable α) (vs : List α) (buf : Bytes) :
    (packLoopP T vs buf).2 = packLoop T vs buf := by
  induction vs generalizing buf with
  | nil => rfl
  | cons v vs ih =>
    rw [packLoopP, packLoop]
    split <;> rename_i e <;> rw [e]
    · exact ih _
    · rfl
    · rfl

theorem packP_res {α : Type} (T : Serializable α) (vs : List α) : (packP T vs).2 = pack T vs := by
  rw [packP, pack, bind_res, packLoopP_res]
  cases packLoop T vs [] <;> rfl

theorem virtualP_res (E : Env) (chunks : Bytes) (leafCount : Nat) :
    (merkleizeChunksWithVirtualPaddingP E chunks leafCount).2 =
      merkleizeChunksWithVirtualPadding E chunks leafCount := by
  unfold merkleizeChunksWithVirtualPaddingP merkleizeChunksWithVirtualPadding
  simp only [bind_res, free_res]
  by_cases hc : chunks.length / 32 = 0
  · simp only [hc, if_true, bind_res, free_res]
    cases E.debug <;> rfl
  · simp only [hc, if_false, bind_res, free_res, holding_res]
    cases E.debug <;> rfl

theorem merkleizeP_res (E : Env) (chunks : Bytes) (limit : Option Nat) :
    (merkleizeP E chunks limit).2 = merkleize E chunks limit := by
  unfold merkleizeP merkleize
  simp only [bind_res, free_res]
  congr 1; funext _
  congr 1; funext _
  cases limit with
  | none => exact virtualP_res _ _ _
  | some l =>
    dsimp only
    split
    · rfl
    · simp only [bind_res, free_res, virtualP_res]

theorem mixInDecorationP_res (E : Env) (root : Node) (n : Nat) :
    (mixInDecorationP E root n).2 = mixInDecoration E root n := by
  unfold mixInDecorationP mixInDecoration
  split <;> rename_i e <;> rw [show usizeHashTreeRoot n = _ from e]

theorem elementsLoopP_res {α : Type} {f : α → Peak Node} {g : α → Res MerkError Node}
    (h : ∀ x, (f x).2 = g x) (i : Nat) (xs : List α) (chunks : Bytes) :
    (elementsToChunksLoopP f i xs chunks).2 = elementsToChunksLoop g i xs chunks := by
  induction xs generalizing i chunks with
  | nil => rfl
  | cons x xs ih => simp only [elementsToChunksLoopP, elementsToChunksLoop, bind_res, free_res, h, ih]

theorem assembleP_res {α : Type} (E : Env) (T : SimpleSerialize α) {f : α → Peak Node}
    (h : ∀ x, (f x).2 = T.hashTreeRoot x) (xs : List α) :
    (assembleChunksP E T f xs).2 = assembleChunks E T xs := by
  unfold assembleChunksP assembleChunks elementsToChunksP elementsToChunks
  split
  · simp only [bind_res, free_res, holding_res, elementsLoopP_res h]
  · exact packP_res _ _

mutual

theorem rootP_res (E : Env) : ∀ (t : Ty) (v : t.Val), (t.rootP E v).2 = (t.impl E).hashTreeRoot v
  | .uint _, _ => rfl
  | .u256, _ => rfl
  | .bool, _ => rfl
  | .node, _ => rfl
  | .array t n, v => by
    show _ = (assembleChunks E (t.impl E) v.1 >>= fun c => merkleize E c none)
    rw [Ty.rootP]
    simp only [bind_res, holding_res, assembleP_res E (t.impl E) (rootP_res E t), merkleizeP_res]
  | .vector t n, v => by
    show _ = (assembleChunks E (t.impl E) v >>= fun c => merkleize E c none)
    rw [Ty.rootP]
    simp only [bind_res, holding_res, merkleizeP_res]
    rw [show (assembleChunksP E (t.impl E) (fun x => t.rootP E x) v).2 = _ from
      assembleP_res E (t.impl E) (rootP_res E t) v]
  | .list t n, v => by
    show _ = (SimpleSerialize.list E (t.impl E) n).hashTreeRoot v
    rw [Ty.rootP]
    simp only [SimpleSerialize.list, bind_res, holding_res]
    rw [show (assembleChunksP E (t.impl E) (fun x => t.rootP E x) v).2 = _ from
      assembleP_res E (t.impl E) (rootP_res E t) v]
    congr 1; funext c
    have hm : ∀ r, (mixInDecorationP E r (List.length v)).2 = mixInDecoration E r (List.length v) :=
      fun r => mixInDecorationP_res E r _
    split
    · simp only [bind_res, merkleizeP_res, hm]
    · simp only [bind_res, free_res, merkleizeP_res, hm]
  | .bitvector n, v => by
    show _ = (SimpleSerialize.bitvector E n).hashTreeRoot v
    rw [Ty.rootP]
    simp only [SimpleSerialize.bitvector, bind_res, vec_res, holding_res, merkleizeP_res]
  | .bitlist n, v => by
    show _ = (SimpleSerialize.bitlist E n).hashTreeRoot v
    rw [Ty.rootP]
    simp only [SimpleSerialize.bitlist, bind_res, vec_res, holding_res, merkleizeP_res,
      mixInDecorationP_res]
  | .option t, v => by
    show _ = (SimpleSerialize.option E (t.impl E)).hashTreeRoot v
    cases v with
    | none =>
      simp only [Ty.rootP, SimpleSerialize.option, optionChunks, bind_res, free_res, holding_res,
        Res.ok_bind, mixInDecorationP_res]
    | some x =>
      simp only [Ty.rootP, SimpleSerialize.option, optionChunks, bind_res, free_res, holding_res,
        mixInDecorationP_res, rootP_res E t x]
      cases (t.impl E).hashTreeRoot x <;> rfl
  | .newtype t, v => by
    show _ = (SimpleSerialize.newtype E (t.impl E)).hashTreeRoot v
    simp only [Ty.rootP, SimpleSerialize.newtype, bind_res, free_res, holding_res, merkleizeP_res,
      rootP_res E t v, Res.bind_assoc]
  | .container fs, v => by
    show _ = (SimpleSerialize.container E (fs.impls E)).hashTreeRoot v
    simp only [Ty.rootP, SimpleSerialize.container, FieldImpls.assembleChunks, bind_res, holding_res,
      merkleizeP_res, chunksP_res E fs v]
  | .union vs, v => rootPV_res E vs 0 v

theorem chunksP_res (E : Env) : ∀ (fs : Fields) (v : fs.Val) (i : Nat) (c : Bytes),
    (fs.chunksP E v i c).2 = (fs.impls E).assembleLoop v i c
  | .nil, _, _, _ => rfl
  | .cons _ t rest, v, i, c => by
    simp only [Fields.chunksP, Fields.impls, FieldImpls.assembleLoop, bind_res, free_res,
      rootP_res E t v.1, chunksP_res E rest v.2]

theorem rootPV_res (E : Env) : ∀ (vs : Variants) (i : Nat) (v : vs.Val),
    (vs.rootP E i v).2 = (vs.impls E).hashTreeRoot E i v
  | .nil, _, v => Empty.elim v
  | .unit _, _, .inl _ => mixInDecorationP_res _ _ _
  | .unit rest, i, .inr v => rootPV_res E rest (i + 1) v
  | .data t _, i, .inl v => by
    simp only [Variants.rootP, Variants.impls, VariantImpls.hashTreeRoot, bind_res,
      mixInDecorationP_res, rootP_res E t v]
  | .data _ rest, i, .inr v => rootPV_res E rest (i + 1) v

end

theorem computeMerkleTreeP_res (E : Env) (chunks : Bytes) (n : Nat) :
    (computeMerkleTreeP E chunks n).2 = computeMerkleTree E chunks n := by
  unfold computeMerkleTreeP computeMerkleTree
  simp only [bind_res, free_res, holding_res]
  cases E.debug <;> rfl

theorem treeMixP_res (E : Env) (tree : Tree) (d : Nat) :
    (Tree.mixInDecorationP E tree d).2 = Tree.mixInDecoration E tree d := by
  simp only [Tree.mixInDecorationP, Tree.mixInDecoration, usizeHashTreeRootP, bind_res, free_res,
    holding_res]

theorem computeProofP_res {α : Type} (E : Env) (T : SimpleSerialize α) {ch : α → Peak Bytes}
    {pe : α → Nat → Prover → Peak Prover} {v : α} (h1 : (ch v).2 = T.chunks v)
    (h2 : ∀ i p, (pe v i p).2 = T.proveElement v i p) (pr : Prover) :
    (computeProofP E T ch pe v pr).2 = computeProof E T v pr := by
  have hi : ∀ {β : Type} (c : Prop) [Decidable c] (x y : Peak β),
      (if c then x else y).2 = if c then x.2 else y.2 := by
    intro β c _ x y; split <;> rfl
  unfold computeProofP computeProof
  cases hd : T.decoration v <;>
  simp only [bind_res, free_res, holding_res, hi, h1, h2, computeMerkleTreeP_res, treeMixP_res,
    res_ite_bind, Res.bind_assoc, Res.ok_bind, Option.isSome_none, Option.isSome_some,
    Bool.false_eq_true, if_false, if_true]

theorem Variants.chunksP_res (E : Env) : ∀ (vs : Variants) (v : vs.Val),
    (vs.chunksP E v).2 = (vs.impls E).chunks v
  | .nil, v => Empty.elim v
  | .unit _, .inl _ => rfl
  | .unit rest, .inr v => Variants.chunksP_res E rest v
  | .data t _, .inl v => by
    show (t.rootP E v >>= fun root => vec (.ok root.1)).2 = ((t.impl E).hashTreeRoot v).map (·.1)
    rw [bind_res, rootP_res]
    cases (t.impl E).hashTreeRoot v <;> rfl
  | .data _ rest, .inr v => Variants.chunksP_res E rest v

theorem Ty.chunksP_res (E : Env) : ∀ (t : Ty) (v : t.Val), (t.chunksP E v).2 = (t.impl E).chunks v
  | .uint _, _ => rfl
  | .u256, _ => rfl
  | .bool, _ => rfl
  | .node, _ => rfl
  | .array t _, v => assembleP_res E (t.impl E) (rootP_res E t) v.1
  | .vector t _, v => assembleP_res E (t.impl E) (rootP_res E t) v
  | .list t _, v => assembleP_res E (t.impl E) (rootP_res E t) v
  | .bitvector _, _ => rfl
  | .bitlist _, _ => rfl
  | .option t, v => by
    match v with
    | none => rfl
    | some x =>
      show (t.rootP E x >>= fun root => vec (.ok root.1)).2 = ((t.impl E).hashTreeRoot x).map (·.1)
      rw [bind_res, rootP_res]
      cases (t.impl E).hashTreeRoot x <;> rfl
  | .newtype t, v => Ty.chunksP_res E t v
  | .container fs, v => Ssz.chunksP_res E fs v 0 _
  | .union vs, v => Variants.chunksP_res E vs v

theorem zeroProofP_res (E : Env) (p : Prover) :
    (zeroProofP E p).2 = computeProof E (SimpleSerialize.uint .usize) (0 : BitVec 64) p :=
  computeProofP_res E _ rfl (fun _ _ => rfl) p

theorem collectionP_res {α : Type} (E : Env) (T : SimpleSerialize α)
    {compute : α → Prover → Peak Prover} {n : Nat} {xs : List α}
    (h : ∀ x p, (compute x p).2 = computeProof E T x p) (i : Nat) (p : Prover) :
    (collectionProveElementP compute n xs i p).2 = collectionProveElement E T n xs i p := by
  unfold collectionProveElementP collectionProveElement
  split
  · rfl
  · simp only [bind_res, free_res, h]

mutual

theorem proveElementP_res (E : Env) : ∀ (t : Ty) (v : t.Val) (i : Nat) (p : Prover),
    (t.proveElementP E v i p).2 = (t.impl E).proveElement v i p
  | .uint _, _, _, _ => rfl
  | .u256, _, _, _ => rfl
  | .bool, _, _, _ => rfl
  | .node, _, _, _ => rfl
  | .array t n, v, i, p => collectionP_res E (t.impl E) (xs := v.1) (fun x =>
      computeProofP_res E (t.impl E) (Ty.chunksP_res E t x) (proveElementP_res E t x)) i p
  | .vector t n, v, i, p => collectionP_res E (t.impl E) (xs := v) (fun x =>
      computeProofP_res E (t.impl E) (Ty.chunksP_res E t x) (proveElementP_res E t x)) i p
  | .list t n, v, i, p => collectionP_res E (t.impl E) (xs := v) (fun x =>
      computeProofP_res E (t.impl E) (Ty.chunksP_res E t x) (proveElementP_res E t x)) i p
  | .bitvector _, _, _, _ => rfl
  | .bitlist _, _, _, _ => rfl
  | .option t, v, i, p => by
    match v with
    | none =>
      show (if i ≥ 2 then _ else zeroProofP E p).2 = if i ≥ 2 then _ else _
      split
      · rfl
      · exact zeroProofP_res E p
    | some x =>
      show (if i ≥ 2 then _ else computeProofP E (t.impl E) (t.chunksP E)
        (fun x i p => t.proveElementP E x i p) x p).2 = if i ≥ 2 then _ else _
      split
      · rfl
      · exact computeProofP_res E (t.impl E) (Ty.chunksP_res E t x) (proveElementP_res E t x) p
  | .newtype t, v, i, p => proveElementP_res E t v i p
  | .container fs, v, i, p => by
    show (if i ≥ (fs.impls E).count then _ else fs.proveFieldP E v i p).2 =
      if i ≥ (fs.impls E).count then _ else _
    split
    · rfl
    · exact proveFieldP_res E fs v i p
  | .union vs, v, i, p => by
    show (if i ≥ (vs.impls E).count then _ else vs.proveVariantP E v p).2 =
      if i ≥ (vs.impls E).count then _ else _
    split
    · rfl
    · exact proveVariantP_res E vs v p

theorem proveFieldP_res (E : Env) : ∀ (fs : Fields) (v : fs.Val) (i : Nat) (p : Prover),
    (fs.proveFieldP E v i p).2 = (fs.impls E).proveField E p v i
  | .nil, _, _, _ => rfl
  | .cons _ t _, v, 0, p =>
    computeProofP_res E (t.impl E) (Ty.chunksP_res E t v.1) (proveElementP_res E t v.1) p
  | .cons _ _ rest, v, i + 1, p => proveFieldP_res E rest v.2 i p

theorem proveVariantP_res (E : Env) : ∀ (vs : Variants) (v : vs.Val) (p : Prover),
    (vs.proveVariantP E v p).2 = (vs.impls E).proveVariant E p v
  | .nil, v, _ => Empty.elim v
  | .unit _, .inl _, p => zeroProofP_res E p
  | .unit rest, .inr v, p => proveVariantP_res E rest v p
  | .data t _, .inl v, p =>
    computeProofP_res E (t.impl E) (Ty.chunksP_res E t v) (proveElementP_res E t v) p
  | .data _ rest, .inr v, p => proveVariantP_res E rest v p

end

theorem tyComputeProofP_res (E : Env) (t : Ty) (v : t.Val) (p : Prover) :
    (t.computeProofP E v p).2 = computeProof E (t.impl E) v p :=
  computeProofP_res E (t.impl E) (Ty.chunksP_res E t v) (proveElementP_res E t v) p

theorem proveP_res (E : Env) (t : Ty) (v : t.Val) (path : List PathElement) :
    (t.proveP E v path).2 = prove E (t.impl E) v path := by
  simp only [Ty.proveP, prove, bind_res, free_res, tyComputeProofP_res]

/-! ## Exact numbers -/

/-- The computation holds `n` bytes at its peak if it succeeds, and not more otherwise. -/
def Takes {α : Type} (x : Peak α) (n : Nat) : Prop := x.1 ≤ n ∧ ∀ a, x.2 = .ok a → x.1 = n

section
variable {α β : Type}

theorem takes_free (r : Res MerkError α) : Takes (free r) 0 := ⟨Nat.le_refl _, fun _ _ => rfl⟩

theorem takes_vec {r : Res MerkError Bytes} {n : Nat} (h : ∀ b, r = .ok b → b.length = n) :
    Takes (vec r) n := by
  cases r with
  | ok b => exact ⟨Nat.le_of_eq (h b rfl), fun _ _ => h b rfl⟩
  | err e => exact ⟨Nat.zero_le _, fun _ h => by nomatch h⟩
  | panic => exact ⟨Nat.zero_le _, fun _ h => by nomatch h⟩

theorem takes_holding {x : Peak α} {n : Nat} (m : Nat) (h : Takes x n) : Takes (holding m x) (m + n) :=
  ⟨Nat.add_le_add_left h.1 m, fun a ha => congrArg (m + ·) (h.2 a ha)⟩

theorem takes_bind {x : Peak α} {f : α → Peak β} {n m : Nat} (h1 : Takes x n)
    (h2 : ∀ a, x.2 = .ok a → Takes (f a) m) : Takes (x >>= f) (max n m) := by
  obtain ⟨h3, h4⟩ := h1
  refine ⟨?_, fun b hb => ?_⟩
  · show (Peak.bind x f).1 ≤ _
    unfold Peak.bind
    split
    · rename_i a e
      have := (h2 a e).1
      show max x.1 (f a).1 ≤ _
      omega
    · show x.1 ≤ _; omega
    · show x.1 ≤ _; omega
  · rw [bind_res] at hb
    obtain ⟨a, h5, h6⟩ := Res.bind_eq_ok.1 hb
    show (Peak.bind x f).1 = _
    unfold Peak.bind
    rw [h5]
    show max x.1 (f a).1 = _
    rw [h4 a h5, (h2 a h5).2 b h6]

theorem takes_free_bind {r : Res MerkError α} {f : α → Peak β} {m : Nat}
    (h : ∀ a, r = .ok a → Takes (f a) m) : Takes (free r >>= f) m :=
  Nat.zero_max m ▸ takes_bind (takes_free r) h

theorem takes_bind_free {x : Peak α} {r : α → Res MerkError β} {n : Nat} (h : Takes x n) :
    Takes (x >>= fun a => free (r a)) n :=
  Nat.max_zero n ▸ takes_bind h fun _ _ => takes_free _

theorem takes_eq {x : Peak α} {n m : Nat} (h : Takes x n) (e : n = m) : Takes x m := e ▸ h

/-- The bound alone. -/
theorem le_bind {x : Peak α} {f : α → Peak β} {n : Nat} (h1 : x.1 ≤ n)
    (h2 : ∀ a, x.2 = .ok a → (f a).1 ≤ n) : (x >>= f).1 ≤ n := by
  show (Peak.bind x f).1 ≤ _
  unfold Peak.bind
  split
  · rename_i a e
    have := h2 a e
    show max x.1 (f a).1 ≤ _
    omega
  · exact h1
  · exact h1

theorem le_free_bind {r : Res MerkError α} {f : α → Peak β} {n : Nat}
    (h2 : ∀ a, r = .ok a → (f a).1 ≤ n) : (free r >>= f).1 ≤ n :=
  le_bind (Nat.zero_le _) h2

end

theorem virtualP_le (E : Env) (chunks : Bytes) (n : Nat) :
    (merkleizeChunksWithVirtualPaddingP E chunks n).1 ≤ chunks.length := by
  unfold merkleizeChunksWithVirtualPaddingP
  refine le_free_bind fun _ _ => le_free_bind fun _ _ => le_free_bind fun _ _ => ?_
  dsimp only
  split
  · exact le_free_bind fun _ _ => Nat.zero_le _
  · exact Nat.add_le_add_left (le_free_bind (n := 0) fun _ _ => le_free_bind fun _ _ => Nat.zero_le _) _

theorem merkleizeP_le (E : Env) (chunks : Bytes) (limit : Option Nat) :
    (merkleizeP E chunks limit).1 ≤ chunks.length := by
  unfold merkleizeP
  refine le_free_bind fun _ _ => le_free_bind fun _ _ => ?_
  cases limit with
  | none => exact virtualP_le _ _ _
  | some l =>
    dsimp only
    split
    · exact Nat.zero_le _
    · exact le_free_bind fun _ _ => virtualP_le _ _ _

theorem virtualP_takes (E : Env) {chunks : Bytes} (h : chunks.length % 32 = 0) (n : Nat) :
    Takes (merkleizeChunksWithVirtualPaddingP E chunks n) chunks.length := by
  unfold merkleizeChunksWithVirtualPaddingP
  refine takes_free_bind fun _ _ => takes_free_bind fun _ _ => takes_free_bind fun _ _ => ?_
  dsimp only
  split
  · exact takes_eq (takes_free_bind fun _ _ => takes_free _) (by omega)
  · exact takes_holding _ (takes_free_bind (m := 0) fun _ _ => takes_free_bind fun _ _ => takes_free _)

/-- `merkleize` holds one copy of the chunks. -/
theorem merkleizeP_takes (E : Env) {chunks : Bytes} (h : chunks.length % 32 = 0) (limit : Option Nat) :
    Takes (merkleizeP E chunks limit) chunks.length := by
  unfold merkleizeP
  refine takes_free_bind fun _ _ => takes_free_bind fun _ _ => ?_
  cases limit with
  | none => exact virtualP_takes E h _
  | some l =>
    dsimp only
    split
    · exact ⟨Nat.zero_le _, fun _ h => by nomatch h⟩
    · exact takes_free_bind fun _ _ => virtualP_takes E h _

theorem mixP_takes (E : Env) (root : Node) (n : Nat) : Takes (mixInDecorationP E root n) 32 := by
  unfold mixInDecorationP
  split
  · exact ⟨Nat.le_refl _, fun _ _ => rfl⟩
  · exact ⟨Nat.le_refl _, fun _ _ => rfl⟩
  · exact ⟨Nat.le_refl _, fun _ _ => rfl⟩

theorem elementsLoopP_takes {α : Type} {f : α → Peak Node} {w : α → Nat} (xs : List α)
    (h : ∀ x ∈ xs, Takes (f x) (w x)) (i : Nat) (chunks : Bytes) :
    Takes (elementsToChunksLoopP f i xs chunks) (maxOf (xs.map w)) := by
  induction xs generalizing i chunks with
  | nil => exact takes_free _
  | cons x xs ih =>
    rw [elementsToChunksLoopP, List.map_cons]
    exact takes_bind (h x (by simp)) fun _ _ => takes_free_bind fun _ _ =>
      ih (fun y hy => h y (by simp [hy])) _ _

theorem packLoopP_ok {α : Type} {T : Serializable α} {vs : List α} {buf out : Bytes}
    (h : packLoop T vs buf = .ok out) : (packLoopP T vs buf).1 = out.length := by
  induction vs generalizing buf with
  | nil => cases h; rfl
  | cons v vs ih =>
    rw [packLoop] at h
    rw [packLoopP]
    split <;> rename_i e <;> rw [e] at h
    · exact ih h
    · nomatch h
    · nomatch h

theorem packP_ok {α : Type} {T : Serializable α} {vs : List α} {out : Bytes}
    (h : packLoop T vs [] = .ok out) :
    (packP T vs).1 = 32 * ((out.length + 31) / 32) ∧ (packP T vs).2 = .ok (packBytes out) := by
  have h1 : (packBytes out).length = 32 * ((out.length + 31) / 32) := by
    rw [packBytes_eq, flat_length, chunkify_length]
  refine ⟨?_, by rw [packP_res, pack, h]; rfl⟩
  unfold packP
  show (Peak.bind _ _).1 = _
  unfold Peak.bind
  rw [packLoopP_res, h]
  show max (packLoopP T vs []).1 (packBytes out).length = _
  rw [packLoopP_ok h, h1]
  omega

theorem assembleP_takes (E : Env) {t : Ty} {xs : List t.Val} (hl : Legal t)
    (hs : packs t = true → fixedLen t < 2 ^ 32) (hh : held t xs.length)
    (h : ∀ x ∈ xs, Takes (t.rootP E x) (rootMem t x)) :
    Takes (assembleChunksP E (t.impl E) (fun x => t.rootP E x) xs)
      (32 * chunkCountBy packs t xs.length +
        if packs t then 0 else maxOf (xs.map fun x => rootMem t x)) := by
  unfold assembleChunksP
  rw [impl_isComposite, chunkCountBy]
  cases hp : packs t with
  | false =>
    refine takes_free_bind fun a ha => takes_free_bind fun c hc => ?_
    have h1 := hh.1
    rw [Env.mul, if_pos (by simp only [usizeMod]; omega), Res.lift_ok] at ha
    cases ha
    rw [zeros_length hc, Nat.mul_comm]
    exact takes_holding _ (elementsLoopP_takes (f := fun x => t.rootP E x)
      (w := fun x => rootMem t x) xs h _ _)
  | true =>
    have h1 := packLoop_ok xs [] fun v _ => packs_serialize E hp hl (hs hp) (packs_valid v hp)
    obtain ⟨h2, h3⟩ := packP_ok h1
    rw [List.nil_append, flatMap_enc_length hp fun v _ => packs_valid v hp] at h2
    exact ⟨Nat.le_of_eq h2, fun _ _ => h2⟩

/-! ## Roots of whole values -/

theorem flat_mod (ns : List Node) : (flat ns).length % 32 = 0 := by rw [flat_length]; omega

theorem vectorP_takes (E : Env) {t : Ty} {n : Nat} {xs : List t.Val} (hl : Legal t)
    (hs : packs t = true → fixedLen t < 2 ^ 32) (hv : ∀ x ∈ xs, Valid t x) (hh : held t xs.length)
    (hn : xs.length = n)
    (hr : ∀ v ∈ xs, (t.impl E).hashTreeRoot v = .ok ((treeBy packs t v).root E.sha256))
    (h : ∀ x ∈ xs, Takes (t.rootP E x) (rootMem t x)) :
    Takes (assembleChunksP E (t.impl E) (fun x => t.rootP E x) xs >>= fun c =>
        holding c.length (merkleizeP E c none))
      (32 * chunkCountBy packs t n +
        max (if packs t then 0 else maxOf (xs.map fun x => rootMem t x)) (32 * chunkCountBy packs t n)) := by
  subst hn
  refine takes_eq (takes_bind (m := 32 * chunkCountBy packs t xs.length +
    32 * chunkCountBy packs t xs.length) (assembleP_takes E hl hs hh h) fun c hc => ?_) (by omega)
  rw [assembleP_res E (t.impl E) (rootP_res E t), assembleChunks_ok E hl hs hv hh hr] at hc
  cases hc
  have h1 := takes_holding (flat ((partsOf t xs).map (·.root E.sha256))).length
    (merkleizeP_takes E (flat_mod ((partsOf t xs).map (·.root E.sha256))) none)
  rwa [flat_length, List.length_map, partsOf_length hv] at h1 ⊢

theorem listP_takes (E : Env) {t : Ty} {n : Nat} {xs : List t.Val} (hl : Legal t)
    (hs : packs t = true → fixedLen t < 2 ^ 32) (hv : ∀ x ∈ xs, Valid t x) (hh : held t xs.length)
    (hr : ∀ v ∈ xs, (t.impl E).hashTreeRoot v = .ok ((treeBy packs t v).root E.sha256))
    (h : ∀ x ∈ xs, Takes (t.rootP E x) (rootMem t x)) :
    Takes ((Ty.list t n).rootP E xs) (32 * chunkCountBy packs t xs.length +
      max (if packs t then 0 else maxOf (xs.map fun x => rootMem t x))
        (max (32 * chunkCountBy packs t xs.length) 32)) := by
  show Takes (do
    let chunks ← assembleChunksP E (t.impl E) (fun x => t.rootP E x) xs
    holding chunks.length (do
      let dataRoot ←
        if (t.impl E).isCompositeType then merkleizeP E chunks (some n)
        else do
          let count ← free (listChunkCount E (t.impl E) n).lift
          merkleizeP E chunks (some count)
      mixInDecorationP E dataRoot xs.length)) _
  refine takes_eq (takes_bind (m := 32 * chunkCountBy packs t xs.length +
    max (32 * chunkCountBy packs t xs.length) 32) (assembleP_takes E hl hs hh h) fun c hc => ?_) (by omega)
  rw [assembleP_res E (t.impl E) (rootP_res E t), assembleChunks_ok E hl hs hv hh hr] at hc
  cases hc
  have h1 := merkleizeP_takes E (flat_mod ((partsOf t xs).map (·.root E.sha256)))
  rw [flat_length, List.length_map, partsOf_length hv] at h1 ⊢
  refine takes_holding _ ?_
  split
  · exact takes_bind (h1 _) fun _ _ => mixP_takes E _ _
  · exact takes_free_bind fun _ _ => takes_bind (h1 _) fun _ _ => mixP_takes E _ _

mutual

theorem rootP_takes (E : Env) : ∀ (t : Ty) (v : t.Val), Legal t → Bounded t → Valid t v →
    InMemory t v → Takes (t.rootP E v) (rootMem t v)
  | .uint _, _, _, _, _, _ => takes_holding 32 (takes_free _)
  | .u256, _, _, _, _, _ => takes_holding 32 (takes_free _)
  | .bool, _, _, _, _, _ => takes_free _
  | .node, _, _, _, _, _ => takes_holding 32 (takes_free _)
  | .array t n, v, hl, hb, hv, hm => by
    rw [Ty.rootP, rootMem]
    exact vectorP_takes E hl.2 hb.2 hv hm.1 v.2
      (fun x hx => htr_ok E t x hl.2 hb.1 (hv x hx) (hm.2 x hx))
      (fun x hx => rootP_takes E t x hl.2 hb.1 (hv x hx) (hm.2 x hx))
  | .vector t n, v, hl, hb, hv, hm => by
    rw [Ty.rootP, rootMem]
    exact vectorP_takes E hl.2 hb.2 hv.2 hm.1 hv.1
      (fun x hx => htr_ok E t x hl.2 hb.1 (hv.2 x hx) (hm.2 x hx))
      (fun x hx => rootP_takes E t x hl.2 hb.1 (hv.2 x hx) (hm.2 x hx))
  | .list t n, v, hl, hb, hv, hm => by
    rw [rootMem]
    exact listP_takes E hl hb.2.1 hv.2 hm.1
      (fun x hx => htr_ok E t x hl hb.1 (hv.2 x hx) (hm.2 x hx))
      (fun x hx => rootP_takes E t x hl hb.1 (hv.2 x hx) (hm.2 x hx))
  | .bitvector n, v, hl, hb, hv, _ => by
    rw [Ty.rootP, rootMem]
    simp only [Valid] at hv
    have hlen : ∀ c, Bitvector.packBits n v = .ok c → c.length = 32 * ((n + 255) / 256) := by
      intro c hc
      rw [Bitvector.packBits_ok hl hv] at hc
      cases hc
      rw [flat_length, chunkify_bits_length, hv]
    refine takes_eq (takes_bind (m := 32 * ((n + 255) / 256) + 32 * ((n + 255) / 256))
      (takes_vec hlen) fun c hc => ?_) (by omega)
    have h1 := hlen c hc
    have h2 := takes_holding c.length (merkleizeP_takes E (chunks := c) (by omega)
      (some (bitsChunkCount n)))
    rwa [h1] at h2 ⊢
  | .bitlist n, v, hl, hb, hv, _ => by
    rw [Ty.rootP, rootMem]
    obtain ⟨hv, hc⟩ := hv
    have hlen : ∀ c, Bitlist.packBits n v = .ok c → c.length = 32 * ((v.live.length + 255) / 256) := by
      intro c h
      rw [Bitlist.packBits_ok hv hc] at h
      cases h
      rw [flat_length, chunkify_bits_length]
    refine takes_eq (takes_bind (m := 32 * ((v.live.length + 255) / 256) +
      max (32 * ((v.live.length + 255) / 256)) 32) (takes_vec hlen) fun c hc => ?_) (by omega)
    have h1 := hlen c hc
    have h2 := merkleizeP_takes E (chunks := c) (by omega) (some (bitsChunkCount n))
    rw [h1] at h2 ⊢
    exact takes_holding _ (takes_bind h2 fun _ _ => mixP_takes E _ _)
  | .option t, v, hl, hb, hv, hm => by
    match v with
    | none =>
      exact takes_bind (n := 32) (m := 32) (takes_holding 32 (takes_free _)) fun _ _ => mixP_takes E _ _
    | some x =>
      refine takes_eq (takes_bind (rootP_takes E t x hl hb (hv x rfl) (hm x rfl)) fun _ _ =>
        takes_bind (takes_holding 32 (takes_free _)) fun _ _ => mixP_takes E _ _) ?_
      show max (rootMem t x) _ = max (rootMem t x) 32
      omega
  | .newtype t, v, hl, hb, hv, hm => by
    rw [Ty.rootP, rootMem]
    refine takes_eq (takes_bind (m := 64) (takes_holding 32
      (takes_bind_free (rootP_takes E t v hl hb hv hm))) fun c hc => ?_) (by omega)
    rw [holding_res, Peak.bind_res] at hc
    obtain ⟨r, -, hc⟩ := Res.bind_eq_ok.1 hc
    have h1 : c.length = 32 := by rw [copyInto_length hc]; rfl
    have h2 := takes_holding c.length (merkleizeP_takes E (chunks := c) (by omega) none)
    rwa [h1] at h2 ⊢
  | .container fs, v, hl, hb, hv, hm => by
    rw [Ty.rootP, rootMem]
    refine takes_eq (takes_bind (m := 32 * countF fs + 32 * countF fs) (takes_holding _
      (fieldsP_takes E fs v hl.2.2 hb.1 hv hm _ _)) fun c hc => ?_) (by rw [count_impls]; omega)
    have h1 : c.length = 32 * countF fs := by
      rw [holding_res] at hc
      replace hc := (chunksP_res E fs v 0 _).symm.trans hc
      rw [count_impls, ← flat_replicate] at hc
      replace hc := (htrF_ok E fs v [] hl.2.2 hb.1 hv hm).symm.trans hc
      cases hc
      rw [flat_length, List.nil_append, List.length_map]
      exact congrArg _ (treesByF_length packs fs v)
    have h2 := takes_holding c.length (merkleizeP_takes E (chunks := c) (by omega) none)
    rwa [h1] at h2 ⊢
  | .union vs, v, hl, hb, hv, hm => by
    rw [Ty.rootP, rootMem]
    exact rootPV_takes E vs 0 v hl.2 hb hv hm

theorem fieldsP_takes (E : Env) : ∀ (fs : Fields) (v : fs.Val), LegalF fs → BoundedF fs →
    ValidF fs v → InMemoryF fs v → ∀ i c, Takes (fs.chunksP E v i c) (rootMemF fs v)
  | .nil, _, _, _, _, _, _, _ => takes_free _
  | .cons _ t rest, v, hl, hb, hv, hm, i, c => by
    rw [Fields.chunksP, rootMemF]
    exact takes_bind (rootP_takes E t v.1 hl.1 hb.1 hv.1 hm.1) fun _ _ =>
      takes_free_bind fun _ _ => fieldsP_takes E rest v.2 hl.2 hb.2 hv.2 hm.2 _ _

theorem rootPV_takes (E : Env) : ∀ (vs : Variants) (i : Nat) (v : vs.Val), LegalV vs → BoundedV vs →
    ValidV vs v → InMemoryV vs v → Takes (vs.rootP E i v) (rootMemV vs v)
  | .nil, _, v, _, _, _, _ => Empty.elim v
  | .unit _, _, .inl _, _, _, _, _ => mixP_takes E _ _
  | .unit rest, i, .inr v, hl, hb, hv, hm => rootPV_takes E rest (i + 1) v hl hb hv hm
  | .data t _, i, .inl v, hl, hb, hv, hm =>
    takes_bind (rootP_takes E t v hl.1 hb.1 hv hm) fun _ _ => mixP_takes E _ _
  | .data _ rest, i, .inr v, hl, hb, hv, hm => rootPV_takes E rest (i + 1) v hl.2 hb.2 hv hm

end

theorem rootP_exact (E : Env) (t : Ty) (v : t.Val) (hl : Legal t) (hb : Bounded t) (hv : Valid t v)
    (hm : InMemory t v) : (t.rootP E v).1 = rootMem t v :=
  (rootP_takes E t v hl hb hv hm).2 _ ((rootP_res E t v).trans (htr_ok E t v hl hb hv hm))

theorem node_length (n : Node) : n.1.length = 32 := n.2

theorem Variants.chunksP_takes (E : Env) : ∀ (vs : Variants) (v : vs.Val), LegalV vs → BoundedV vs →
    ValidV vs v → InMemoryV vs v → Takes (vs.chunksP E v) (rootMemV vs v)
  | .nil, v, _, _, _, _ => Empty.elim v
  | .unit _, .inl _, _, _, _, _ => takes_vec fun b hb => by cases hb; exact zeroNode.2
  | .unit rest, .inr v, hl, hb, hv, hm => Variants.chunksP_takes E rest v hl hb hv hm
  | .data t _, .inl v, hl, hb, hv, hm => takes_bind (rootP_takes E t v hl.1 hb.1 hv hm) fun r _ =>
      takes_vec fun b hb => by cases hb; exact r.2
  | .data _ rest, .inr v, hl, hb, hv, hm => Variants.chunksP_takes E rest v hl.2 hb.2 hv hm

theorem Ty.chunksP_takes (E : Env) : ∀ (t : Ty) (v : t.Val), Legal t → Bounded t → Valid t v →
    InMemory t v → Takes (t.chunksP E v) (partsMem t v)
  | .uint u, v, _, _, _, _ => takes_vec fun b hb => by
      change Res.ok (packBytes ([] ++ toLeBytes (bitsToBytes u.bits) v.toNat)) = _ at hb
      cases hb
      rw [packBytes_eq, flat_length, chunkify_length, List.nil_append, toLeBytes_eq, leBytes_length]
      cases u <;> rfl
  | .u256, v, _, _, _, _ => takes_vec fun b hb => by
      change Res.ok _ = _ at hb
      cases hb
      rw [toLeBytes_eq, leBytes_length]
      rfl
  | .bool, v, _, _, _, _ => takes_vec fun b hb => by
      cases v <;> (change Res.ok _ = _ at hb; cases hb; rfl)
  | .node, v, _, _, _, _ => takes_vec fun b hb => by
      change Res.ok _ = _ at hb
      cases hb
      exact v.2
  | .array t n, v, hl, hb, hv, hm => by
    have := assembleP_takes E (xs := v.1) hl.2 hb.2 hm.1 fun x hx =>
      rootP_takes E t x hl.2 hb.1 (hv x hx) (hm.2 x hx)
    rwa [v.2] at this
  | .vector t n, v, hl, hb, hv, hm => by
    have := assembleP_takes E (t := t) (xs := v) hl.2 hb.2 hm.1 fun x hx =>
      rootP_takes E t x hl.2 hb.1 (hv.2 x hx) (hm.2 x hx)
    rwa [show List.length (show List t.Val from v) = n from hv.1] at this
  | .list t n, v, hl, hb, hv, hm =>
    assembleP_takes E (t := t) (xs := v) hl hb.2.1 hm.1 fun x hx =>
      rootP_takes E t x hl hb.1 (hv.2 x hx) (hm.2 x hx)
  | .bitvector n, v, hl, hb, hv, _ => takes_vec fun c hc => by
      simp only [Valid] at hv
      change Bitvector.packBits n v = _ at hc
      rw [Bitvector.packBits_ok hl hv] at hc
      cases hc
      rw [flat_length, chunkify_bits_length, hv]
      rfl
  | .bitlist n, v, hl, hb, hv, _ => takes_vec fun c hc => by
      change Bitlist.packBits n v = _ at hc
      rw [Bitlist.packBits_ok hv.1 hv.2] at hc
      cases hc
      rw [flat_length, chunkify_bits_length]
      rfl
  | .option t, v, hl, hb, hv, hm => by
    match v with
    | none => exact takes_vec fun b hb => by cases hb; rfl
    | some x => exact takes_bind (rootP_takes E t x hl hb (hv x rfl) (hm x rfl)) fun r _ =>
        takes_vec fun b hb => by cases hb; exact r.2
  | .newtype t, v, hl, hb, hv, hm => Ty.chunksP_takes E t v hl hb hv hm
  | .container fs, v, hl, hb, hv, hm => by
    have h := takes_holding ((fs.impls E).count * 32) (fieldsP_takes E fs v hl.2.2 hb.1 hv hm 0
      (List.replicate ((fs.impls E).count * 32) 0))
    exact takes_eq h (by rw [count_impls, Nat.mul_comm]; rfl)
  | .union vs, v, hl, hb, hv, hm => Variants.chunksP_takes E vs v hl.2 hb hv hm

/-! ## The prover -/

theorem treeLoop_length {E : Env} {i : Nat} {b out : Bytes} (h : treeLoop E i b = .ok out) :
    out.length = b.length := by
  induction i using Nat.strongRecOn generalizing b with
  | _ i ih =>
    cases i with
    | zero => rw [treeLoop] at h; cases h; rfl
    | succ i =>
      rw [treeLoop] at h
      obtain ⟨_, -, h⟩ := Res.bind_eq_ok.1 h
      obtain ⟨_, -, h⟩ := Res.bind_eq_ok.1 h
      obtain ⟨_, -, h⟩ := Res.bind_eq_ok.1 h
      obtain ⟨_, h1, h⟩ := Res.bind_eq_ok.1 h
      rw [ih (i - 1) (by omega) h, copyInto_length h1]

/-- The tree of `n` leaves, and what making it holds. -/
theorem treeP_takes (E : Env) (chunks : Bytes) {d : Nat} (hd : d ≤ 57) :
    Takes (computeMerkleTreeP E chunks (2 ^ d)) (32 * (2 ^ (d + 1) - 1)) ∧
    ∀ tree, (computeMerkleTreeP E chunks (2 ^ d)).2 = .ok tree →
      tree.length = 32 * (2 ^ (d + 1) - 1) := by
  have h0 := Nat.two_pow_pos d
  have h57 := pow57 hd
  have hp : 2 ^ (d + 1) = 2 ^ d * 2 := Nat.pow_succ 2 d
  have e1 : E.mul 2 (2 ^ d) = .ok (2 * 2 ^ d) := by
    rw [Env.mul, if_pos (by simp only [usizeMod]; omega)]
  have e2 : E.sub (2 * 2 ^ d) 1 = .ok (2 * 2 ^ d - 1) := Env.sub_eq_ok (by omega)
  have e3 : E.mul (2 * 2 ^ d - 1) 32 = .ok ((2 * 2 ^ d - 1) * 32) := by
    rw [Env.mul, if_pos (by simp only [usizeMod]; omega)]
  unfold computeMerkleTreeP
  refine ⟨takes_free_bind fun _ _ => takes_free_bind fun _ _ => takes_free_bind fun a ha =>
    takes_free_bind fun b hb => takes_free_bind fun _ _ => takes_free_bind fun _ _ =>
    takes_free_bind fun s hs => takes_free_bind fun z hz => ?_, fun tree h => ?_⟩
  · rw [e1, Res.lift_ok] at ha
    cases ha
    rw [e2, Res.lift_ok] at hb
    cases hb
    rw [e3, Res.lift_ok] at hs
    cases hs
    rw [zeros_length hz]
    refine takes_eq (takes_holding _ (takes_free_bind (m := 0) fun _ _ => takes_free_bind fun _ _ =>
      takes_free _)) (by omega)
  · simp only [bind_res, free_res, holding_res] at h
    obtain ⟨_, -, h⟩ := Res.bind_eq_ok.1 h
    obtain ⟨_, -, h⟩ := Res.bind_eq_ok.1 h
    obtain ⟨a, ha, h⟩ := Res.bind_eq_ok.1 h
    obtain ⟨b, hb, h⟩ := Res.bind_eq_ok.1 h
    obtain ⟨_, -, h⟩ := Res.bind_eq_ok.1 h
    obtain ⟨_, -, h⟩ := Res.bind_eq_ok.1 h
    obtain ⟨s, hs, h⟩ := Res.bind_eq_ok.1 h
    obtain ⟨z, hz, h8⟩ := Res.bind_eq_ok.1 h
    obtain ⟨_, -, h9⟩ := Res.bind_eq_ok.1 h8
    obtain ⟨_, hc, h10⟩ := Res.bind_eq_ok.1 h9
    rw [e1, Res.lift_ok] at ha
    cases ha
    rw [e2, Res.lift_ok] at hb
    cases hb
    rw [e3, Res.lift_ok] at hs
    cases hs
    rw [treeLoop_length h10, copyInto_length hc, zeros_length hz]
    omega

theorem treeMixP_takes (E : Env) (tree : Tree) (d : Nat) : Takes (Tree.mixInDecorationP E tree d) 32 :=
  takes_free_bind fun _ _ => takes_eq (takes_bind (takes_holding 32 (takes_free _)) fun _ _ =>
    takes_free_bind (m := 0) fun _ _ => takes_free_bind fun _ _ => takes_free_bind fun _ _ =>
      takes_free _) rfl

theorem layerP_takes {α : Type} {E : Env} {T : SimpleSerialize α} {v : α} {ts : List MTree} {c : Nat}
    {deco : Option Nat} (h : Pre E T v ts c deco) {ch : α → Peak Bytes}
    {pe : α → Nat → Prover → Peak Prover} {P : Nat} {inner : Nat → Nat → Nat}
    (hc : Takes (ch v) P) (hcr : (ch v).2 = T.chunks v)
    (hi : ∀ (q : Nat) (pr : Prover), pr.proof.index < 2 ^ 64 →
      Takes (pe v q pr) (inner q pr.proof.index))
    (pr : Prover) (hg : pr.proof.index < 2 ^ 64) :
    Takes (computeProofP E T ch pe v pr) ((layerOf ts c deco).mem P inner pr.proof.index) := by
  have hd := partsDepth_le h.countLe deco
  unfold computeProofP
  refine takes_free_bind fun a ha => takes_free_bind fun b hb => takes_free_bind fun l hl => ?_
  have hl2 : l = 2 ^ partsDepth c deco := by
    have := leafCount_ok h
    rw [h.count, Res.lift_ok] at ha
    cases ha
    rw [nextPowerOfTwo_ok (Nat.le_trans h.countLe (by decide)), Res.lift_ok] at hb
    cases hb
    rw [h.decoration, this] at hl
    cases hl
    rfl
  subst hl2
  refine takes_free_bind fun x hx => ?_
  obtain ⟨ld, li, lg⟩ := x
  rw [Layer.mem, layerOf_height]
  have hrest : ∀ p1 : Prover, Takes (ch v >>= fun chunks =>
      holding chunks.length (computeMerkleTreeP E chunks (2 ^ partsDepth c deco) >>= fun tree0 =>
      holding tree0.length ((match T.decoration v with
        | some d => Tree.mixInDecorationP E tree0 d
        | none => free (.ok tree0) : Peak Tree) >>= fun tree =>
      free (if !decide (lg < pr.proof.index) then
        (do let l ← Tree.get E tree pr.proof.index
            toNode l : Res MerkError Node)
        else .ok p1.proof.leaf) >>= fun leaf =>
      free (siblingsLoop E tree ld lg p1.proof.branch) >>= fun branch =>
      free (Tree.get E tree 1) >>= fun rootBytes =>
      free (toNode rootBytes) >>= fun root =>
      free (.ok ({ proof := { leaf := leaf, branch := branch, index := p1.proof.index }
                   witness := root } : Prover)))))
      (max P (32 * (layerOf ts c deco).parts.length + (32 * (2 ^ (partsDepth c deco + 1) - 1) +
        if (layerOf ts c deco).mixed.isSome then 32 else 0))) := by
    intro p1
    refine takes_bind hc fun chunks hch => ?_
    rw [hcr, h.chunks] at hch
    cases hch
    obtain ⟨h1, h2⟩ := treeP_takes E (flat (ts.map (·.root E.sha256))) hd
    rw [flat_length, List.length_map]
    refine takes_holding _ (takes_eq (takes_bind (m := 32 * (2 ^ (partsDepth c deco + 1) - 1) +
      if deco.isSome then 32 else 0) h1 fun tree0 ht => ?_) (Nat.max_eq_right (Nat.le_add_right _ _)))
    rw [h2 tree0 ht]
    refine takes_holding _ (takes_eq (takes_bind (n := if deco.isSome then 32 else 0) (m := 0) ?_
      fun _ _ => takes_free_bind fun _ _ => takes_free_bind fun _ _ => takes_free_bind fun _ _ =>
        takes_free_bind fun _ _ => takes_free _) (Nat.max_zero _))
    rw [h.decoration]
    cases deco with
    | none => exact takes_free _
    | some d => exact treeMixP_takes E _ d
  rcases Nat.eq_zero_or_pos pr.proof.index with h0 | h0
  · rw [h0, coordinates_zero E hd] at hx
    nomatch hx
  · obtain ⟨e, j, hj, hge⟩ := exists_pow_add h0
    have hlog : Nat.log2 pr.proof.index = e := by rw [hge, log2_pow_add hj]
    by_cases he : e ≤ partsDepth c deco
    · have hlt : pr.proof.index < 2 ^ (partsDepth c deco + 1) := by
        have := Nat.pow_le_pow_right (show 0 < 2 by decide) he
        rw [hge, Nat.pow_succ]; omega
      have hsh : shrinkIndex (2 ^ (partsDepth c deco + 1) - 1) pr.proof.index = pr.proof.index :=
        shrink_id (by omega)
      rw [coordinates_ok E hd (by rw [hsh]; exact h0) (by rw [hsh]; exact hg), hsh] at hx
      cases hx
      rw [if_pos (show Nat.log2 pr.proof.index ≤ partsDepth c deco by omega), Nat.zero_max]
      dsimp only
      rw [if_neg (Nat.lt_irrefl _)]
      exact takes_free_bind fun p1 _ => hrest p1
    · obtain ⟨k, rfl⟩ : ∃ k, e = partsDepth c deco + (k + 1) := ⟨e - partsDepth c deco - 1, by omega⟩
      have hq : j / 2 ^ (k + 1) < 2 ^ partsDepth c deco := by
        rw [Nat.div_lt_iff_lt_mul (Nat.two_pow_pos _), ← Nat.pow_add]; exact hj
      have hsh : shrinkIndex (2 ^ (partsDepth c deco + 1) - 1) pr.proof.index =
          2 ^ partsDepth c deco + j / 2 ^ (k + 1) := by rw [hge]; exact shrink_pow hj
      have hdiv : pr.proof.index / 2 ^ (k + 1) = 2 ^ partsDepth c deco + j / 2 ^ (k + 1) := by
        rw [hge, Nat.pow_add, Nat.mul_comm, Nat.mul_add_div (Nat.two_pow_pos _)]
      have hpos := Nat.two_pow_pos (partsDepth c deco)
      have h57 := pow57 hd
      rw [coordinates_ok E hd (by rw [hsh]; exact Nat.le_trans hpos (Nat.le_add_right _ _))
        (by rw [hsh]; omega), hsh, log2_pow_add hq,
        Nat.add_mod_left, Nat.mod_eq_of_lt hq] at hx
      cases hx
      have hk : 2 ≤ 2 ^ (k + 1) := by rw [Nat.pow_succ]; have := Nat.two_pow_pos k; omega
      have hlt : 2 ^ partsDepth c deco + j / 2 ^ (k + 1) < pr.proof.index := by
        rw [← hdiv]
        exact Nat.div_lt_self h0 (by omega)
      have hm := Nat.mod_lt pr.proof.index (Nat.two_pow_pos (k + 1))
      have hk64 : k + 1 < 64 := by
        have := log2_lt64 hg
        omega
      have h64 : 2 ^ (k + 1) + pr.proof.index % 2 ^ (k + 1) < 2 ^ 64 := by
        have : pr.proof.index / 2 ^ (k + 1) * 2 ^ (k + 1) + pr.proof.index % 2 ^ (k + 1) =
          pr.proof.index := by rw [Nat.mul_comm]; exact Nat.div_add_mod _ _
        have h2 : 1 * 2 ^ (k + 1) ≤ pr.proof.index / 2 ^ (k + 1) * 2 ^ (k + 1) :=
          Nat.mul_le_mul_right _ (by rw [hdiv]; exact Nat.le_trans hpos (Nat.le_add_right _ _))
        omega
      rw [if_neg (show ¬ Nat.log2 pr.proof.index ≤ partsDepth c deco by omega), hlog,
        show partsDepth c deco + (k + 1) - partsDepth c deco = k + 1 by omega, hdiv,
        Nat.add_sub_cancel_left]
      dsimp only
      rw [if_pos hlt]
      refine takes_bind (n := inner (j / 2 ^ (k + 1))
        (2 ^ (k + 1) + pr.proof.index % 2 ^ (k + 1))) ?_ fun p1 _ => hrest p1
      refine takes_free_bind fun a1 h1 => takes_free_bind fun a2 h2 => takes_free_bind fun a3 h3 =>
        takes_free_bind fun a4 h4 => takes_free_bind fun a5 h5 => ?_
      rw [getDepth_ok h0, hlog] at h1
      cases h1
      rw [Env.sub_eq_ok (by omega), Res.lift_ok] at h2
      cases h2
      rw [show partsDepth c deco + (k + 1) - partsDepth c deco = k + 1 by omega, pow2_ok hk64,
        Res.lift_ok] at h3
      cases h3
      rw [usizeRem_pow] at h4
      cases h4
      rw [Env.add_eq_ok (by simp only [usizeMod]; omega), Res.lift_ok] at h5
      cases h5
      exact takes_bind_free (hi _ _ h64)

/-- The prover's functions have the layer and hold what the parts need. -/
def HasMem {α : Type} (E : Env) (T : SimpleSerialize α) (ch : α → Peak Bytes)
    (pe : α → Nat → Prover → Peak Prover) (v : α) (l : Layer) (P : Nat) (inner : Nat → Nat → Nat) :
    Prop :=
  (∃ ts c deco, Pre E T v ts c deco ∧ layerOf ts c deco = l) ∧ Takes (ch v) P ∧
    (ch v).2 = T.chunks v ∧
    ∀ (q : Nat) (pr : Prover), pr.proof.index < 2 ^ 64 → Takes (pe v q pr) (inner q pr.proof.index)

theorem HasMem.takes {α : Type} {E : Env} {T : SimpleSerialize α} {ch : α → Peak Bytes}
    {pe : α → Nat → Prover → Peak Prover} {v : α} {l : Layer} {P : Nat} {inner : Nat → Nat → Nat}
    (h : HasMem E T ch pe v l P inner) (pr : Prover) (hg : pr.proof.index < 2 ^ 64) :
    Takes (computeProofP E T ch pe v pr) (l.mem P inner pr.proof.index) := by
  obtain ⟨⟨ts, c, deco, h1, rfl⟩, h2, h3, h4⟩ := h
  exact layerP_takes h1 h2 h3 h4 pr hg

theorem hasMem_of (E : Env) (t : Ty) (v : t.Val) (hl : Legal t) (hb : Bounded t)
    (hs : Shallow t) (hv : Valid t v) (hm : InMemory t v)
    (h : ∀ (q : Nat) (pr : Prover), pr.proof.index < 2 ^ 64 →
      Takes (t.proveElementP E v q pr) (innerMem t v q pr.proof.index)) :
    HasMem E (t.impl E) (t.chunksP E) (fun x i p => t.proveElementP E x i p) v (layer t v)
      (partsMem t v) (innerMem t v) := by
  obtain ⟨ts, c, deco, h1, h2, -⟩ := has_layer E t v hl hb hs hv hm
  exact ⟨⟨ts, c, deco, h1, h2⟩, Ty.chunksP_takes E t v hl hb hv hm, Ty.chunksP_res E t v, h⟩

theorem zeroP_takes (E : Env) (pr : Prover) (hg : pr.proof.index < 2 ^ 64) :
    Takes (zeroProofP E pr) ((leafLayer zeroNode).mem 32 (fun _ _ => 0) pr.proof.index) := by
  obtain ⟨ts, c, deco, h1, h2, -⟩ := zero_layer E
  have h3 := layerP_takes h1 (ch := fun v => vec ((SimpleSerialize.uint .usize).chunks v))
    (pe := fun v i p => free (defaultProveElement v i p)) (P := 32)
    (takes_vec fun b hb => by change Res.ok _ = _ at hb; cases hb; rfl) rfl
    (inner := fun _ _ => 0) (fun _ _ _ => takes_free _) pr hg
  rwa [h2] at h3

theorem collP_takes {E : Env} {t : Ty} {n : Nat} {vs : List t.Val}
    (ih : ∀ x ∈ vs, HasMem E (t.impl E) (t.chunksP E) (fun x i p => t.proveElementP E x i p) x
      (layer t x) (partsMem t x) (innerMem t x)) (q : Nat) (pr : Prover)
    (hg : pr.proof.index < 2 ^ 64) :
    Takes (collectionProveElementP (computeProofP E (t.impl E) (t.chunksP E)
        (fun x i p => t.proveElementP E x i p)) n vs q pr)
      (if n ≤ q then 0 else
        (vs[q]?.map fun x => (layer t x).mem (partsMem t x) (innerMem t x) pr.proof.index).getD 0) := by
  unfold collectionProveElementP
  by_cases hq : n ≤ q
  · rw [if_pos hq, if_pos hq]
    exact takes_free _
  · rw [if_neg hq, if_neg hq]
    cases hx : vs[q]? with
    | none => exact takes_free_bind fun a ha => by rw [index, hx] at ha; nomatch ha
    | some x =>
      refine takes_free_bind fun a ha => ?_
      rw [index_ok hx] at ha
      cases ha
      exact (ih x (List.mem_of_getElem? hx)).takes pr hg

mutual

theorem proveElementP_takes (E : Env) : ∀ (t : Ty) (v : t.Val), Legal t → Bounded t → Shallow t →
    Valid t v → InMemory t v → ∀ (q : Nat) (pr : Prover), pr.proof.index < 2 ^ 64 →
    Takes (t.proveElementP E v q pr) (innerMem t v q pr.proof.index)
  | .uint _, _, _, _, _, _, _, _, _, _ => takes_free _
  | .u256, _, _, _, _, _, _, _, _, _ => takes_free _
  | .bool, _, _, _, _, _, _, _, _, _ => takes_free _
  | .node, _, _, _, _, _, _, _, _, _ => takes_free _
  | .array t n, v, hl, hb, hs, hv, hm, q, pr, hg =>
    collP_takes (vs := v.1) (fun x hx => hasMem_of E t x hl.2 hb.1 hs.2 (hv x hx) (hm.2 x hx)
      (proveElementP_takes E t x hl.2 hb.1 hs.2 (hv x hx) (hm.2 x hx))) q pr hg
  | .vector t n, v, hl, hb, hs, hv, hm, q, pr, hg =>
    collP_takes (vs := v) (fun x hx => hasMem_of E t x hl.2 hb.1 hs.2 (hv.2 x hx) (hm.2 x hx)
      (proveElementP_takes E t x hl.2 hb.1 hs.2 (hv.2 x hx) (hm.2 x hx))) q pr hg
  | .list t n, v, hl, hb, hs, hv, hm, q, pr, hg =>
    collP_takes (vs := v) (fun x hx => hasMem_of E t x hl hb.1 hs.2 (hv.2 x hx) (hm.2 x hx)
      (proveElementP_takes E t x hl hb.1 hs.2 (hv.2 x hx) (hm.2 x hx))) q pr hg
  | .bitvector _, _, _, _, _, _, _, _, _, _ => takes_free _
  | .bitlist _, _, _, _, _, _, _, _, _, _ => takes_free _
  | .option t, v, hl, hb, hs, hv, hm, q, pr, hg => by
    match v with
    | none =>
      show Takes (if q ≥ 2 then _ else zeroProofP E pr)
        (if 2 ≤ q then 0 else (leafLayer zeroNode).mem 32 (fun _ _ => 0) pr.proof.index)
      split
      · exact takes_free _
      · exact zeroP_takes E pr hg
    | some x =>
      show Takes (if q ≥ 2 then _ else computeProofP E (t.impl E) (t.chunksP E)
        (fun x i p => t.proveElementP E x i p) x pr) (if 2 ≤ q then 0 else _)
      split
      · exact takes_free _
      · exact (hasMem_of E t x hl hb hs (hv x rfl) (hm x rfl)
          (proveElementP_takes E t x hl hb hs (hv x rfl) (hm x rfl))).takes pr hg
  | .newtype t, v, hl, hb, hs, hv, hm, q, pr, hg =>
    proveElementP_takes E t v hl hb hs hv hm q pr hg
  | .container fs, v, hl, hb, hs, hv, hm, q, pr, hg => by
    show Takes (if q ≥ (fs.impls E).count then _ else fs.proveFieldP E v q pr) (innerMemF fs v q _)
    rw [count_impls]
    exact proveFieldP_takes E fs v hl.2.2 hb.1 hs.2 hv hm q pr hg
  | .union vs, v, hl, hb, hs, hv, hm, q, pr, hg => by
    show Takes (if q ≥ (vs.impls E).count then _ else vs.proveVariantP E v pr)
      (if countV vs ≤ q then 0 else innerMemV vs v _)
    rw [count_implsV]
    split
    · exact takes_free _
    · exact proveVariantP_takes E vs v hl.2 hb hs hv hm pr hg

theorem proveFieldP_takes (E : Env) : ∀ (fs : Fields) (v : fs.Val), LegalF fs → BoundedF fs →
    ShallowF fs → ValidF fs v → InMemoryF fs v → ∀ (q : Nat) (pr : Prover), pr.proof.index < 2 ^ 64 →
    Takes (if q ≥ countF fs then free (.err .invalidInnerIndex) else fs.proveFieldP E v q pr)
      (innerMemF fs v q pr.proof.index)
  | .nil, _, _, _, _, _, _, _, _, _ => takes_free _
  | .cons _ t rest, v, hl, hb, hs, hv, hm, 0, pr, hg => by
    rw [if_neg (by simp [countF])]
    exact (hasMem_of E t v.1 hl.1 hb.1 hs.1 hv.1 hm.1
      (proveElementP_takes E t v.1 hl.1 hb.1 hs.1 hv.1 hm.1)).takes pr hg
  | .cons _ t rest, v, hl, hb, hs, hv, hm, q + 1, pr, hg => by
    have h := proveFieldP_takes E rest v.2 hl.2 hb.2 hs.2 hv.2 hm.2 q pr hg
    by_cases hq : q ≥ countF rest
    · rw [if_pos hq] at h
      rw [if_pos (by rw [countF]; omega)]
      exact h
    · rw [if_neg hq] at h
      rw [if_neg (by rw [countF]; omega)]
      exact h

theorem proveVariantP_takes (E : Env) : ∀ (vs : Variants) (v : vs.Val), LegalV vs → BoundedV vs →
    ShallowV vs → ValidV vs v → InMemoryV vs v → ∀ (pr : Prover), pr.proof.index < 2 ^ 64 →
    Takes (vs.proveVariantP E v pr) (innerMemV vs v pr.proof.index)
  | .nil, v, _, _, _, _, _, _, _ => Empty.elim v
  | .unit _, .inl _, _, _, _, _, _, pr, hg => zeroP_takes E pr hg
  | .unit rest, .inr v, hl, hb, hs, hv, hm, pr, hg =>
    proveVariantP_takes E rest v hl hb hs hv hm pr hg
  | .data t _, .inl v, hl, hb, hs, hv, hm, pr, hg =>
    (hasMem_of E t v hl.1 hb.1 hs.1 hv hm
      (proveElementP_takes E t v hl.1 hb.1 hs.1 hv hm)).takes pr hg
  | .data _ rest, .inr v, hl, hb, hs, hv, hm, pr, hg =>
    proveVariantP_takes E rest v hl.2 hb.2 hs.2 hv hm pr hg

end

theorem computeProofP_takes (E : Env) (t : Ty) (v : t.Val) (hl : Legal t) (hb : Bounded t)
    (hs : Shallow t) (hv : Valid t v) (hm : InMemory t v) (pr : Prover) (hg : pr.proof.index < 2 ^ 64) :
    Takes (t.computeProofP E v pr) (proofMem t v pr.proof.index) :=
  (hasMem_of E t v hl hb hs hv hm (proveElementP_takes E t v hl hb hs hv hm)).takes pr hg

/-! ## Bounds -/

theorem mixP_le (E : Env) (root : Node) (n : Nat) : (mixInDecorationP E root n).1 ≤ 32 :=
  (mixP_takes E root n).1

theorem elementsLoopP_le {α : Type} {f : α → Peak Node} {m : Nat} (xs : List α)
    (h : ∀ x ∈ xs, (f x).1 ≤ m) (i : Nat) (chunks : Bytes) :
    (elementsToChunksLoopP f i xs chunks).1 ≤ m := by
  induction xs generalizing i chunks with
  | nil => exact Nat.zero_le _
  | cons x xs ih =>
    rw [elementsToChunksLoopP]
    exact le_bind (h x (by simp)) fun _ _ => le_free_bind fun _ _ =>
      ih (fun y hy => h y (by simp [hy])) _ _

theorem elementsLoopP_length {α : Type} {f : α → Peak Node} {i : Nat} {xs : List α}
    {chunks out : Bytes} (h : (elementsToChunksLoopP f i xs chunks).2 = .ok out) :
    out.length = chunks.length := by
  induction xs generalizing i chunks with
  | nil => cases h; rfl
  | cons x xs ih =>
    simp only [elementsToChunksLoopP, bind_res, free_res] at h
    obtain ⟨_, -, h⟩ := Res.bind_eq_ok.1 h
    obtain ⟨_, h1, h⟩ := Res.bind_eq_ok.1 h
    rw [ih h, copyInto_length h1]

/-- In a list each value leaves room for the others. -/
theorem sum_mem_others {α : Type} {w : α → Nat} {xs : List α} (hw : ∀ x ∈ xs, 1 ≤ w x) {x : α}
    (h : x ∈ xs) : w x + xs.length ≤ (xs.map w).sum + 1 := by
  induction xs with
  | nil => exact absurd h List.not_mem_nil
  | cons y ys ih =>
    have hs : ys.length ≤ (ys.map w).sum := by
      clear ih h
      induction ys with
      | nil => exact Nat.le_refl _
      | cons z zs ih =>
        have h1 := hw z (by simp)
        have h2 := ih fun a ha => hw a (by
          rcases List.mem_cons.1 ha with rfl | ha
          · simp
          · simp [ha])
        rw [List.length_cons, List.map_cons, List.sum_cons]
        omega
    have h1 := hw y (by simp)
    rw [List.length_cons, List.map_cons, List.sum_cons]
    rcases List.mem_cons.1 h with rfl | h
    · omega
    · have := ih (fun a ha => hw a (by simp [ha])) h
      omega

theorem assembleP_le (E : Env) {t : Ty} {xs : List t.Val} (hl : Legal t)
    (hs : packs t = true → fixedLen t < 2 ^ 32)
    (h : ∀ x ∈ xs, (t.rootP E x).1 ≤ 64 * values t x) :
    (assembleChunksP E (t.impl E) (fun x => t.rootP E x) xs).1 ≤ 64 * (1 + (xs.map (values t)).sum) ∧
    ∀ c, (assembleChunksP E (t.impl E) (fun x => t.rootP E x) xs).2 = .ok c →
      c.length ≤ 32 * (xs.map (values t)).sum := by
  have hpos : ∀ x ∈ xs, 1 ≤ values t x := fun x _ => values_pos t x
  have hlen : xs.length ≤ (xs.map (values t)).sum := by
    cases xs with
    | nil => exact Nat.le_refl _
    | cons x xs =>
      have := sum_mem_others hpos (x := x) (by simp)
      have := hpos x (by simp)
      omega
  unfold assembleChunksP
  rw [impl_isComposite]
  cases hp : packs t with
  | false =>
    simp only [Bool.not_false, if_true]
    unfold elementsToChunksP
    have hsz : ∀ a, (E.mul xs.length 32).lift = (.ok a : Res MerkError Nat) → a ≤ xs.length * 32 := by
      intro a ha
      refine Env.mul_le (E := E) ?_
      cases he : E.mul xs.length 32 with
      | ok y => rw [he] at ha; cases ha; rfl
      | err e => exact e.elim
      | panic => rw [he] at ha; nomatch ha
    refine ⟨le_free_bind fun a ha => le_free_bind fun z hz => ?_, fun c hc => ?_⟩
    · have h1 := hsz a ha
      rw [zeros_length hz]
      refine Nat.le_trans (Nat.add_le_add_left (elementsLoopP_le
        (m := 64 * ((xs.map (values t)).sum + 1 - xs.length)) xs (fun x hx => ?_) _ _) _) ?_
      · have h2 := h x hx
        have h3 := sum_mem_others hpos hx
        show (t.rootP E x).1 ≤ _
        omega
      · omega
    · simp only [bind_res, free_res, holding_res] at hc
      obtain ⟨a, ha, hc⟩ := Res.bind_eq_ok.1 hc
      obtain ⟨z, hz, hc⟩ := Res.bind_eq_ok.1 hc
      have h1 := hsz a ha
      rw [elementsLoopP_length hc, zeros_length hz]
      omega
  | true =>
    simp only [Bool.not_true, Bool.false_eq_true, if_false]
    have h1 := packLoop_ok xs [] fun v _ => packs_serialize E hp hl (hs hp) (packs_valid v hp)
    obtain ⟨h2, h3⟩ := packP_ok h1
    have hb : ∀ xs : List t.Val, (xs.flatMap (enc t)).length ≤ 32 * (xs.map (values t)).sum := by
      intro xs
      induction xs with
      | nil => exact Nat.le_refl _
      | cons x xs ih =>
        have := packs_values x hp
        rw [List.flatMap_cons, List.length_append, List.map_cons, List.sum_cons, packs_length x hp]
        omega
    have h4 := hb xs
    rw [List.nil_append] at h2 h3
    refine ⟨by rw [h2]; omega, fun c hc => ?_⟩
    rw [h3] at hc
    cases hc
    rw [packBytes_eq, flat_length, chunkify_length]
    omega

theorem collectionP_le {x : Peak Bytes} {f : Bytes → Peak Node} {S : Nat} (h1 : x.1 ≤ 64 * (1 + S))
    (h2 : ∀ c, x.2 = .ok c → c.length ≤ 32 * S) (h3 : ∀ c, (f c).1 ≤ max c.length 32) :
    (x >>= fun c => holding c.length (f c)).1 ≤ 64 * (1 + S) := by
  refine le_bind h1 fun c hc => ?_
  have h4 := h2 c hc
  have h5 := h3 c
  show c.length + (f c).1 ≤ _
  omega

theorem bitsP_le {r : Res MerkError Bytes} {f : Bytes → Peak Node} {S : Nat}
    (h2 : ∀ c, r = .ok c → c.length ≤ 32 * S) (h3 : ∀ c, (f c).1 ≤ max c.length 32) :
    (vec r >>= fun c => holding c.length (f c)).1 ≤ 64 * (1 + S) := by
  refine collectionP_le ?_ h2 h3
  cases r with
  | ok b => have := h2 b rfl; show b.length ≤ _; omega
  | err e => exact Nat.zero_le _
  | panic => exact Nat.zero_le _

theorem fieldsP_length (E : Env) : ∀ (fs : Fields) (v : fs.Val) (i : Nat) (c out : Bytes),
    (fs.chunksP E v i c).2 = .ok out → out.length = c.length
  | .nil, _, _, _, _, h => by cases h; rfl
  | .cons _ t rest, v, i, c, out, h => by
    simp only [Fields.chunksP, bind_res, free_res] at h
    obtain ⟨_, -, h⟩ := Res.bind_eq_ok.1 h
    obtain ⟨_, h1, h⟩ := Res.bind_eq_ok.1 h
    rw [fieldsP_length E rest _ _ _ _ h, copyInto_length h1]

theorem packBytes_len_le {b : Bytes} {n : Nat} (h : b.length ≤ 32 * n) :
    (packBytes b).length ≤ 32 * n := by
  rw [packBytes_eq, flat_length, chunkify_length]
  omega

mutual

theorem rootP_le (E : Env) : ∀ (t : Ty) (v : t.Val), Legal t → Bounded t →
    (t.rootP E v).1 ≤ 64 * values t v
  | .uint _, _, _, _ => by show 32 + 0 ≤ 64 * 1; decide
  | .u256, _, _, _ => by show 32 + 0 ≤ 64 * 1; decide
  | .bool, _, _, _ => Nat.zero_le _
  | .node, _, _, _ => by show 32 + 0 ≤ 64 * 1; decide
  | .array t n, v, hl, hb => by
    obtain ⟨h1, h2⟩ := assembleP_le E (xs := v.1) hl.2 hb.2 fun x _ => rootP_le E t x hl.2 hb.1
    rw [Ty.rootP, values]
    exact collectionP_le h1 h2 fun c => Nat.le_trans (merkleizeP_le E c none) (Nat.le_max_left _ _)
  | .vector t n, v, hl, hb => by
    obtain ⟨h1, h2⟩ := assembleP_le E (xs := show List t.Val from v) hl.2 hb.2 fun x _ =>
      rootP_le E t x hl.2 hb.1
    rw [Ty.rootP, values]
    exact collectionP_le h1 h2 fun c => Nat.le_trans (merkleizeP_le E c none) (Nat.le_max_left _ _)
  | .list t n, v, hl, hb => by
    obtain ⟨h1, h2⟩ := assembleP_le E (xs := show List t.Val from v) hl hb.2.1 fun x _ =>
      rootP_le E t x hl hb.1
    rw [Ty.rootP, values]
    refine collectionP_le h1 h2 fun c => ?_
    have hm : ∀ r, (mixInDecorationP E r (List.length v)).1 ≤ max c.length 32 := fun r =>
      Nat.le_trans (mixP_le E r _) (Nat.le_max_right _ _)
    have hk : ∀ l, (merkleizeP E c l).1 ≤ max c.length 32 := fun l =>
      Nat.le_trans (merkleizeP_le E c l) (Nat.le_max_left _ _)
    split
    · exact le_bind (hk _) fun _ _ => hm _
    · exact le_free_bind fun _ _ => le_bind (hk _) fun _ _ => hm _
  | .bitvector n, v, hl, hb => by
    rw [Ty.rootP, values]
    refine bitsP_le (fun c hc => ?_) fun c =>
      Nat.le_trans (merkleizeP_le E c _) (Nat.le_max_left _ _)
    have hlen : ((chunks8 v.live).map byteOfBits).length = (v.live.length + 7) / 8 :=
      chunks8_map_length _
    unfold Bitvector.packBits Bitvector.serialize at hc
    split at hc
    · rename_i e
      split at e
      · cases e
      · cases e
        cases hc
        refine packBytes_len_le ?_
        rw [List.nil_append, hlen]
        omega
    · nomatch hc
    · nomatch hc
  | .bitlist n, v, hl, hb => by
    rw [Ty.rootP, values]
    refine bitsP_le (fun c hc => ?_) fun c =>
      le_bind (Nat.le_trans (merkleizeP_le E c _) (Nat.le_max_left _ _)) fun _ _ =>
        Nat.le_trans (mixP_le E _ _) (Nat.le_max_right _ _)
    have hlen : v.rawSlice.length = ((v.live ++ v.dead).length + 7) / 8 := chunks8_map_length _
    unfold Bitlist.packBits Bitlist.serializeWithLength at hc
    split at hc
    · rename_i e
      split at e
      · cases e
      · simp only [Bool.false_eq_true, if_false] at e
        cases e
        cases hc
        refine packBytes_len_le ?_
        rw [List.nil_append, hlen, List.length_append]
        omega
    · nomatch hc
    · nomatch hc
  | .option t, v, hl, hb => by
    match v with
    | none =>
      show _ ≤ 64 * 1
      exact le_bind (show 32 + 0 ≤ 64 by decide) fun _ _ => Nat.le_trans (mixP_le E _ _) (by decide)
    | some x =>
      show _ ≤ 64 * (1 + values t x)
      refine le_bind (Nat.le_trans (rootP_le E t x hl hb) (by omega)) fun _ _ =>
        le_bind (show 32 + 0 ≤ _ by omega) fun _ _ => Nat.le_trans (mixP_le E _ _) (by omega)
  | .newtype t, v, hl, hb => by
    have h1 := values_pos t v
    have h2 := rootP_le E t v hl hb
    rw [Ty.rootP, values]
    refine le_bind ?_ fun c hc => ?_
    · refine Nat.le_trans (Nat.add_le_add_left (le_bind h2 fun _ _ => Nat.zero_le _) 32) ?_
      omega
    · rw [holding_res, Peak.bind_res] at hc
      obtain ⟨r, -, hc⟩ := Res.bind_eq_ok.1 hc
      have h3 : c.length = 32 := by rw [copyInto_length hc]; rfl
      have h4 := merkleizeP_le E c none
      show c.length + (merkleizeP E c none).1 ≤ _
      omega
  | .container fs, v, hl, hb => by
    have hc := valuesF_count fs v
    have h1 := fieldsP_le E fs v hl.2.2 hb.1 0 (List.replicate ((fs.impls E).count * 32) 0)
    rw [Ty.rootP, values]
    refine le_bind ?_ fun c h => ?_
    · show (fs.impls E).count * 32 + _ ≤ _
      rw [count_impls] at h1 ⊢
      omega
    · rw [holding_res] at h
      have h3 : c.length = countF fs * 32 := by
        rw [fieldsP_length E fs _ _ _ _ h, List.length_replicate, count_impls]
      have h4 := merkleizeP_le E c none
      show c.length + (merkleizeP E c none).1 ≤ _
      omega
  | .union vs, v, hl, hb => rootPV_le E vs 0 v hl.2 hb

theorem fieldsP_le (E : Env) : ∀ (fs : Fields) (v : fs.Val), LegalF fs → BoundedF fs →
    ∀ (i : Nat) (c : Bytes), (fs.chunksP E v i c).1 + 64 * countF fs ≤ 64 * (1 + valuesF fs v)
  | .nil, _, _, _, _, _ => by show 0 + 64 * 0 ≤ 64 * (1 + 0); decide
  | .cons _ t rest, v, hl, hb, i, c => by
    have h1 := values_pos t v.1
    have h2 := valuesF_count rest v.2
    have h3 := rootP_le E t v.1 hl.1 hb.1
    have h4 := fun i c => fieldsP_le E rest v.2 hl.2 hb.2 i c
    have h5 : (Fields.chunksP E (.cons _ t rest) v i c).1 ≤
        64 * (1 + (values t v.1 + valuesF rest v.2)) - 64 * (countF rest + 1) := by
      rw [Fields.chunksP]
      refine le_bind (by omega) fun _ _ => le_free_bind fun c' _ => ?_
      have := h4 (i + 1) c'
      omega
    simp only [valuesF, countF]
    omega

theorem rootPV_le (E : Env) : ∀ (vs : Variants) (i : Nat) (v : vs.Val), LegalV vs → BoundedV vs →
    (vs.rootP E i v).1 ≤ 64 * valuesV vs v
  | .nil, _, v, _, _ => Empty.elim v
  | .unit _, _, .inl _, _, _ => Nat.le_trans (mixP_le E _ _) (show 32 ≤ 64 * 1 by decide)
  | .unit rest, i, .inr v, hl, hb => rootPV_le E rest (i + 1) v hl hb
  | .data t _, i, .inl v, hl, hb => by
    have h1 := rootP_le E t v hl.1 hb.1
    show _ ≤ 64 * (1 + values t v)
    exact le_bind (by omega) fun _ _ => Nat.le_trans (mixP_le E _ _) (by omega)
  | .data _ rest, i, .inr v, hl, hb => rootPV_le E rest (i + 1) v hl.2 hb.2

end

theorem rootMem_le (t : Ty) (v : t.Val) (hl : Legal t) (hb : Bounded t) (hv : Valid t v)
    (hm : InMemory t v) : rootMem t v ≤ 64 * values t v := by
  rw [← rootP_exact ⟨true, fun _ => zeroNode⟩ t v hl hb hv hm]
  exact rootP_le _ t v hl hb

/-- The chunks of a layer need no more than the root does, except for a `bool`. -/
theorem partsMem_le : ∀ (t : Ty) (v : t.Val), partsMem t v ≤ max (rootMem t v) 32
  | .uint _, _ => Nat.le_max_right _ _
  | .u256, _ => Nat.le_max_right _ _
  | .bool, _ => Nat.le_max_right _ _
  | .node, _ => Nat.le_max_right _ _
  | .array _ _, _ => by rw [partsMem, rootMem]; omega
  | .vector _ _, _ => by rw [partsMem, rootMem]; omega
  | .list _ _, _ => by rw [partsMem, rootMem]; omega
  | .bitvector _, _ => by rw [partsMem, rootMem]; omega
  | .bitlist _, _ => by rw [partsMem, rootMem]; omega
  | .option t, v => by
    match v with
    | none => exact Nat.le_max_right _ _
    | some x => exact Nat.le_max_left _ _
  | .newtype t, v => by
    have := partsMem_le t v
    rw [partsMem, rootMem]
    omega
  | .container _, _ => by rw [partsMem, rootMem]; omega
  | .union _, _ => Nat.le_max_left _ _

theorem partsMem_values (t : Ty) (v : t.Val) (hl : Legal t) (hb : Bounded t) (hv : Valid t v)
    (hm : InMemory t v) : partsMem t v ≤ 64 * values t v := by
  have h1 := partsMem_le t v
  have h2 := rootMem_le t v hl hb hv hm
  have h3 := values_pos t v
  omega

/-- Every proof that succeeds holds the whole tree of the layer of the value. -/
theorem proofMem_ge (t : Ty) (v : t.Val) (g : Nat) :
    32 * (2 ^ ((layer t v).height + 1) - 1) ≤ proofMem t v g := by
  rw [proofMem, Layer.mem]
  omega

theorem packs_sum {t : Ty} (hp : packs t = true) (xs : List t.Val) :
    (xs.length * fixedLen t + 31) / 32 ≤ (xs.map (values t)).sum := by
  have h : xs.length * fixedLen t ≤ 32 * (xs.map (values t)).sum := by
    induction xs with
    | nil => rw [List.length_nil, Nat.zero_mul]; exact Nat.zero_le _
    | cons x xs ih =>
      have := packs_values x hp
      rw [List.length_cons, Nat.add_mul, Nat.one_mul, List.map_cons, List.sum_cons]
      omega
  omega

theorem collParts_le {t : Ty} (xs : List t.Val) :
    (collParts t xs).length ≤ 1 + (xs.map (values t)).sum := by
  unfold collParts
  cases hp : packs t with
  | true =>
    have := packs_sum hp xs
    rw [if_pos rfl, leaves_length, flatMap_enc_length hp fun v _ => packs_valid v hp]
    omega
  | false =>
    rw [if_neg (by decide), List.length_map]
    cases xs with
    | nil => exact Nat.zero_le _
    | cons x xs =>
      have := sum_mem_others (xs := x :: xs) (fun x _ => values_pos t x) (x := x) (by simp)
      have := values_pos t x
      omega

theorem layerV_parts : ∀ (vs : Variants) (i : Nat) (v : vs.Val), (layerV vs i v).parts.length = 1
  | .nil, _, v => Empty.elim v
  | .unit _, _, .inl _ => rfl
  | .unit vs, i, .inr v => layerV_parts vs (i + 1) v
  | .data _ _, _, .inl _ => rfl
  | .data _ vs, i, .inr v => layerV_parts vs (i + 1) v

theorem layer_parts_le : ∀ (t : Ty) (v : t.Val), (layer t v).parts.length ≤ values t v
  | .uint _, _ => Nat.le_refl _
  | .u256, _ => Nat.le_refl _
  | .bool, _ => Nat.le_refl _
  | .node, _ => Nat.le_refl _
  | .array t _, v => collParts_le v.1
  | .vector t _, v => collParts_le (t := t) v
  | .list t _, v => collParts_le (t := t) v
  | .bitvector n, v => by
    show (leaves (packBits v.live)).length ≤ 1 + (v.live.length + v.dead.length + 255) / 256
    rw [leaves_length, packBits_length]
    omega
  | .bitlist n, v => by
    show (leaves (packBits v.live)).length ≤ 1 + (v.live.length + v.dead.length + 255) / 256
    rw [leaves_length, packBits_length]
    omega
  | .option t, v => by
    match v with
    | none => exact Nat.le_refl _
    | some x => exact Nat.le_add_right _ _
  | .newtype t, v => Nat.le_trans (layer_parts_le t v) (Nat.le_add_left _ _)
  | .container fs, v => by
    have := valuesF_count fs v
    have h : (layer (.container fs) v).parts.length = countF fs := treesByF_length packs fs v
    rw [h]
    show countF fs ≤ 1 + valuesF fs v
    omega
  | .union vs, v => by
    have h : (layer (.union vs) v).parts.length = 1 := layerV_parts vs 0 v
    rw [h]
    exact valuesV_pos vs v

theorem layer_height_le : ∀ (t : Ty) (v : t.Val), 2 ^ (layer t v).height ≤ room t
  | .uint _, _ => Nat.le_refl _
  | .u256, _ => Nat.le_refl _
  | .bool, _ => Nat.le_refl _
  | .node, _ => Nat.le_refl _
  | .array _ _, _ => Nat.le_add_right _ _
  | .vector _ _, _ => Nat.le_add_right _ _
  | .list _ _, _ => Nat.le_add_right _ _
  | .bitvector _, _ => Nat.le_refl _
  | .bitlist _, _ => Nat.le_refl _
  | .option t, v => by
    match v with
    | none => exact Nat.le_add_right _ _
    | some x => exact Nat.le_add_right _ _
  | .newtype t, v => layer_height_le t v
  | .container _, _ => Nat.le_add_right _ _
  | .union vs, v => by
    have h : (layer (.union vs) v).height = 1 := layerV_height vs 0 v
    rw [h]
    exact Nat.le_add_right 2 _

theorem proofMem_of {t : Ty} {v : t.Val}
    (h : ∀ q b, innerMem t v q b ≤ 64 * (values t v + room t)) (hl : Legal t) (hb : Bounded t)
    (hv : Valid t v) (hm : InMemory t v) (g : Nat) : proofMem t v g ≤ 64 * (values t v + room t) := by
  have h1 := partsMem_values t v hl hb hv hm
  have h2 := layer_parts_le t v
  have h3 := layer_height_le t v
  have h4 := Nat.two_pow_pos (layer t v).height
  have h5 := h (g / 2 ^ (Nat.log2 g - (layer t v).height) - 2 ^ (layer t v).height)
      (2 ^ (Nat.log2 g - (layer t v).height) + g % 2 ^ (Nat.log2 g - (layer t v).height))
  rw [proofMem, Layer.mem, Nat.pow_succ]
  split <;> split <;> omega

theorem zeroMem_le (b : Nat) : (leafLayer zeroNode).mem 32 (fun _ _ => 0) b = 64 := by
  show max (if Nat.log2 b ≤ 0 then 0 else 0) (max 32 (32 * 1 + (32 * (2 ^ 1 - 1) + 0))) = 64
  split <;> rfl

theorem collMem_le {t : Ty} {xs : List t.Val} {n : Nat} (w q b : Nat)
    (h : ∀ x ∈ xs, ∀ g, proofMem t x g ≤ 64 * (values t x + room t)) :
    (if n ≤ q then 0 else
      (xs[q]?.map fun x => (layer t x).mem (partsMem t x) (innerMem t x) b).getD 0) ≤
      64 * (1 + (xs.map fun x => values t x).sum + (w + room t)) := by
  by_cases hq : n ≤ q
  · rw [if_pos hq]
    exact Nat.zero_le _
  · rw [if_neg hq]
    cases hx : xs[q]? with
    | none => exact Nat.zero_le _
    | some x =>
      have hm := List.mem_of_getElem? hx
      have h1 := sum_mem_le (f := fun x => values t x) hm
      have h2 := h x hm b
      show proofMem t x b ≤ _
      omega

mutual

theorem innerMem_le : ∀ (t : Ty) (v : t.Val), Legal t → Bounded t → Valid t v → InMemory t v →
    ∀ q b, innerMem t v q b ≤ 64 * (values t v + room t)
  | .uint _, _, _, _, _, _, _, _ => Nat.zero_le _
  | .u256, _, _, _, _, _, _, _ => Nat.zero_le _
  | .bool, _, _, _, _, _, _, _ => Nat.zero_le _
  | .node, _, _, _, _, _, _, _ => Nat.zero_le _
  | .array t n, v, hl, hb, hv, hm, q, b => collMem_le (xs := v.1) _ q b fun x hx =>
      proofMem_of (innerMem_le t x hl.2 hb.1 (hv x hx) (hm.2 x hx)) hl.2 hb.1 (hv x hx) (hm.2 x hx)
  | .vector t n, v, hl, hb, hv, hm, q, b => collMem_le (xs := v) _ q b fun x hx =>
      proofMem_of (innerMem_le t x hl.2 hb.1 (hv.2 x hx) (hm.2 x hx)) hl.2 hb.1 (hv.2 x hx) (hm.2 x hx)
  | .list t n, v, hl, hb, hv, hm, q, b => collMem_le (xs := v) _ q b fun x hx =>
      proofMem_of (innerMem_le t x hl hb.1 (hv.2 x hx) (hm.2 x hx)) hl hb.1 (hv.2 x hx) (hm.2 x hx)
  | .bitvector _, _, _, _, _, _, _, _ => Nat.zero_le _
  | .bitlist _, _, _, _, _, _, _, _ => Nat.zero_le _
  | .option t, v, hl, hb, hv, hm, q, b => by
    match v with
    | none =>
      show (if 2 ≤ q then 0 else (leafLayer zeroNode).mem 32 (fun _ _ => 0) b) ≤ 64 * (1 + (2 + room t))
      rw [zeroMem_le]
      split <;> omega
    | some x =>
      have h := proofMem_of (innerMem_le t x hl hb (hv x rfl) (hm x rfl)) hl hb (hv x rfl) (hm x rfl) b
      show (if 2 ≤ q then 0 else proofMem t x b) ≤ 64 * (1 + values t x + (2 + room t))
      split <;> omega
  | .newtype t, v, hl, hb, hv, hm, q, b => by
    have h := innerMem_le t v hl hb hv hm q b
    show innerMem t v q b ≤ 64 * (1 + values t v + room t)
    omega
  | .container fs, v, hl, hb, hv, hm, q, b => by
    have h := innerMemF_le fs v hl.2.2 hb.1 hv hm q b
    have h2 := Nat.two_pow_pos (depthFor (countF fs))
    show innerMemF fs v q b ≤ 64 * (1 + valuesF fs v + (2 ^ depthFor (countF fs) + roomF fs))
    omega
  | .union vs, v, hl, hb, hv, hm, q, b => by
    have h := innerMemV_le vs v hl.2 hb hv hm b
    show (if countV vs ≤ q then 0 else innerMemV vs v b) ≤ 64 * (valuesV vs v + (2 + roomV vs))
    split <;> omega

theorem innerMemF_le : ∀ (fs : Fields) (v : fs.Val), LegalF fs → BoundedF fs → ValidF fs v →
    InMemoryF fs v → ∀ q b, innerMemF fs v q b ≤ 64 * (valuesF fs v + roomF fs)
  | .nil, _, _, _, _, _, _, _ => Nat.zero_le _
  | .cons _ t rest, v, hl, hb, hv, hm, 0, b => by
    have h := proofMem_of (innerMem_le t v.1 hl.1 hb.1 hv.1 hm.1) hl.1 hb.1 hv.1 hm.1 b
    show proofMem t v.1 b ≤ 64 * (values t v.1 + valuesF rest v.2 + (room t + roomF rest))
    omega
  | .cons _ t rest, v, hl, hb, hv, hm, q + 1, b => by
    have h := innerMemF_le rest v.2 hl.2 hb.2 hv.2 hm.2 q b
    show innerMemF rest v.2 q b ≤ 64 * (values t v.1 + valuesF rest v.2 + (room t + roomF rest))
    omega

theorem innerMemV_le : ∀ (vs : Variants) (v : vs.Val), LegalV vs → BoundedV vs → ValidV vs v →
    InMemoryV vs v → ∀ b, innerMemV vs v b ≤ 64 * (valuesV vs v + roomV vs)
  | .nil, v, _, _, _, _, _ => Empty.elim v
  | .unit rest, .inl _, _, _, _, _, b => by
    show (leafLayer zeroNode).mem 32 (fun _ _ => 0) b ≤ 64 * (1 + roomV rest)
    rw [zeroMem_le]
    omega
  | .unit rest, .inr v, hl, hb, hv, hm, b => innerMemV_le rest v hl hb hv hm b
  | .data t rest, .inl v, hl, hb, hv, hm, b => by
    have h := proofMem_of (innerMem_le t v hl.1 hb.1 hv hm) hl.1 hb.1 hv hm b
    show proofMem t v b ≤ 64 * (1 + values t v + (room t + roomV rest))
    omega
  | .data t rest, .inr v, hl, hb, hv, hm, b => by
    have h := innerMemV_le rest v hl.2 hb.2 hv hm b
    show innerMemV rest v b ≤ 64 * (valuesV rest v + (room t + roomV rest))
    omega

end

theorem proofMem_le (t : Ty) (v : t.Val) (hl : Legal t) (hb : Bounded t) (hv : Valid t v)
    (hm : InMemory t v) (g : Nat) : proofMem t v g ≤ 64 * (values t v + room t) :=
  proofMem_of (innerMem_le t v hl hb hv hm) hl hb hv hm g

end Ssz
