import Verif.Model.ProveCost
import Verif.Spec.ProveCost
import Verif.Proofs.Cost
import Verif.Proofs.Answer

/-!
# What proving costs: proofs
-/

namespace Ssz

open Spec Counted

/-! ## Without the counters the functions are the same -/

theorem treeMixC_res (E : Env) (tree : Tree) (d : Nat) :
    (Tree.mixInDecorationC E tree d).2 = Tree.mixInDecoration E tree d := by
  simp only [Tree.mixInDecorationC, Tree.mixInDecoration, bind_res, free_res, hash_res]

theorem computeProofC_res {α : Type} (E : Env) (T : SimpleSerialize α) {ch : α → Counted Bytes}
    {pe : α → Nat → Prover → Counted Prover} {v : α} (h1 : (ch v).2 = T.chunks v)
    (h2 : ∀ i p, (pe v i p).2 = T.proveElement v i p) (pr : Prover) :
    (computeProofC E T ch pe v pr).2 = computeProof E T v pr := by
  have hi : ∀ {β : Type} (c : Prop) [Decidable c] (x y : Counted β),
      (if c then x else y).2 = if c then x.2 else y.2 := by
    intro β c _ x y; split <;> rfl
  unfold computeProofC computeProof
  cases hd : T.decoration v <;>
  simp only [bind_res, free_res, hi, h1, h2, computeMerkleTreeC_res, treeMixC_res, res_ite_bind,
    Res.bind_assoc, Res.ok_bind, Option.isSome_none, Option.isSome_some, Bool.false_eq_true, if_false,
    if_true]

theorem Variants.chunksC_res (E : Env) : ∀ (vs : Variants) (v : vs.Val),
    (vs.chunksC E v).2 = (vs.impls E).chunks v
  | .nil, v => Empty.elim v
  | .unit _, .inl _ => rfl
  | .unit rest, .inr v => Variants.chunksC_res E rest v
  | .data t _, .inl v => by
    show (t.rootC E v >>= fun root => free (.ok root.1)).2 = ((t.impl E).hashTreeRoot v).map (·.1)
    rw [bind_res, rootC_res]
    cases (t.impl E).hashTreeRoot v <;> rfl
  | .data _ rest, .inr v => Variants.chunksC_res E rest v

theorem Ty.chunksC_res (E : Env) : ∀ (t : Ty) (v : t.Val), (t.chunksC E v).2 = (t.impl E).chunks v
  | .uint _, _ => rfl
  | .u256, _ => rfl
  | .bool, _ => rfl
  | .node, _ => rfl
  | .array t _, v => assembleC_res E (t.impl E) (rootC_res E t) v.1
  | .vector t _, v => assembleC_res E (t.impl E) (rootC_res E t) v
  | .list t _, v => assembleC_res E (t.impl E) (rootC_res E t) v
  | .bitvector _, _ => rfl
  | .bitlist _, _ => rfl
  | .option t, v => by
    match v with
    | none => rfl
    | some x =>
      show (t.rootC E x >>= fun root => free (.ok root.1)).2 = ((t.impl E).hashTreeRoot x).map (·.1)
      rw [bind_res, rootC_res]
      cases (t.impl E).hashTreeRoot x <;> rfl
  | .newtype t, v => Ty.chunksC_res E t v
  | .container fs, v => Ssz.chunksC_res E fs v 0 _
  | .union vs, v => Variants.chunksC_res E vs v

theorem zeroProofC_res (E : Env) (p : Prover) :
    (zeroProofC E p).2 = computeProof E (SimpleSerialize.uint .usize) (0 : BitVec 64) p :=
  computeProofC_res E _ rfl (fun _ _ => rfl) p

theorem collectionC_res {α : Type} (E : Env) (T : SimpleSerialize α)
    {compute : α → Prover → Counted Prover} {n : Nat} {xs : List α}
    (h : ∀ x p, (compute x p).2 = computeProof E T x p) (i : Nat) (p : Prover) :
    (collectionProveElementC compute n xs i p).2 = collectionProveElement E T n xs i p := by
  unfold collectionProveElementC collectionProveElement
  split
  · rfl
  · simp only [bind_res, free_res, h]

mutual

theorem proveElementC_res (E : Env) : ∀ (t : Ty) (v : t.Val) (i : Nat) (p : Prover),
    (t.proveElementC E v i p).2 = (t.impl E).proveElement v i p
  | .uint _, _, _, _ => rfl
  | .u256, _, _, _ => rfl
  | .bool, _, _, _ => rfl
  | .node, _, _, _ => rfl
  | .array t n, v, i, p => collectionC_res E (t.impl E) (xs := v.1) (fun x =>
      computeProofC_res E (t.impl E) (Ty.chunksC_res E t x) (proveElementC_res E t x)) i p
  | .vector t n, v, i, p => collectionC_res E (t.impl E) (xs := v) (fun x =>
      computeProofC_res E (t.impl E) (Ty.chunksC_res E t x) (proveElementC_res E t x)) i p
  | .list t n, v, i, p => collectionC_res E (t.impl E) (xs := v) (fun x =>
      computeProofC_res E (t.impl E) (Ty.chunksC_res E t x) (proveElementC_res E t x)) i p
  | .bitvector _, _, _, _ => rfl
  | .bitlist _, _, _, _ => rfl
  | .option t, v, i, p => by
    match v with
    | none =>
      show (if i ≥ 2 then _ else zeroProofC E p).2 = if i ≥ 2 then _ else _
      split
      · rfl
      · exact zeroProofC_res E p
    | some x =>
      show (if i ≥ 2 then _ else computeProofC E (t.impl E) (t.chunksC E)
        (fun x i p => t.proveElementC E x i p) x p).2 = if i ≥ 2 then _ else _
      split
      · rfl
      · exact computeProofC_res E (t.impl E) (Ty.chunksC_res E t x) (proveElementC_res E t x) p
  | .newtype t, v, i, p => proveElementC_res E t v i p
  | .container fs, v, i, p => by
    show (if i ≥ (fs.impls E).count then _ else fs.proveFieldC E v i p).2 =
      if i ≥ (fs.impls E).count then _ else _
    split
    · rfl
    · exact proveFieldC_res E fs v i p
  | .union vs, v, i, p => by
    show (if i ≥ (vs.impls E).count then _ else vs.proveVariantC E v p).2 =
      if i ≥ (vs.impls E).count then _ else _
    split
    · rfl
    · exact proveVariantC_res E vs v p

theorem proveFieldC_res (E : Env) : ∀ (fs : Fields) (v : fs.Val) (i : Nat) (p : Prover),
    (fs.proveFieldC E v i p).2 = (fs.impls E).proveField E p v i
  | .nil, _, _, _ => rfl
  | .cons _ t _, v, 0, p =>
    computeProofC_res E (t.impl E) (Ty.chunksC_res E t v.1) (proveElementC_res E t v.1) p
  | .cons _ _ rest, v, i + 1, p => proveFieldC_res E rest v.2 i p

theorem proveVariantC_res (E : Env) : ∀ (vs : Variants) (v : vs.Val) (p : Prover),
    (vs.proveVariantC E v p).2 = (vs.impls E).proveVariant E p v
  | .nil, v, _ => Empty.elim v
  | .unit _, .inl _, p => zeroProofC_res E p
  | .unit rest, .inr v, p => proveVariantC_res E rest v p
  | .data t _, .inl v, p =>
    computeProofC_res E (t.impl E) (Ty.chunksC_res E t v) (proveElementC_res E t v) p
  | .data _ rest, .inr v, p => proveVariantC_res E rest v p

end

theorem tyComputeProofC_res (E : Env) (t : Ty) (v : t.Val) (p : Prover) :
    (t.computeProofC E v p).2 = computeProof E (t.impl E) v p :=
  computeProofC_res E (t.impl E) (Ty.chunksC_res E t v) (proveElementC_res E t v) p

theorem proveC_res (E : Env) (t : Ty) (v : t.Val) (path : List PathElement) :
    (t.proveC E v path).2 = prove E (t.impl E) v path := by
  simp only [Ty.proveC, prove, bind_res, free_res, tyComputeProofC_res]

/-! ## Exact costs -/

/-- The computation calls the hash function `n` times if it succeeds, and not more often otherwise. -/
def Costs {α : Type} (x : Counted α) (n : Nat) : Prop :=
  x.1.hashes ≤ n ∧ ∀ a, x.2 = .ok a → x.1.hashes = n

section
variable {α β : Type}

theorem costs_free (r : Res MerkError α) : Costs (free r) 0 := ⟨Nat.le_refl _, fun _ _ => rfl⟩

theorem costs_hash (r : Res MerkError α) : Costs (hash r) 1 := ⟨Nat.le_refl _, fun _ _ => rfl⟩

theorem costs_bind {x : Counted α} {f : α → Counted β} {n m : Nat} (h1 : Costs x n)
    (h2 : ∀ a, x.2 = .ok a → Costs (f a) m) : Costs (x >>= f) (n + m) := by
  obtain ⟨h3, h4⟩ := h1
  refine ⟨?_, fun b hb => ?_⟩
  · show (Counted.bind x f).1.hashes ≤ _
    unfold Counted.bind
    split
    · rename_i a e
      have := (h2 a e).1
      show x.1.hashes + (f a).1.hashes ≤ _
      omega
    · show x.1.hashes ≤ _; omega
    · show x.1.hashes ≤ _; omega
  · obtain ⟨a, h5, h6, h7⟩ := bind_hashes hb
    rw [h7, h4 a h5, (h2 a h5).2 b h6]

theorem costs_free_bind {r : Res MerkError α} {f : α → Counted β} {m : Nat}
    (h : ∀ a, r = .ok a → Costs (f a) m) : Costs (free r >>= f) m :=
  Nat.zero_add m ▸ costs_bind (costs_free r) h

theorem costs_bind_free {x : Counted α} {r : α → Res MerkError β} {n : Nat} (h : Costs x n) :
    Costs (x >>= fun a => free (r a)) n :=
  costs_bind h fun _ _ => costs_free _

theorem costs_step_bind {f : Unit → Counted β} {m : Nat} (h : Costs (f ()) m) :
    Costs (step >>= f) m :=
  Nat.zero_add m ▸ costs_bind (x := step) ⟨Nat.le_refl _, fun _ _ => rfl⟩ fun _ _ => h

theorem costs_mono {x : Counted α} {n m : Nat} (h : Costs x n) (e : n = m) : Costs x m := e ▸ h

end

theorem packLoopC_costs {α : Type} (T : Serializable α) (vs : List α) (buf : Bytes) :
    Costs (packLoopC T vs buf) 0 := by
  induction vs generalizing buf with
  | nil => exact costs_free _
  | cons v vs ih =>
    rw [packLoopC]
    refine costs_step_bind ?_
    split
    · exact ih _
    · exact costs_free _
    · exact costs_free _

theorem elementsLoopC_costs {α : Type} {f : α → Counted Node} {w : α → Nat} (xs : List α)
    (h : ∀ x ∈ xs, Costs (f x) (w x)) (i : Nat) (chunks : Bytes) :
    Costs (elementsToChunksLoopC f i xs chunks) (xs.map w).sum := by
  induction xs generalizing i chunks with
  | nil => exact costs_free _
  | cons x xs ih =>
    rw [elementsToChunksLoopC, List.map_cons, List.sum_cons]
    exact costs_step_bind (costs_bind (h x (by simp)) fun _ _ => costs_free_bind fun _ _ =>
      ih (fun y hy => h y (by simp [hy])) _ _)

theorem assembleC_costs (E : Env) {t : Ty} {xs : List t.Val}
    (h : ∀ x ∈ xs, Costs (t.rootC E x) (rootCost t x)) :
    Costs (assembleChunksC E (t.impl E) (fun x => t.rootC E x) xs)
      (if packs t then 0 else (xs.map fun x => rootCost t x).sum) := by
  unfold assembleChunksC
  rw [impl_isComposite]
  cases hp : packs t with
  | false =>
    exact costs_free_bind fun _ _ => costs_free_bind fun _ _ =>
      elementsLoopC_costs (f := fun x => t.rootC E x) (w := fun x => rootCost t x) xs h _ _
  | true => exact costs_bind_free (packLoopC_costs _ _ _)

theorem mixC_costs (E : Env) (root : Node) (n : Nat) : Costs (mixInDecorationC E root n) 1 := by
  unfold mixInDecorationC
  split
  · exact costs_hash _
  · exact ⟨Nat.zero_le _, fun _ h => by nomatch h⟩
  · exact ⟨Nat.zero_le _, fun _ h => by nomatch h⟩

theorem merkC_none_costs (E : Env) {ns : List Node} {k : Nat} (hk : ns.length = k) (h : k ≤ 2 ^ 63) :
    Costs (merkleizeC E (flat ns) none) (above (depthFor k) k) := by
  subst hk
  rw [← merkleizeC_none_hashes E ns h]
  exact ⟨Nat.le_refl _, fun _ _ => rfl⟩

theorem merkC_some_costs (E : Env) {ns : List Node} {k l : Nat} (hk : ns.length = k) (h : k ≤ l)
    (hl : l ≤ 2 ^ 63) : Costs (merkleizeC E (flat ns) (some l)) (above (depthFor l) k) := by
  subst hk
  rw [← merkleizeC_some_hashes E ns h hl]
  exact ⟨Nat.le_refl _, fun _ _ => rfl⟩

theorem treeLoopC_costs (E : Env) (i : Nat) (b : Bytes) : Costs (treeLoopC E i b) ((i + 1) / 2) := by
  induction i using Nat.strongRecOn generalizing b with
  | _ i ih =>
    cases i with
    | zero => rw [treeLoopC]; exact costs_free _
    | succ i =>
      rw [treeLoopC]
      exact costs_mono (costs_step_bind <| costs_free_bind fun _ _ => costs_free_bind fun _ _ =>
        costs_free_bind fun _ _ => costs_bind (costs_hash _) fun _ _ => ih (i - 1) (by omega) _)
        (by omega)

theorem treeC_costs (E : Env) (chunks : Bytes) {n : Nat} (h0 : 0 < n) (hn : n < 2 ^ 63) :
    Costs (computeMerkleTreeC E chunks n) (n - 1) := by
  unfold computeMerkleTreeC
  refine costs_free_bind fun _ _ => costs_free_bind fun _ _ => costs_free_bind fun a h1 =>
    costs_free_bind fun b h2 => costs_free_bind fun _ _ => costs_free_bind fun _ _ =>
    costs_free_bind fun _ _ => costs_free_bind fun _ _ => costs_free_bind fun _ _ =>
    costs_free_bind fun _ _ => costs_mono (treeLoopC_costs E _ _) ?_
  rw [Env.mul, if_pos (by simp only [usizeMod]; omega), Res.lift_ok] at h1
  cases h1
  rw [Env.sub, if_pos (by omega), Res.lift_ok] at h2
  cases h2
  omega

theorem treeMixC_costs (E : Env) (tree : Tree) (d : Nat) : Costs (Tree.mixInDecorationC E tree d) 1 :=
  costs_free_bind fun _ _ => costs_free_bind fun _ _ => costs_free_bind fun _ _ =>
    costs_free_bind fun _ _ => costs_free_bind fun _ _ => costs_hash _

/-! ## Roots of whole values -/

theorem pairC_costs {E : Env} {x : Counted Node} {n m : Nat} (h : Costs x n) :
    Costs (x >>= fun node => free (toNode node.1) >>= fun c => mixInDecorationC E c m) (n + 1) :=
  costs_bind h fun _ _ => costs_free_bind fun _ _ => mixC_costs E _ _

theorem vectorC_costs (E : Env) {t : Ty} {n : Nat} {xs : List t.Val} (hl : Legal t)
    (hs : packs t = true → fixedLen t < 2 ^ 32) (hv : ∀ x ∈ xs, Valid t x) (hh : held t xs.length)
    (hn : xs.length = n)
    (hr : ∀ v ∈ xs, (t.impl E).hashTreeRoot v = .ok ((treeBy packs t v).root E.sha256))
    (h : ∀ x ∈ xs, Costs (t.rootC E x) (rootCost t x)) :
    Costs (assembleChunksC E (t.impl E) (fun x => t.rootC E x) xs >>= fun c => merkleizeC E c none)
      ((if packs t then 0 else (xs.map fun x => rootCost t x).sum) +
        above (depthFor (chunkCountBy packs t n)) (chunkCountBy packs t n)) := by
  refine costs_bind (assembleC_costs E h) fun c hc => ?_
  rw [assembleC_res E (t.impl E) (rootC_res E t), assembleChunks_ok E hl hs hv hh hr] at hc
  cases hc
  have h2 := held_chunks hh
  subst hn
  exact merkC_none_costs E (by rw [List.length_map, partsOf_length hv]) (by omega)

theorem listC_costs (E : Env) {t : Ty} {n : Nat} {xs : List t.Val} (hl : Legal t)
    (hs : packs t = true → fixedLen t < 2 ^ 32)
    (hb : if packs t then n * fixedLen t < 2 ^ 64 else n ≤ 2 ^ 63)
    (hv : ∀ x ∈ xs, Valid t x) (hh : held t xs.length) (hn : xs.length ≤ n)
    (hr : ∀ v ∈ xs, (t.impl E).hashTreeRoot v = .ok ((treeBy packs t v).root E.sha256))
    (h : ∀ x ∈ xs, Costs (t.rootC E x) (rootCost t x)) :
    Costs ((Ty.list t n).rootC E xs)
      ((if packs t then 0 else (xs.map fun x => rootCost t x).sum) +
        above (depthFor (chunkCountBy packs t n)) (chunkCountBy packs t xs.length) + 1) := by
  have h1 := partsOf_length hv
  have h2 : chunkCountBy packs t xs.length ≤ chunkCountBy packs t n := chunkCountBy_le hn
  show Costs (do
    let chunks ← assembleChunksC E (t.impl E) (fun x => t.rootC E x) xs
    let dataRoot ←
      if (t.impl E).isCompositeType then merkleizeC E chunks (some n)
      else do
        let count ← free (listChunkCount E (t.impl E) n).lift
        merkleizeC E chunks (some count)
    mixInDecorationC E dataRoot xs.length) _
  refine costs_mono (costs_bind (assembleC_costs E h) fun c hc => ?_) (Nat.add_assoc _ _ _).symm
  rw [assembleC_res E (t.impl E) (rootC_res E t), assembleChunks_ok E hl hs hv hh hr] at hc
  cases hc
  rw [impl_isComposite]
  by_cases hp : packs t = true
  · rw [if_pos hp] at hb
    have h4 : chunkCountBy packs t n ≤ 2 ^ 63 := by
      rw [chunkCountBy, if_pos hp]; omega
    simp only [hp, Bool.not_true, Bool.false_eq_true, if_false]
    refine costs_free_bind fun k hk => costs_bind ?_ fun _ _ => mixC_costs E _ _
    rw [listChunkCount_ok E hl hp (hs hp) hb, Res.lift_ok] at hk
    cases hk
    exact merkC_some_costs E (by rw [List.length_map, h1]) h2 h4
  · rw [if_neg hp] at hb
    have h4 : chunkCountBy packs t n = n := by rw [chunkCountBy, if_neg hp]
    simp only [hp, Bool.not_false, if_true]
    refine costs_bind ?_ fun _ _ => mixC_costs E _ _
    rw [h4]
    exact merkC_some_costs E (by rw [List.length_map, h1]) (by omega) hb

mutual

theorem rootC_costs (E : Env) : ∀ (t : Ty) (v : t.Val), Legal t → Bounded t → Valid t v →
    InMemory t v → Costs (t.rootC E v) (rootCost t v)
  | .uint _, _, _, _, _, _ => costs_free _
  | .u256, _, _, _, _, _ => costs_free _
  | .bool, _, _, _, _, _ => costs_free _
  | .node, _, _, _, _, _ => costs_free _
  | .array t n, v, hl, hb, hv, hm => by
    rw [Ty.rootC, rootCost]
    exact vectorC_costs E hl.2 hb.2 hv hm.1 v.2
      (fun x hx => htr_ok E t x hl.2 hb.1 (hv x hx) (hm.2 x hx))
      (fun x hx => rootC_costs E t x hl.2 hb.1 (hv x hx) (hm.2 x hx))
  | .vector t n, v, hl, hb, hv, hm => by
    rw [Ty.rootC, rootCost]
    exact vectorC_costs E hl.2 hb.2 hv.2 hm.1 hv.1
      (fun x hx => htr_ok E t x hl.2 hb.1 (hv.2 x hx) (hm.2 x hx))
      (fun x hx => rootC_costs E t x hl.2 hb.1 (hv.2 x hx) (hm.2 x hx))
  | .list t n, v, hl, hb, hv, hm => by
    rw [rootCost]
    exact listC_costs E hl hb.2.1 hb.2.2 hv.2 hm.1 hv.1
      (fun x hx => htr_ok E t x hl hb.1 (hv.2 x hx) (hm.2 x hx))
      (fun x hx => rootC_costs E t x hl hb.1 (hv.2 x hx) (hm.2 x hx))
  | .bitvector n, v, hl, hb, hv, _ => by
    rw [Ty.rootC, rootCost]
    simp only [Valid] at hv
    simp only [Bounded] at hb
    refine costs_free_bind fun c hc => ?_
    rw [Bitvector.packBits_ok hl hv] at hc
    cases hc
    exact merkC_some_costs E (by rw [chunkify_bits_length, hv]) (Nat.le_refl _)
      (by unfold bitsChunkCount; omega)
  | .bitlist n, v, hl, hb, hv, _ => by
    rw [Ty.rootC, rootCost]
    obtain ⟨hv, hc⟩ := hv
    simp only [Bounded] at hb
    refine costs_free_bind fun c h => costs_bind ?_ fun _ _ => mixC_costs E _ _
    rw [Bitlist.packBits_ok hv hc] at h
    cases h
    exact merkC_some_costs E (by rw [chunkify_bits_length]) (by unfold bitsChunkCount; omega)
      (by unfold bitsChunkCount; omega)
  | .option t, v, hl, hb, hv, hm => by
    match v with
    | none => exact costs_free_bind fun _ _ => mixC_costs E _ _
    | some x => exact pairC_costs (rootC_costs E t x hl hb (hv x rfl) (hm x rfl))
  | .newtype t, v, hl, hb, hv, hm => by
    rw [Ty.rootC, rootCost]
    refine costs_mono (costs_bind (rootC_costs E t v hl hb hv hm) fun r _ =>
      costs_free_bind fun c hc => ?_) (Nat.add_zero _)
    rw [← flat_replicate, copyInto_flat (ns := List.replicate 1 zeroNode) (i := 0) r
      (by simp) rfl rfl rfl] at hc
    cases hc
    exact merkC_none_costs E (k := 1) (by simp) (by decide)
  | .container fs, v, hl, hb, hv, hm => by
    rw [Ty.rootC, rootCost]
    refine costs_bind (fieldsC_costs E fs v hl.2.2 hb.1 hv hm _ _) fun c hc => ?_
    replace hc := (chunksC_res E fs v 0 _).symm.trans hc
    rw [count_impls, ← flat_replicate] at hc
    replace hc := (htrF_ok E fs v [] hl.2.2 hb.1 hv hm).symm.trans hc
    cases hc
    have := hb.2
    exact merkC_none_costs E (by rw [List.nil_append, List.length_map]; exact treesByF_length packs fs v) (by omega)
  | .union vs, v, hl, hb, hv, hm => by
    rw [Ty.rootC, rootCost]
    exact rootCV_costs E vs 0 v hl.2 hb hv hm

theorem fieldsC_costs (E : Env) : ∀ (fs : Fields) (v : fs.Val), LegalF fs → BoundedF fs →
    ValidF fs v → InMemoryF fs v → ∀ i c, Costs (fs.chunksC E v i c) (rootCostF fs v)
  | .nil, _, _, _, _, _, _, _ => costs_free _
  | .cons _ t rest, v, hl, hb, hv, hm, i, c => by
    rw [Fields.chunksC, rootCostF]
    exact costs_step_bind (costs_bind (rootC_costs E t v.1 hl.1 hb.1 hv.1 hm.1) fun _ _ =>
      costs_free_bind fun _ _ => fieldsC_costs E rest v.2 hl.2 hb.2 hv.2 hm.2 _ _)

theorem rootCV_costs (E : Env) : ∀ (vs : Variants) (i : Nat) (v : vs.Val), LegalV vs → BoundedV vs →
    ValidV vs v → InMemoryV vs v → Costs (vs.rootC E i v) (rootCostV vs v + 1)
  | .nil, _, v, _, _, _, _ => Empty.elim v
  | .unit _, _, .inl _, _, _, _, _ => mixC_costs E _ _
  | .unit rest, i, .inr v, hl, hb, hv, hm => rootCV_costs E rest (i + 1) v hl hb hv hm
  | .data t _, i, .inl v, hl, hb, hv, hm =>
    costs_bind (rootC_costs E t v hl.1 hb.1 hv hm) fun _ _ => mixC_costs E _ _
  | .data _ rest, i, .inr v, hl, hb, hv, hm => rootCV_costs E rest (i + 1) v hl.2 hb.2 hv hm

end

theorem Variants.chunksC_costs (E : Env) : ∀ (vs : Variants) (v : vs.Val), LegalV vs → BoundedV vs →
    ValidV vs v → InMemoryV vs v → Costs (vs.chunksC E v) (rootCostV vs v)
  | .nil, v, _, _, _, _ => Empty.elim v
  | .unit _, .inl _, _, _, _, _ => costs_free _
  | .unit rest, .inr v, hl, hb, hv, hm => Variants.chunksC_costs E rest v hl hb hv hm
  | .data t _, .inl v, hl, hb, hv, hm => costs_bind_free (rootC_costs E t v hl.1 hb.1 hv hm)
  | .data _ rest, .inr v, hl, hb, hv, hm => Variants.chunksC_costs E rest v hl.2 hb.2 hv hm

theorem Ty.chunksC_costs (E : Env) : ∀ (t : Ty) (v : t.Val), Legal t → Bounded t → Valid t v →
    InMemory t v → Costs (t.chunksC E v) (partsCost t v)
  | .uint _, _, _, _, _, _ => costs_free _
  | .u256, _, _, _, _, _ => costs_free _
  | .bool, _, _, _, _, _ => costs_free _
  | .node, _, _, _, _, _ => costs_free _
  | .array t n, v, hl, hb, hv, hm =>
    assembleC_costs E fun x hx => rootC_costs E t x hl.2 hb.1 (hv x hx) (hm.2 x hx)
  | .vector t n, v, hl, hb, hv, hm =>
    assembleC_costs E (xs := v) fun x hx => rootC_costs E t x hl.2 hb.1 (hv.2 x hx) (hm.2 x hx)
  | .list t n, v, hl, hb, hv, hm =>
    assembleC_costs E (xs := v) fun x hx => rootC_costs E t x hl hb.1 (hv.2 x hx) (hm.2 x hx)
  | .bitvector _, _, _, _, _, _ => costs_free _
  | .bitlist _, _, _, _, _, _ => costs_free _
  | .option t, v, hl, hb, hv, hm => by
    match v with
    | none => exact costs_free _
    | some x => exact costs_bind_free (rootC_costs E t x hl hb (hv x rfl) (hm x rfl))
  | .newtype t, v, hl, hb, hv, hm => Ty.chunksC_costs E t v hl hb hv hm
  | .container fs, v, hl, hb, hv, hm => fieldsC_costs E fs v hl.2.2 hb.1 hv hm _ _
  | .union vs, v, hl, hb, hv, hm => Variants.chunksC_costs E vs v hl.2 hb hv hm

/-! ## The prover -/

theorem layerC_costs {α : Type} {E : Env} {T : SimpleSerialize α} {v : α} {ts : List MTree} {c : Nat}
    {deco : Option Nat} (h : Pre E T v ts c deco) {ch : α → Counted Bytes}
    {pe : α → Nat → Prover → Counted Prover} {P : Nat} {inner : Nat → Nat → Nat}
    (hc : Costs (ch v) P)
    (hi : ∀ (q : Nat) (pr : Prover), pr.proof.index < 2 ^ 64 →
      Costs (pe v q pr) (inner q pr.proof.index))
    (pr : Prover) (hg : pr.proof.index < 2 ^ 64) :
    Costs (computeProofC E T ch pe v pr) ((layerOf ts c deco).cost P inner pr.proof.index) := by
  have hd := partsDepth_le h.countLe deco
  have h63 : 2 ^ partsDepth c deco < 2 ^ 63 := Nat.pow_lt_pow_right (by decide) (by omega)
  unfold computeProofC
  refine costs_free_bind fun a ha => costs_free_bind fun b hb => costs_free_bind fun l hl => ?_
  have hl2 : l = 2 ^ partsDepth c deco := by
    have := leafCount_ok h
    rw [h.count, Res.lift_ok] at ha
    cases ha
    rw [nextPowerOfTwo_ok (Nat.le_trans h.countLe (by decide)), Res.lift_ok] at hb
    cases hb
    rw [h.decoration, this] at hl
    cases hl
    rfl
  subst hl2
  refine costs_free_bind fun x hx => ?_
  obtain ⟨ld, li, lg⟩ := x
  rw [Layer.cost, layerOf_height]
  have hrest : ∀ p1 : Prover, Costs (ch v >>= fun chunks =>
      computeMerkleTreeC E chunks (2 ^ partsDepth c deco) >>= fun tree0 =>
      (match T.decoration v with
        | some d => Tree.mixInDecorationC E tree0 d
        | none => free (.ok tree0) : Counted Tree) >>= fun tree =>
      free (if !decide (lg < pr.proof.index) then
        (do let l ← Tree.get E tree pr.proof.index
            toNode l : Res MerkError Node)
        else .ok p1.proof.leaf) >>= fun leaf =>
      free (siblingsLoop E tree ld lg p1.proof.branch) >>= fun branch =>
      free (Tree.get E tree 1) >>= fun rootBytes =>
      free (toNode rootBytes) >>= fun root =>
      free (.ok ({ proof := { leaf := leaf, branch := branch, index := p1.proof.index }
                   witness := root } : Prover)))
      (P + (2 ^ partsDepth c deco - 1) + if (layerOf ts c deco).mixed.isSome then 1 else 0) := by
    intro p1
    refine costs_mono (costs_bind hc fun _ _ => costs_bind (treeC_costs E _ (Nat.two_pow_pos _) h63)
      fun _ _ => costs_bind (n := if deco.isSome then 1 else 0) (m := 0) ?_ fun _ _ =>
        costs_free_bind fun _ _ => costs_free_bind fun _ _ => costs_free_bind fun _ _ =>
        costs_free_bind fun _ _ => costs_free _) ?_
    · rw [h.decoration]
      cases deco with
      | none => exact costs_free _
      | some d => exact treeMixC_costs E _ d
    · show P + (_ + (_ + 0)) = P + _ + if deco.isSome then 1 else 0
      omega
  rcases Nat.eq_zero_or_pos pr.proof.index with h0 | h0
  · rw [h0, coordinates_zero E hd] at hx
    nomatch hx
  · obtain ⟨e, j, hj, hge⟩ := exists_pow_add h0
    have hlog : Nat.log2 pr.proof.index = e := by rw [hge, log2_pow_add hj]
    by_cases he : e ≤ partsDepth c deco
    · have hlt : pr.proof.index < 2 ^ (partsDepth c deco + 1) := by
        have := Nat.pow_le_pow_right (show 0 < 2 by decide) he
        rw [hge, Nat.pow_succ]; omega
      have hsh : shrinkIndex (2 ^ (partsDepth c deco + 1) - 1) pr.proof.index = pr.proof.index :=
        shrink_id (by omega)
      rw [coordinates_ok E hd (by rw [hsh]; exact h0) (by rw [hsh]; exact hg), hsh] at hx
      cases hx
      rw [if_pos (show Nat.log2 pr.proof.index ≤ partsDepth c deco by omega), Nat.add_zero]
      dsimp only
      rw [if_neg (Nat.lt_irrefl _)]
      exact costs_free_bind fun p1 _ => hrest p1
    · obtain ⟨k, rfl⟩ : ∃ k, e = partsDepth c deco + (k + 1) := ⟨e - partsDepth c deco - 1, by omega⟩
      have hq : j / 2 ^ (k + 1) < 2 ^ partsDepth c deco := by
        rw [Nat.div_lt_iff_lt_mul (Nat.two_pow_pos _), ← Nat.pow_add]; exact hj
      have hsh : shrinkIndex (2 ^ (partsDepth c deco + 1) - 1) pr.proof.index =
          2 ^ partsDepth c deco + j / 2 ^ (k + 1) := by rw [hge]; exact shrink_pow hj
      have hdiv : pr.proof.index / 2 ^ (k + 1) = 2 ^ partsDepth c deco + j / 2 ^ (k + 1) := by
        rw [hge, Nat.pow_add, Nat.mul_comm, Nat.mul_add_div (Nat.two_pow_pos _)]
      have hpos := Nat.two_pow_pos (partsDepth c deco)
      have h57 := pow57 hd
      rw [coordinates_ok E hd (by rw [hsh]; exact Nat.le_trans hpos (Nat.le_add_right _ _))
        (by rw [hsh]; omega), hsh, log2_pow_add hq,
        Nat.add_mod_left, Nat.mod_eq_of_lt hq] at hx
      cases hx
      have hk : 2 ≤ 2 ^ (k + 1) := by rw [Nat.pow_succ]; have := Nat.two_pow_pos k; omega
      have hlt : 2 ^ partsDepth c deco + j / 2 ^ (k + 1) < pr.proof.index := by
        rw [← hdiv]
        exact Nat.div_lt_self h0 (by omega)
      have hm := Nat.mod_lt pr.proof.index (Nat.two_pow_pos (k + 1))
      have hk64 : k + 1 < 64 := by
        have := log2_lt64 hg
        omega
      have h64 : 2 ^ (k + 1) + pr.proof.index % 2 ^ (k + 1) < 2 ^ 64 := by
        have : pr.proof.index / 2 ^ (k + 1) * 2 ^ (k + 1) + pr.proof.index % 2 ^ (k + 1) =
          pr.proof.index := by rw [Nat.mul_comm]; exact Nat.div_add_mod _ _
        have h2 : 1 * 2 ^ (k + 1) ≤ pr.proof.index / 2 ^ (k + 1) * 2 ^ (k + 1) :=
          Nat.mul_le_mul_right _ (by rw [hdiv]; exact Nat.le_trans hpos (Nat.le_add_right _ _))
        omega
      rw [if_neg (show ¬ Nat.log2 pr.proof.index ≤ partsDepth c deco by omega), hlog,
        show partsDepth c deco + (k + 1) - partsDepth c deco = k + 1 by omega, hdiv,
        Nat.add_sub_cancel_left]
      dsimp only
      rw [if_pos hlt]
      refine costs_mono (costs_bind (n := inner (j / 2 ^ (k + 1))
        (2 ^ (k + 1) + pr.proof.index % 2 ^ (k + 1))) ?_ fun p1 _ => hrest p1) (Nat.add_comm _ _)
      refine costs_free_bind fun a1 h1 => costs_free_bind fun a2 h2 => costs_free_bind fun a3 h3 =>
        costs_free_bind fun a4 h4 => costs_free_bind fun a5 h5 => ?_
      rw [getDepth_ok h0, hlog] at h1
      cases h1
      rw [Env.sub_eq_ok (by omega), Res.lift_ok] at h2
      cases h2
      rw [show partsDepth c deco + (k + 1) - partsDepth c deco = k + 1 by omega, pow2_ok hk64,
        Res.lift_ok] at h3
      cases h3
      rw [usizeRem_pow] at h4
      cases h4
      rw [Env.add_eq_ok (by simp only [usizeMod]; omega), Res.lift_ok] at h5
      cases h5
      exact costs_bind_free (hi _ _ h64)

/-- The prover's functions have the layer and cost what the parts cost. -/
def HasCost {α : Type} (E : Env) (T : SimpleSerialize α) (ch : α → Counted Bytes)
    (pe : α → Nat → Prover → Counted Prover) (v : α) (l : Layer) (P : Nat) (inner : Nat → Nat → Nat) :
    Prop :=
  (∃ ts c deco, Pre E T v ts c deco ∧ layerOf ts c deco = l) ∧ Costs (ch v) P ∧
    ∀ (q : Nat) (pr : Prover), pr.proof.index < 2 ^ 64 → Costs (pe v q pr) (inner q pr.proof.index)

theorem HasCost.costs {α : Type} {E : Env} {T : SimpleSerialize α} {ch : α → Counted Bytes}
    {pe : α → Nat → Prover → Counted Prover} {v : α} {l : Layer} {P : Nat} {inner : Nat → Nat → Nat}
    (h : HasCost E T ch pe v l P inner) (pr : Prover) (hg : pr.proof.index < 2 ^ 64) :
    Costs (computeProofC E T ch pe v pr) (l.cost P inner pr.proof.index) := by
  obtain ⟨⟨ts, c, deco, h1, rfl⟩, h2, h3⟩ := h
  exact layerC_costs h1 h2 h3 pr hg

theorem hasCost_of (E : Env) (t : Ty) (v : t.Val) (hl : Legal t) (hb : Bounded t)
    (hs : Shallow t) (hv : Valid t v) (hm : InMemory t v)
    (h : ∀ (q : Nat) (pr : Prover), pr.proof.index < 2 ^ 64 →
      Costs (t.proveElementC E v q pr) (innerCost t v q pr.proof.index)) :
    HasCost E (t.impl E) (t.chunksC E) (fun x i p => t.proveElementC E x i p) v (layer t v)
      (partsCost t v) (innerCost t v) := by
  obtain ⟨ts, c, deco, h1, h2, -⟩ := has_layer E t v hl hb hs hv hm
  exact ⟨⟨ts, c, deco, h1, h2⟩, Ty.chunksC_costs E t v hl hb hv hm, h⟩

theorem zeroC_costs (E : Env) (pr : Prover) (hg : pr.proof.index < 2 ^ 64) :
    Costs (zeroProofC E pr) 0 := by
  obtain ⟨ts, c, deco, h1, h2, -⟩ := zero_layer E
  refine costs_mono (layerC_costs h1 (costs_free _) (inner := fun _ _ => 0) (fun _ _ _ => costs_free _)
    pr hg) ?_
  rw [h2]
  simp [Layer.cost, leafLayer, Layer.height]

theorem collC_costs {E : Env} {t : Ty} {n : Nat} {vs : List t.Val}
    (ih : ∀ x ∈ vs, HasCost E (t.impl E) (t.chunksC E) (fun x i p => t.proveElementC E x i p) x
      (layer t x) (partsCost t x) (innerCost t x)) (q : Nat) (pr : Prover)
    (hg : pr.proof.index < 2 ^ 64) :
    Costs (collectionProveElementC (computeProofC E (t.impl E) (t.chunksC E)
        (fun x i p => t.proveElementC E x i p)) n vs q pr)
      (if n ≤ q then 0 else
        (vs[q]?.map fun x => (layer t x).cost (partsCost t x) (innerCost t x) pr.proof.index).getD 0) := by
  unfold collectionProveElementC
  by_cases hq : n ≤ q
  · rw [if_pos hq, if_pos hq]
    exact costs_free _
  · rw [if_neg hq, if_neg hq]
    cases hx : vs[q]? with
    | none => exact costs_free_bind fun a ha => by rw [index, hx] at ha; nomatch ha
    | some x =>
      refine costs_free_bind fun a ha => ?_
      rw [index_ok hx] at ha
      cases ha
      exact (ih x (List.mem_of_getElem? hx)).costs pr hg

mutual

theorem proveElementC_costs (E : Env) : ∀ (t : Ty) (v : t.Val), Legal t → Bounded t → Shallow t →
    Valid t v → InMemory t v → ∀ (q : Nat) (pr : Prover), pr.proof.index < 2 ^ 64 →
    Costs (t.proveElementC E v q pr) (innerCost t v q pr.proof.index)
  | .uint _, _, _, _, _, _, _, _, _, _ => costs_free _
  | .u256, _, _, _, _, _, _, _, _, _ => costs_free _
  | .bool, _, _, _, _, _, _, _, _, _ => costs_free _
  | .node, _, _, _, _, _, _, _, _, _ => costs_free _
  | .array t n, v, hl, hb, hs, hv, hm, q, pr, hg =>
    collC_costs (vs := v.1) (fun x hx => hasCost_of E t x hl.2 hb.1 hs.2 (hv x hx) (hm.2 x hx)
      (proveElementC_costs E t x hl.2 hb.1 hs.2 (hv x hx) (hm.2 x hx))) q pr hg
  | .vector t n, v, hl, hb, hs, hv, hm, q, pr, hg =>
    collC_costs (vs := v) (fun x hx => hasCost_of E t x hl.2 hb.1 hs.2 (hv.2 x hx) (hm.2 x hx)
      (proveElementC_costs E t x hl.2 hb.1 hs.2 (hv.2 x hx) (hm.2 x hx))) q pr hg
  | .list t n, v, hl, hb, hs, hv, hm, q, pr, hg =>
    collC_costs (vs := v) (fun x hx => hasCost_of E t x hl hb.1 hs.2 (hv.2 x hx) (hm.2 x hx)
      (proveElementC_costs E t x hl hb.1 hs.2 (hv.2 x hx) (hm.2 x hx))) q pr hg
  | .bitvector _, _, _, _, _, _, _, _, _, _ => costs_free _
  | .bitlist _, _, _, _, _, _, _, _, _, _ => costs_free _
  | .option t, v, hl, hb, hs, hv, hm, q, pr, hg => by
    match v with
    | none =>
      show Costs (if q ≥ 2 then _ else zeroProofC E pr) (if 2 ≤ q then 0 else 0)
      split
      · exact costs_free _
      · exact zeroC_costs E pr hg
    | some x =>
      show Costs (if q ≥ 2 then _ else computeProofC E (t.impl E) (t.chunksC E)
        (fun x i p => t.proveElementC E x i p) x pr) (if 2 ≤ q then 0 else _)
      split
      · exact costs_free _
      · exact (hasCost_of E t x hl hb hs (hv x rfl) (hm x rfl)
          (proveElementC_costs E t x hl hb hs (hv x rfl) (hm x rfl))).costs pr hg
  | .newtype t, v, hl, hb, hs, hv, hm, q, pr, hg =>
    proveElementC_costs E t v hl hb hs hv hm q pr hg
  | .container fs, v, hl, hb, hs, hv, hm, q, pr, hg => by
    show Costs (if q ≥ (fs.impls E).count then _ else fs.proveFieldC E v q pr) (innerCostF fs v q _)
    rw [count_impls]
    exact proveFieldC_costs E fs v hl.2.2 hb.1 hs.2 hv hm q pr hg
  | .union vs, v, hl, hb, hs, hv, hm, q, pr, hg => by
    show Costs (if q ≥ (vs.impls E).count then _ else vs.proveVariantC E v pr)
      (if countV vs ≤ q then 0 else innerCostV vs v _)
    rw [count_implsV]
    split
    · exact costs_free _
    · exact proveVariantC_costs E vs v hl.2 hb hs hv hm pr hg

theorem proveFieldC_costs (E : Env) : ∀ (fs : Fields) (v : fs.Val), LegalF fs → BoundedF fs →
    ShallowF fs → ValidF fs v → InMemoryF fs v → ∀ (q : Nat) (pr : Prover), pr.proof.index < 2 ^ 64 →
    Costs (if q ≥ countF fs then free (.err .invalidInnerIndex) else fs.proveFieldC E v q pr)
      (innerCostF fs v q pr.proof.index)
  | .nil, _, _, _, _, _, _, _, _, _ => costs_free _
  | .cons _ t rest, v, hl, hb, hs, hv, hm, 0, pr, hg => by
    rw [if_neg (by simp [countF])]
    exact (hasCost_of E t v.1 hl.1 hb.1 hs.1 hv.1 hm.1
      (proveElementC_costs E t v.1 hl.1 hb.1 hs.1 hv.1 hm.1)).costs pr hg
  | .cons _ t rest, v, hl, hb, hs, hv, hm, q + 1, pr, hg => by
    have h := proveFieldC_costs E rest v.2 hl.2 hb.2 hs.2 hv.2 hm.2 q pr hg
    by_cases hq : q ≥ countF rest
    · rw [if_pos hq] at h
      rw [if_pos (by rw [countF]; omega)]
      exact h
    · rw [if_neg hq] at h
      rw [if_neg (by rw [countF]; omega)]
      exact h

theorem proveVariantC_costs (E : Env) : ∀ (vs : Variants) (v : vs.Val), LegalV vs → BoundedV vs →
    ShallowV vs → ValidV vs v → InMemoryV vs v → ∀ (pr : Prover), pr.proof.index < 2 ^ 64 →
    Costs (vs.proveVariantC E v pr) (innerCostV vs v pr.proof.index)
  | .nil, v, _, _, _, _, _, _, _ => Empty.elim v
  | .unit _, .inl _, _, _, _, _, _, pr, hg => zeroC_costs E pr hg
  | .unit rest, .inr v, hl, hb, hs, hv, hm, pr, hg =>
    proveVariantC_costs E rest v hl hb hs hv hm pr hg
  | .data t _, .inl v, hl, hb, hs, hv, hm, pr, hg =>
    (hasCost_of E t v hl.1 hb.1 hs.1 hv hm
      (proveElementC_costs E t v hl.1 hb.1 hs.1 hv hm)).costs pr hg
  | .data _ rest, .inr v, hl, hb, hs, hv, hm, pr, hg =>
    proveVariantC_costs E rest v hl.2 hb.2 hs.2 hv hm pr hg

end

theorem computeProofC_costs (E : Env) (t : Ty) (v : t.Val) (hl : Legal t) (hb : Bounded t)
    (hs : Shallow t) (hv : Valid t v) (hm : InMemory t v) (pr : Prover) (hg : pr.proof.index < 2 ^ 64) :
    Costs (t.computeProofC E v pr) (proofCost t v pr.proof.index) :=
  (hasCost_of E t v hl hb hs hv hm (proveElementC_costs E t v hl hb hs hv hm)).costs pr hg

/-! ## Upper bounds -/

theorem partsCost_le : ∀ (t : Ty) (v : t.Val), partsCost t v ≤ rootCost t v
  | .uint _, _ => Nat.le_refl _
  | .u256, _ => Nat.le_refl _
  | .bool, _ => Nat.le_refl _
  | .node, _ => Nat.le_refl _
  | .array _ _, _ => Nat.le_add_right _ _
  | .vector _ _, _ => Nat.le_add_right _ _
  | .list _ _, _ => Nat.le_trans (Nat.le_add_right _ _) (Nat.le_add_right _ _)
  | .bitvector _, _ => Nat.zero_le _
  | .bitlist _, _ => Nat.zero_le _
  | .option t, v => by
    match v with
    | none => exact Nat.zero_le _
    | some x => exact Nat.le_add_right _ _
  | .newtype t, v => partsCost_le t v
  | .container _, _ => Nat.le_add_right _ _
  | .union _, _ => Nat.le_add_right _ _

theorem rootC_exact (E : Env) (t : Ty) (v : t.Val) (hl : Legal t) (hb : Bounded t) (hv : Valid t v)
    (hm : InMemory t v) : (t.rootC E v).1.hashes = rootCost t v :=
  (rootC_costs E t v hl hb hv hm).2 _ ((rootC_res E t v).trans (htr_ok E t v hl hb hv hm))

theorem rootCost_le (t : Ty) (v : t.Val) (hl : Legal t) (hb : Bounded t) (hv : Valid t v)
    (hm : InMemory t v) : rootCost t v < 65 * values t v := by
  have h1 := rootC_exact ⟨true, fun _ => zeroNode⟩ t v hl hb hv hm
  have h2 := (rootC_within ⟨true, fun _ => zeroNode⟩ t v hl hb).1
  have h3 := values_pos t v
  omega

/-- What `proofCost_le` says of the parts of a value. -/
def InnerLe (t : Ty) (v : t.Val) : Prop := ∀ q b,
  innerCost t v q b + 65 * values t v + 2 ^ (layer t v).height ≤ typeSize t * (65 * values t v) + room t

theorem proofCost_of {t : Ty} {v : t.Val} (h : InnerLe t v) (hl : Legal t) (hb : Bounded t)
    (hv : Valid t v) (hm : InMemory t v) (g : Nat) :
    proofCost t v g ≤ typeSize t * (65 * values t v) + room t := by
  have h1 := partsCost_le t v
  have h2 := rootCost_le t v hl hb hv hm
  have h3 := Nat.two_pow_pos (layer t v).height
  have h4 := h (g / 2 ^ (Nat.log2 g - (layer t v).height) - 2 ^ (layer t v).height)
      (2 ^ (Nat.log2 g - (layer t v).height) + g % 2 ^ (Nat.log2 g - (layer t v).height))
  rw [proofCost, Layer.cost]
  split <;> split <;> omega

theorem level_le {T vx v c r w : Nat} (h1 : c ≤ T * (65 * vx) + r) (h2 : vx ≤ v) :
    c + 65 * v + w ≤ (1 + T) * (65 * v) + (w + r) := by
  have h3 : T * (65 * vx) ≤ T * (65 * v) := Nat.mul_le_mul_left _ (by omega)
  rw [Nat.add_mul]
  omega

theorem sum_mem_le {α : Type} {f : α → Nat} {xs : List α} {x : α} (h : x ∈ xs) :
    f x ≤ (xs.map f).sum := by
  induction xs with
  | nil => exact absurd h List.not_mem_nil
  | cons y ys ih =>
    rw [List.map_cons, List.sum_cons]
    rcases List.mem_cons.1 h with rfl | h
    · omega
    · have := ih h; omega

theorem collInner_le {t : Ty} {xs : List t.Val} {n : Nat} (w q b : Nat)
    (h : ∀ x ∈ xs, ∀ g, proofCost t x g ≤ typeSize t * (65 * values t x) + room t) :
    (if n ≤ q then 0 else
      (xs[q]?.map fun x => (layer t x).cost (partsCost t x) (innerCost t x) b).getD 0) +
      65 * (1 + (xs.map fun x => values t x).sum) + w ≤
      (1 + typeSize t) * (65 * (1 + (xs.map fun x => values t x).sum)) + (w + room t) := by
  by_cases hq : n ≤ q
  · rw [if_pos hq]
    exact level_le (vx := 0) (Nat.zero_le _) (Nat.zero_le _)
  · rw [if_neg hq]
    cases hx : xs[q]? with
    | none => exact level_le (vx := 0) (Nat.zero_le _) (Nat.zero_le _)
    | some x =>
      have hm := List.mem_of_getElem? hx
      have := sum_mem_le (f := fun x => values t x) hm
      exact level_le (h x hm b) (by omega)

theorem layerV_height : ∀ (vs : Variants) (i : Nat) (v : vs.Val), (layerV vs i v).height = 1
  | .nil, _, v => Empty.elim v
  | .unit _, _, .inl _ => rfl
  | .unit vs, i, .inr v => layerV_height vs (i + 1) v
  | .data _ _, _, .inl _ => rfl
  | .data _ vs, i, .inr v => layerV_height vs (i + 1) v

mutual

theorem inner_le : ∀ (t : Ty) (v : t.Val), Legal t → Bounded t → Valid t v → InMemory t v →
    InnerLe t v
  | .uint _, _, _, _, _, _ => fun _ _ => by simp [innerCost, values, layer, leafLayer, Layer.height, typeSize, room]
  | .u256, _, _, _, _, _ => fun _ _ => by simp [innerCost, values, layer, leafLayer, Layer.height, typeSize, room]
  | .bool, _, _, _, _, _ => fun _ _ => by simp [innerCost, values, layer, leafLayer, Layer.height, typeSize, room]
  | .node, _, _, _, _, _ => fun _ _ => by simp [innerCost, values, layer, leafLayer, Layer.height, typeSize, room]
  | .array t n, v, hl, hb, hv, hm => fun q b => collInner_le (xs := v.1) _ q b fun x hx =>
      proofCost_of (inner_le t x hl.2 hb.1 (hv x hx) (hm.2 x hx)) hl.2 hb.1 (hv x hx) (hm.2 x hx)
  | .vector t n, v, hl, hb, hv, hm => fun q b => collInner_le (xs := v) _ q b fun x hx =>
      proofCost_of (inner_le t x hl.2 hb.1 (hv.2 x hx) (hm.2 x hx)) hl.2 hb.1 (hv.2 x hx) (hm.2 x hx)
  | .list t n, v, hl, hb, hv, hm => fun q b => collInner_le (xs := v) _ q b fun x hx =>
      proofCost_of (inner_le t x hl hb.1 (hv.2 x hx) (hm.2 x hx)) hl hb.1 (hv.2 x hx) (hm.2 x hx)
  | .bitvector n, v, _, _, _, _ => fun _ _ => by
    show 0 + 65 * values (.bitvector n) v + 2 ^ depthFor ((n + 255) / 256) ≤ 2 * (65 * values (.bitvector n) v) + 2 ^ depthFor ((n + 255) / 256)
    omega
  | .bitlist n, v, _, _, _, _ => fun _ _ => by
    show 0 + 65 * values (.bitlist n) v + 2 ^ (depthFor ((n + 255) / 256) + 1) ≤
      2 * (65 * values (.bitlist n) v) + 2 ^ (depthFor ((n + 255) / 256) + 1)
    omega
  | .option t, v, hl, hb, hv, hm => fun q b => by
    match v with
    | none =>
      show (if 2 ≤ q then 0 else 0) + 65 * 1 + 2 ≤ (1 + typeSize t) * (65 * 1) + (2 + room t)
      rw [ite_self]
      exact level_le (vx := 0) (Nat.zero_le _) (Nat.zero_le _)
    | some x =>
      show (if 2 ≤ q then 0 else proofCost t x b) + 65 * (1 + values t x) + 2 ≤
        (1 + typeSize t) * (65 * (1 + values t x)) + (2 + room t)
      split
      · exact level_le (vx := 0) (Nat.zero_le _) (Nat.zero_le _)
      · exact level_le (proofCost_of (inner_le t x hl hb (hv x rfl) (hm x rfl)) hl hb (hv x rfl)
          (hm x rfl) b) (by omega)
  | .newtype t, v, hl, hb, hv, hm => fun q b => by
    have h := inner_le t v hl hb hv hm q b
    show innerCost t v q b + 65 * (1 + values t v) + 2 ^ (layer t v).height ≤
      (1 + typeSize t) * (65 * (1 + values t v)) + room t
    have h2 := level_le (w := 0) (v := 1 + values t v) h (by omega)
    omega
  | .container fs, v, hl, hb, hv, hm => fun q b => by
    show innerCostF fs v q b + 65 * (1 + valuesF fs v) + 2 ^ depthFor (countF fs) ≤
      (1 + typeSizeF fs) * (65 * (1 + valuesF fs v)) + (2 ^ depthFor (countF fs) + roomF fs)
    exact level_le (innerF_le fs v hl.2.2 hb.1 hv hm q b) (by omega)
  | .union vs, v, hl, hb, hv, hm => fun q b => by
    show (if countV vs ≤ q then 0 else innerCostV vs v b) + 65 * valuesV vs v +
      2 ^ (layerV vs 0 v).height ≤ (1 + typeSizeV vs) * (65 * valuesV vs v) + (2 + roomV vs)
    have hh : 2 ^ (layerV vs 0 v).height = 2 := congrArg (2 ^ ·) (layerV_height vs 0 v)
    refine Nat.le_trans (Nat.add_le_add_left (Nat.le_of_eq hh) _) ?_
    split
    · exact level_le (vx := 0) (Nat.zero_le _) (Nat.zero_le _)
    · exact level_le (innerV_le vs v hl.2 hb hv hm b) (Nat.le_refl _)

theorem innerF_le : ∀ (fs : Fields) (v : fs.Val), LegalF fs → BoundedF fs → ValidF fs v →
    InMemoryF fs v → ∀ q b, innerCostF fs v q b ≤ typeSizeF fs * (65 * valuesF fs v) + roomF fs
  | .nil, _, _, _, _, _, _, _ => Nat.zero_le _
  | .cons _ t rest, v, hl, hb, hv, hm, 0, b => by
    have h := proofCost_of (inner_le t v.1 hl.1 hb.1 hv.1 hm.1) hl.1 hb.1 hv.1 hm.1 b
    show proofCost t v.1 b ≤ (typeSize t + typeSizeF rest) * (65 * (values t v.1 + valuesF rest v.2)) +
      (room t + roomF rest)
    have h2 : typeSize t * (65 * values t v.1) ≤
        (typeSize t + typeSizeF rest) * (65 * (values t v.1 + valuesF rest v.2)) :=
      Nat.mul_le_mul (by omega) (by omega)
    omega
  | .cons _ t rest, v, hl, hb, hv, hm, q + 1, b => by
    have h := innerF_le rest v.2 hl.2 hb.2 hv.2 hm.2 q b
    show innerCostF rest v.2 q b ≤
      (typeSize t + typeSizeF rest) * (65 * (values t v.1 + valuesF rest v.2)) + (room t + roomF rest)
    have h2 : typeSizeF rest * (65 * valuesF rest v.2) ≤
        (typeSize t + typeSizeF rest) * (65 * (values t v.1 + valuesF rest v.2)) :=
      Nat.mul_le_mul (by omega) (by omega)
    omega

theorem innerV_le : ∀ (vs : Variants) (v : vs.Val), LegalV vs → BoundedV vs → ValidV vs v →
    InMemoryV vs v → ∀ b, innerCostV vs v b ≤ typeSizeV vs * (65 * valuesV vs v) + roomV vs
  | .nil, v, _, _, _, _, _ => Empty.elim v
  | .unit _, .inl _, _, _, _, _, _ => Nat.zero_le _
  | .unit rest, .inr v, hl, hb, hv, hm, b => by
    have h := innerV_le rest v hl hb hv hm b
    show innerCostV rest v b ≤ (1 + typeSizeV rest) * (65 * valuesV rest v) + roomV rest
    have h2 : typeSizeV rest * (65 * valuesV rest v) ≤ (1 + typeSizeV rest) * (65 * valuesV rest v) :=
      Nat.mul_le_mul_right _ (by omega)
    omega
  | .data t rest, .inl v, hl, hb, hv, hm, b => by
    have h := proofCost_of (inner_le t v hl.1 hb.1 hv hm) hl.1 hb.1 hv hm b
    show proofCost t v b ≤ (typeSize t + typeSizeV rest) * (65 * (1 + values t v)) + (room t + roomV rest)
    have h2 : typeSize t * (65 * values t v) ≤ (typeSize t + typeSizeV rest) * (65 * (1 + values t v)) :=
      Nat.mul_le_mul (by omega) (by omega)
    omega
  | .data t rest, .inr v, hl, hb, hv, hm, b => by
    have h := innerV_le rest v hl.2 hb.2 hv hm b
    show innerCostV rest v b ≤ (typeSize t + typeSizeV rest) * (65 * valuesV rest v) + (room t + roomV rest)
    have h2 : typeSizeV rest * (65 * valuesV rest v) ≤ (typeSize t + typeSizeV rest) * (65 * valuesV rest v) :=
      Nat.mul_le_mul_right _ (by omega)
    omega

end

theorem proofCost_le (t : Ty) (v : t.Val) (hl : Legal t) (hb : Bounded t) (hv : Valid t v)
    (hm : InMemory t v) (g : Nat) : proofCost t v g ≤ typeSize t * (65 * values t v) + room t :=
  proofCost_of (inner_le t v hl hb hv hm) hl hb hv hm g

/-- Every proof hashes the whole layer of the value. -/
theorem proofCost_ge (t : Ty) (v : t.Val) (g : Nat) : 2 ^ (layer t v).height - 1 ≤ proofCost t v g := by
  rw [proofCost, Layer.cost]
  omega

end Ssz
