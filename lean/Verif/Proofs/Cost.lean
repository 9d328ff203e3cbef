import Verif.Model.Cost
import Verif.Spec.Cost
import Verif.Proofs.Std
import Verif.Proofs.SerializeAll
import Verif.Proofs.Size

/-!
# Costs of merkleization
-/

namespace Ssz

open Spec Counted

namespace Counted

variable {α β : Type}

@[simp] theorem bind_res (x : Counted α) (f : α → Counted β) :
    (x >>= f).2 = x.2 >>= fun a => (f a).2 := by
  show (Counted.bind x f).2 = _
  unfold Counted.bind
  cases x.2 <;> rfl

@[simp] theorem free_res (r : Res MerkError α) : (free r).2 = r := rfl
@[simp] theorem hash_res (r : Res MerkError α) : (hash r).2 = r := rfl
@[simp] theorem step_res : step.2 = .ok () := rfl
@[simp] theorem free_hashes (r : Res MerkError α) : (free r).1.hashes = 0 := rfl
@[simp] theorem hash_hashes (r : Res MerkError α) : (hash r).1.hashes = 1 := rfl
@[simp] theorem step_hashes : step.1.hashes = 0 := rfl
@[simp] theorem free_steps (r : Res MerkError α) : (free r).1.steps = 0 := rfl
@[simp] theorem hash_steps (r : Res MerkError α) : (hash r).1.steps = 0 := rfl
@[simp] theorem step_steps : step.1.steps = 1 := rfl

/-- The cost of a sequence is at most that of its parts. -/
def Within (x : Counted α) (h s : Nat) : Prop := x.1.hashes ≤ h ∧ x.1.steps ≤ s

theorem within_bind {x : Counted α} {f : α → Counted β} {h s h' s' : Nat} (h1 : Within x h s)
    (h2 : ∀ a, x.2 = .ok a → Within (f a) h' s') : Within (x >>= f) (h + h') (s + s') := by
  show Within (Counted.bind x f) _ _
  unfold Counted.bind
  obtain ⟨h3, h4⟩ := h1
  split
  · rename_i a e
    obtain ⟨h5, h6⟩ := h2 a e
    exact ⟨Nat.add_le_add h3 h5, Nat.add_le_add h4 h6⟩
  · exact ⟨by show x.1.hashes ≤ _; omega, by show x.1.steps ≤ _; omega⟩
  · exact ⟨by show x.1.hashes ≤ _; omega, by show x.1.steps ≤ _; omega⟩

theorem within_mono {x : Counted α} {h s h' s' : Nat} (hw : Within x h s) (h1 : h ≤ h')
    (h2 : s ≤ s') : Within x h' s' := ⟨Nat.le_trans hw.1 h1, Nat.le_trans hw.2 h2⟩

theorem within_free (r : Res MerkError α) (h s : Nat) : Within (free r) h s :=
  ⟨Nat.zero_le _, Nat.zero_le _⟩

theorem within_free_bind {r : Res MerkError α} {f : α → Counted β} {h s : Nat}
    (h2 : ∀ a, r = .ok a → Within (f a) h s) : Within (free r >>= f) h s := by
  have := within_bind (within_free r 0 0) h2
  simpa using this

theorem within_hash_bind {r : Res MerkError α} {f : α → Counted β} {h s : Nat}
    (h2 : ∀ a, r = .ok a → Within (f a) h s) : Within (hash r >>= f) (h + 1) s := by
  have := within_bind (x := hash r) (h := 1) (s := 0) ⟨Nat.le_refl _, Nat.le_refl _⟩ h2
  rwa [Nat.add_comm 1 h, Nat.zero_add] at this

theorem within_step_bind {f : Unit → Counted β} {h s : Nat} (h2 : Within (f ()) h s) :
    Within (step >>= f) h (s + 1) := by
  have := within_bind (x := step) (f := f) (h := 0) (s := 1) ⟨Nat.le_refl _, Nat.le_refl _⟩
    (fun _ _ => h2)
  rwa [Nat.add_comm 1 s, Nat.zero_add] at this

end Counted

/-! ## The counters change nothing -/

theorem packLoopC_res {α : Type} (T : Serializable α) (vs : List α) (buf : Bytes) :
    (packLoopC T vs buf).2 = packLoop T vs buf := by
  induction vs generalizing buf with
  | nil => rfl
  | cons v vs ih =>
    rw [packLoopC, packLoop, bind_res, step_res, Res.ok_bind]
    split <;> rename_i e <;> rw [e]
    · exact ih _
    · rfl
    · rfl

theorem packC_res {α : Type} (T : Serializable α) (vs : List α) :
    (packC T vs).2 = pack T vs := by
  rw [packC, pack, bind_res, packLoopC_res]
  cases packLoop T vs [] <;> rfl

theorem layerLoopC_res (E : Env) (bound last depth i : Nat) (layer : Bytes) :
    (layerLoopC E bound last depth i layer).2 = layerLoop E bound last depth i layer := by
  induction hm : bound - i using Nat.strongRecOn generalizing i layer with
  | _ m ih =>
    rw [layerLoopC, layerLoop]
    split
    · have ih' : ∀ l, (layerLoopC E bound last depth (i + 2) l).2 =
          layerLoop E bound last depth (i + 2) l :=
        fun l => ih (bound - (i + 2)) (by omega) (i + 2) l rfl
      rw [bind_res, step_res, Res.ok_bind]
      dsimp only
      split
      · simp only [bind_res, free_res, hash_res, ih']
      · split
        · simp only [bind_res, free_res, hash_res, ih']
        · rfl
    · rfl

theorem layersLoopC_res (E : Env) (height k last : Nat) (layer : Bytes) :
    (layersLoopC E height k last layer).2 = layersLoop E height k last layer := by
  induction k generalizing last layer with
  | zero => rfl
  | succ k ih => simp only [layersLoopC, layersLoop, bind_res, step_res, Res.ok_bind, free_res,
      layerLoopC_res, ih]

theorem virtualC_res (E : Env) (chunks : Bytes) (leafCount : Nat) :
    (merkleizeChunksWithVirtualPaddingC E chunks leafCount).2 =
      merkleizeChunksWithVirtualPadding E chunks leafCount := by
  unfold merkleizeChunksWithVirtualPaddingC merkleizeChunksWithVirtualPadding
  simp only [bind_res, free_res]
  by_cases hc : chunks.length / 32 = 0
  · simp only [hc, if_true, bind_res, free_res]
    cases E.debug <;> rfl
  · simp only [hc, if_false, bind_res, free_res, layersLoopC_res]
    cases E.debug <;> rfl

theorem merkleizeC_res (E : Env) (chunks : Bytes) (limit : Option Nat) :
    (merkleizeC E chunks limit).2 = merkleize E chunks limit := by
  unfold merkleizeC merkleize
  simp only [bind_res, free_res]
  congr 1; funext _
  congr 1; funext _
  cases limit with
  | none => exact virtualC_res _ _ _
  | some l =>
    dsimp only
    split
    · rfl
    · simp only [bind_res, free_res, virtualC_res]

theorem mixInDecorationC_res (E : Env) (root : Node) (n : Nat) :
    (mixInDecorationC E root n).2 = mixInDecoration E root n := by
  unfold mixInDecorationC mixInDecoration
  split <;> rename_i e <;> rw [e] <;> rfl

theorem elementsLoopC_res {α : Type} {f : α → Counted Node} {g : α → Res MerkError Node}
    (h : ∀ x, (f x).2 = g x) (i : Nat) (xs : List α) (chunks : Bytes) :
    (elementsToChunksLoopC f i xs chunks).2 = elementsToChunksLoop g i xs chunks := by
  induction xs generalizing i chunks with
  | nil => rfl
  | cons x xs ih => simp only [elementsToChunksLoopC, elementsToChunksLoop, bind_res, step_res,
      Res.ok_bind, free_res, h, ih]

theorem assembleC_res {α : Type} (E : Env) (T : SimpleSerialize α) {f : α → Counted Node}
    (h : ∀ x, (f x).2 = T.hashTreeRoot x) (xs : List α) :
    (assembleChunksC E T f xs).2 = assembleChunks E T xs := by
  unfold assembleChunksC assembleChunks elementsToChunksC elementsToChunks
  split
  · simp only [bind_res, free_res, elementsLoopC_res h]
  · exact packC_res _ _

mutual

theorem rootC_res (E : Env) : ∀ (t : Ty) (v : t.Val),
    (t.rootC E v).2 = (t.impl E).hashTreeRoot v
  | .uint _, _ => rfl
  | .u256, _ => rfl
  | .bool, _ => rfl
  | .node, _ => rfl
  | .array t n, v => by
    show _ = (assembleChunks E (t.impl E) v.1 >>= fun c => merkleize E c none)
    rw [Ty.rootC]
    simp only [bind_res, assembleC_res E (t.impl E) (rootC_res E t), merkleizeC_res]
  | .vector t n, v => by
    show _ = (assembleChunks E (t.impl E) v >>= fun c => merkleize E c none)
    rw [Ty.rootC]
    simp only [bind_res, merkleizeC_res]
    rw [show (assembleChunksC E (t.impl E) (fun x => t.rootC E x) v).2 = _ from
      assembleC_res E (t.impl E) (rootC_res E t) v]
  | .list t n, v => by
    show _ = (SimpleSerialize.list E (t.impl E) n).hashTreeRoot v
    rw [Ty.rootC]
    simp only [SimpleSerialize.list, bind_res]
    rw [show (assembleChunksC E (t.impl E) (fun x => t.rootC E x) v).2 = _ from
      assembleC_res E (t.impl E) (rootC_res E t) v]
    congr 1; funext c
    have hm : ∀ r, (mixInDecorationC E r (List.length v)).2 = mixInDecoration E r (List.length v) :=
      fun r => mixInDecorationC_res E r _
    split
    · simp only [bind_res, merkleizeC_res, hm]
    · simp only [bind_res, free_res, merkleizeC_res, hm]
  | .bitvector n, v => by
    show _ = (SimpleSerialize.bitvector E n).hashTreeRoot v
    rw [Ty.rootC]
    simp only [SimpleSerialize.bitvector, bind_res, free_res, merkleizeC_res]
  | .bitlist n, v => by
    show _ = (SimpleSerialize.bitlist E n).hashTreeRoot v
    rw [Ty.rootC]
    simp only [SimpleSerialize.bitlist, bind_res, free_res, merkleizeC_res, mixInDecorationC_res]
  | .option t, v => by
    show _ = (SimpleSerialize.option E (t.impl E)).hashTreeRoot v
    cases v with
    | none =>
      simp only [Ty.rootC, SimpleSerialize.option, optionChunks, bind_res, free_res, Res.ok_bind,
        mixInDecorationC_res]
    | some x =>
      simp only [Ty.rootC, SimpleSerialize.option, optionChunks, bind_res, free_res,
        mixInDecorationC_res, rootC_res E t x]
      cases (t.impl E).hashTreeRoot x <;> rfl
  | .newtype t, v => by
    show _ = (SimpleSerialize.newtype E (t.impl E)).hashTreeRoot v
    simp only [Ty.rootC, SimpleSerialize.newtype, bind_res, free_res, merkleizeC_res,
      rootC_res E t v]
  | .container fs, v => by
    show _ = (SimpleSerialize.container E (fs.impls E)).hashTreeRoot v
    simp only [Ty.rootC, SimpleSerialize.container, FieldImpls.assembleChunks, bind_res,
      merkleizeC_res, chunksC_res E fs v]
  | .union vs, v => rootCV_res E vs 0 v

theorem chunksC_res (E : Env) : ∀ (fs : Fields) (v : fs.Val) (i : Nat) (c : Bytes),
    (fs.chunksC E v i c).2 = (fs.impls E).assembleLoop v i c
  | .nil, _, _, _ => rfl
  | .cons _ t rest, v, i, c => by
    simp only [Fields.chunksC, Fields.impls, FieldImpls.assembleLoop, bind_res, step_res,
      Res.ok_bind, free_res, rootC_res E t v.1, chunksC_res E rest v.2]

theorem rootCV_res (E : Env) : ∀ (vs : Variants) (i : Nat) (v : vs.Val),
    (vs.rootC E i v).2 = (vs.impls E).hashTreeRoot E i v
  | .nil, _, v => Empty.elim v
  | .unit _, _, .inl _ => mixInDecorationC_res _ _ _
  | .unit rest, i, .inr v => rootCV_res E rest (i + 1) v
  | .data t _, i, .inl v => by
    simp only [Variants.rootC, Variants.impls, VariantImpls.hashTreeRoot, bind_res,
      mixInDecorationC_res, rootC_res E t v]
  | .data _ rest, i, .inr v => rootCV_res E rest (i + 1) v

end

theorem treeLoopC_res (E : Env) (i : Nat) (b : Bytes) : (treeLoopC E i b).2 = treeLoop E i b := by
  induction i using Nat.strongRecOn generalizing b with
  | _ i ih =>
    cases i with
    | zero => rw [treeLoopC, treeLoop]; rfl
    | succ i =>
      have ih' : ∀ b, (treeLoopC E (i - 1) b).2 = treeLoop E (i - 1) b := ih (i - 1) (by omega)
      simp only [treeLoopC, treeLoop, bind_res, step_res, Res.ok_bind, free_res, hash_res, ih']

theorem computeMerkleTreeC_res (E : Env) (chunks : Bytes) (n : Nat) :
    (computeMerkleTreeC E chunks n).2 = computeMerkleTree E chunks n := by
  unfold computeMerkleTreeC computeMerkleTree
  simp only [bind_res, free_res, treeLoopC_res]
  cases E.debug <;> rfl

/-! ## Bounds -/

theorem layerLoopC_within (E : Env) (bound last depth i : Nat) (layer : Bytes) :
    Within (layerLoopC E bound last depth i layer) ((last + 2 - i) / 2) ((last + 2 - i) / 2 + 1) := by
  rw [layerLoopC]
  split
  · refine within_step_bind ?_
    dsimp only
    split
    · have ih := fun l => layerLoopC_within E bound last depth (i + 2) l
      have e : (last + 2 - i) / 2 = (last + 2 - (i + 2)) / 2 + 1 := by omega
      rw [e]
      exact within_free_bind fun _ _ => within_free_bind fun _ _ => within_free_bind fun _ _ =>
        within_hash_bind fun l _ => ih l
    · split
      · have ih := fun l => layerLoopC_within E bound last depth (i + 2) l
        have e : (last + 2 - i) / 2 = (last + 2 - (i + 2)) / 2 + 1 := by omega
        rw [e]
        exact within_free_bind fun _ _ => within_free_bind fun _ _ => within_free_bind fun _ _ =>
          within_hash_bind fun l _ => ih l
      · exact within_free _ _ _
  · exact within_free _ _ _
termination_by bound - i

theorem layersLoopC_within (E : Env) (height k last : Nat) (layer : Bytes) :
    Within (layersLoopC E height k last layer) (last + k) (last + 3 * k) := by
  induction k generalizing last layer with
  | zero => exact within_free _ _ _
  | succ k ih =>
    rw [layersLoopC]
    refine within_mono (within_step_bind (within_free_bind fun b _ =>
      within_bind (layerLoopC_within E b last _ 0 layer) fun l _ => ih (last / 2) l)) ?_ ?_ <;> omega

theorem trailingZerosAux_le (f x : Nat) : trailingZerosAux f x ≤ f := by
  induction f generalizing x with
  | zero => exact Nat.le_refl _
  | succ f ih =>
    rw [trailingZerosAux]
    split
    · omega
    · have := ih (x / 2); omega

theorem virtualC_within (E : Env) (chunks : Bytes) (leafCount : Nat) :
    Within (merkleizeChunksWithVirtualPaddingC E chunks leafCount) (chunks.length / 32 + 63)
      (chunks.length / 32 + 191) := by
  have ht : trailingZeros leafCount ≤ 64 := trailingZerosAux_le 64 leafCount
  unfold merkleizeChunksWithVirtualPaddingC
  refine within_free_bind fun _ _ => within_free_bind fun _ _ => within_free_bind fun _ _ => ?_
  dsimp only
  split
  · exact within_free_bind fun _ _ => within_free _ _ _
  · refine within_mono (within_bind (h' := 0) (s' := 0) (layersLoopC_within E _ _ _ _) fun _ _ =>
      within_free_bind fun _ _ => within_free _ _ _) ?_ ?_ <;> omega

theorem merkleizeC_within (E : Env) (chunks : Bytes) (limit : Option Nat) :
    Within (merkleizeC E chunks limit) (chunks.length / 32 + 63) (chunks.length / 32 + 191) := by
  unfold merkleizeC
  refine within_free_bind fun _ _ => within_free_bind fun _ _ => ?_
  cases limit with
  | none => exact virtualC_within _ _ _
  | some l =>
    dsimp only
    split
    · exact within_free _ _ _
    · exact within_free_bind fun _ _ => virtualC_within _ _ _

theorem mixInDecorationC_within (E : Env) (root : Node) (n s : Nat) :
    Within (mixInDecorationC E root n) 1 s := by
  unfold mixInDecorationC
  split
  · exact ⟨Nat.le_refl _, Nat.zero_le _⟩
  · exact within_free _ _ _
  · exact within_free _ _ _

/-! ## Exact numbers -/

namespace Counted

variable {α β : Type}

theorem bind_hashes {x : Counted α} {f : α → Counted β} {b : β} (h : (x >>= f).2 = .ok b) :
    ∃ a, x.2 = .ok a ∧ (f a).2 = .ok b ∧ (x >>= f).1.hashes = x.1.hashes + (f a).1.hashes := by
  rw [bind_res] at h
  obtain ⟨a, h1, h2⟩ := Res.bind_eq_ok.1 h
  refine ⟨a, h1, h2, ?_⟩
  show (Counted.bind x f).1.hashes = _
  unfold Counted.bind
  rw [h1]

end Counted

theorem layerLoopC_hashes {E : Env} {bound last depth i : Nat} {layer out : Bytes}
    (hb : last < bound) (h : (layerLoopC E bound last depth i layer).2 = .ok out) :
    (layerLoopC E bound last depth i layer).1.hashes = (last + 2 - i) / 2 := by
  induction hm : bound - i using Nat.strongRecOn generalizing i layer with
  | _ m ih =>
    rw [layerLoopC] at h ⊢
    split at h
    · rename_i hi
      rw [dif_pos hi]
      dsimp only at h ⊢
      obtain ⟨_, -, h, e⟩ := bind_hashes h
      rw [e, step_hashes]
      split at h
      · rename_i h1
        rw [if_pos h1]
        obtain ⟨_, -, h, e⟩ := bind_hashes h
        rw [e, free_hashes]
        obtain ⟨_, -, h, e⟩ := bind_hashes h
        rw [e, free_hashes]
        obtain ⟨_, -, h, e⟩ := bind_hashes h
        rw [e, free_hashes]
        obtain ⟨_, -, h, e⟩ := bind_hashes h
        rw [e, hash_hashes, ih (bound - (i + 2)) (by omega) h rfl]
        omega
      · rename_i h1
        rw [if_neg h1]
        split at h
        · rename_i h2
          rw [if_pos h2]
          obtain ⟨_, -, h, e⟩ := bind_hashes h
          rw [e, free_hashes]
          obtain ⟨_, -, h, e⟩ := bind_hashes h
          rw [e, free_hashes]
          obtain ⟨_, -, h, e⟩ := bind_hashes h
          rw [e, free_hashes]
          obtain ⟨_, -, h, e⟩ := bind_hashes h
          rw [e, hash_hashes, ih (bound - (i + 2)) (by omega) h rfl]
          omega
        · rename_i h2
          rw [if_neg h2, free_hashes]
          omega
    · rename_i hi
      rw [dif_neg hi, free_hashes]
      omega

theorem above_zero (d : Nat) : above d 0 = 0 := by cases d <;> rfl

/-- The inner nodes just above the leaves, and the others. -/
theorem above_bottom (d n : Nat) (h : n ≤ 2 ^ (d + 1)) :
    above (d + 1) n = (n + 1) / 2 + above d ((n + 1) / 2) := by
  induction d generalizing n with
  | zero => simp only [above]; split <;> omega
  | succ d ih =>
    have hp : 2 ^ (d + 1 + 1) = 2 * 2 ^ (d + 1) := by rw [Nat.pow_succ]; omega
    have hp' : 2 ^ (d + 1) = 2 * 2 ^ d := by rw [Nat.pow_succ]; omega
    by_cases h0 : n = 0
    · subst h0; simp [above]
    rw [above, if_neg h0, ih (min n (2 ^ (d + 1))) (by omega), ih (n - 2 ^ (d + 1)) (by omega)]
    rw [above, if_neg (by omega),
      show min ((n + 1) / 2) (2 ^ d) = (min n (2 ^ (d + 1)) + 1) / 2 by omega,
      show (n + 1) / 2 - 2 ^ d = (n - 2 ^ (d + 1) + 1) / 2 by omega]
    omega

theorem layersLoopC_hashes {E : Env} {height k last : Nat} {layer out : Bytes} (hk : k < 64)
    (hb : last < 2 ^ k) (h : (layersLoopC E height k last layer).2 = .ok out) :
    (layersLoopC E height k last layer).1.hashes = above k (last + 1) := by
  induction k generalizing last layer with
  | zero => rfl
  | succ k ih =>
    have hp : 2 ^ (k + 1) = 2 * 2 ^ k := by rw [Nat.pow_succ]; omega
    rw [layersLoopC] at h ⊢
    obtain ⟨_, -, h, e⟩ := bind_hashes h
    rw [e, step_hashes]
    obtain ⟨b, hb', h, e⟩ := bind_hashes h
    rw [e, free_hashes]
    rw [free_res, Env.pow2, if_pos hk, Res.lift_ok] at hb'
    cases hb'
    obtain ⟨l, h1, h, e⟩ := bind_hashes h
    rw [e, layerLoopC_hashes hb h1, ih (by omega) (by omega) h, above_bottom k (last + 1) (by omega),
      show (last + 1 + 1) / 2 = last / 2 + 1 by omega]
    omega

theorem virtualC_hashes {E : Env} {ns : List Node} {D : Nat} (hD : D < 64) (h : ns.length ≤ 2 ^ D) :
    (merkleizeChunksWithVirtualPaddingC E (flat ns) (2 ^ D)).1.hashes = above D ns.length := by
  have hr := virtualC_res E (flat ns) (2 ^ D)
  rw [merkleizeVirtual_ok E ns hD h] at hr
  unfold merkleizeChunksWithVirtualPaddingC at hr ⊢
  obtain ⟨_, -, hr, e⟩ := bind_hashes hr
  rw [e, free_hashes]
  obtain ⟨_, -, hr, e⟩ := bind_hashes hr
  rw [e, free_hashes]
  obtain ⟨_, -, hr, e⟩ := bind_hashes hr
  rw [e, free_hashes]
  simp only [flat_length, Nat.mul_div_cancel_left _ (show 0 < 32 by decide), trailingZeros_pow hD,
    Nat.add_sub_cancel] at hr ⊢
  split at hr
  · rename_i h0
    rw [if_pos h0, h0, above_zero]
    obtain ⟨_, -, hr, e⟩ := bind_hashes hr
    rw [e, free_hashes, free_hashes]
  · rename_i h0
    rw [if_neg h0]
    obtain ⟨_, h1, hr, e⟩ := bind_hashes hr
    rw [e, layersLoopC_hashes hD (by omega) h1, Nat.sub_add_cancel (by omega)]
    obtain ⟨_, -, hr, e⟩ := bind_hashes hr
    rw [e, free_hashes, free_hashes]
    omega

theorem merkleizeC_none_hashes (E : Env) (ns : List Node) (h : ns.length ≤ 2 ^ 63) :
    (merkleizeC E (flat ns) none).1.hashes = above (depthFor ns.length) ns.length := by
  have hr := merkleizeC_res E (flat ns) none
  rw [merkleize_none_ok E ns h] at hr
  unfold merkleizeC at hr ⊢
  obtain ⟨_, -, hr, e⟩ := bind_hashes hr
  rw [e, free_hashes]
  obtain ⟨c, h1, hr, e⟩ := bind_hashes hr
  rw [e, free_hashes]
  rw [free_res, flat_length, Nat.mul_div_cancel_left _ (by decide), nextPowerOfTwo_ok h,
    Res.lift_ok] at h1
  cases h1
  have := depthFor_le h
  show 0 + (0 + (merkleizeChunksWithVirtualPaddingC E (flat ns) _).1.hashes) = _
  rw [virtualC_hashes (by omega) (le_pow_depthFor _)]
  omega

theorem merkleizeC_some_hashes (E : Env) (ns : List Node) {l : Nat} (h : ns.length ≤ l)
    (hl : l ≤ 2 ^ 63) :
    (merkleizeC E (flat ns) (some l)).1.hashes = above (depthFor l) ns.length := by
  have hr := merkleizeC_res E (flat ns) (some l)
  rw [merkleize_some_ok E ns h hl] at hr
  unfold merkleizeC at hr ⊢
  obtain ⟨_, -, hr, e⟩ := bind_hashes hr
  rw [e, free_hashes]
  obtain ⟨c, -, hr, e⟩ := bind_hashes hr
  rw [e, free_hashes]
  simp only [flat_length, Nat.mul_div_cancel_left _ (show 0 < 32 by decide),
    if_neg (Nat.not_lt.2 h)] at hr ⊢
  obtain ⟨c, h1, hr, e⟩ := bind_hashes hr
  rw [e, free_hashes]
  rw [free_res, nextPowerOfTwo_ok hl, Res.lift_ok] at h1
  cases h1
  have := depthFor_le hl
  rw [virtualC_hashes (by omega) (Nat.le_trans h (le_pow_depthFor _))]
  omega

theorem treeLoopC_hashes {E : Env} {i : Nat} {b out : Bytes} (h : (treeLoopC E i b).2 = .ok out) :
    (treeLoopC E i b).1.hashes = (i + 1) / 2 := by
  induction i using Nat.strongRecOn generalizing b with
  | _ i ih =>
    cases i with
    | zero => rw [treeLoopC]; rfl
    | succ i =>
      rw [treeLoopC] at h ⊢
      obtain ⟨_, -, h, e⟩ := bind_hashes h
      rw [e, step_hashes]
      obtain ⟨_, -, h, e⟩ := bind_hashes h
      rw [e, free_hashes]
      obtain ⟨_, -, h, e⟩ := bind_hashes h
      rw [e, free_hashes]
      obtain ⟨_, -, h, e⟩ := bind_hashes h
      rw [e, free_hashes]
      obtain ⟨_, -, h, e⟩ := bind_hashes h
      rw [e, hash_hashes, ih (i - 1) (by omega) h]
      omega

theorem computeMerkleTreeC_hashes {E : Env} {chunks : Bytes} {n : Nat} {tree : Tree} (h0 : 0 < n)
    (hn : n < 2 ^ 63) (h : computeMerkleTree E chunks n = .ok tree) :
    (computeMerkleTreeC E chunks n).1.hashes = n - 1 := by
  have hr := computeMerkleTreeC_res E chunks n
  rw [h] at hr
  unfold computeMerkleTreeC at hr ⊢
  obtain ⟨_, -, hr, e⟩ := bind_hashes hr
  rw [e, free_hashes]
  obtain ⟨_, -, hr, e⟩ := bind_hashes hr
  rw [e, free_hashes]
  obtain ⟨a, h1, hr, e⟩ := bind_hashes hr
  rw [e, free_hashes]
  rw [free_res, Env.mul, if_pos (by simp only [usizeMod]; omega), Res.lift_ok] at h1
  cases h1
  obtain ⟨a, h1, hr, e⟩ := bind_hashes hr
  rw [e, free_hashes]
  rw [free_res, Env.sub, if_pos (by omega), Res.lift_ok] at h1
  cases h1
  obtain ⟨_, -, hr, e⟩ := bind_hashes hr
  rw [e, free_hashes]
  obtain ⟨_, -, hr, e⟩ := bind_hashes hr
  rw [e, free_hashes]
  obtain ⟨_, -, hr, e⟩ := bind_hashes hr
  rw [e, free_hashes]
  obtain ⟨_, -, hr, e⟩ := bind_hashes hr
  rw [e, free_hashes]
  obtain ⟨_, -, hr, e⟩ := bind_hashes hr
  rw [e, free_hashes]
  obtain ⟨_, -, hr, e⟩ := bind_hashes hr
  rw [e, free_hashes, treeLoopC_hashes hr]
  omega

/-! ## Whole values -/

theorem copyInto_length {ε : Type} {xs ys src : Bytes} {s e : Nat}
    (h : (copyInto xs s e src : Res ε Bytes) = .ok ys) : ys.length = xs.length := by
  unfold copyInto at h
  split at h
  · rename_i hc
    cases h
    rw [List.length_append, List.length_append, List.length_take, List.length_drop]
    omega
  · nomatch h

theorem packBytes_length (b : Bytes) : (packBytes b).length / 32 = (b.length + 31) / 32 := by
  rw [packBytes_eq, flat_length, chunkify_length, Nat.mul_div_cancel_left _ (by decide)]

theorem packLoopC_within {α : Type} (T : Serializable α) (vs : List α) (buf : Bytes) :
    Within (packLoopC T vs buf) 0 vs.length := by
  induction vs generalizing buf with
  | nil => exact within_free _ _ _
  | cons v vs ih =>
    rw [packLoopC, List.length_cons]
    refine within_step_bind ?_
    split
    · exact ih _
    · exact within_free _ _ _
    · exact within_free _ _ _

theorem elementsLoopC_length {α : Type} {f : α → Counted Node} {i : Nat} {xs : List α}
    {chunks out : Bytes} (h : (elementsToChunksLoopC f i xs chunks).2 = .ok out) :
    out.length = chunks.length := by
  induction xs generalizing i chunks with
  | nil => cases h; rfl
  | cons x xs ih =>
    rw [elementsToChunksLoopC] at h
    obtain ⟨_, -, h, -⟩ := bind_hashes h
    obtain ⟨_, -, h, -⟩ := bind_hashes h
    obtain ⟨_, h1, h, -⟩ := bind_hashes h
    rw [ih h, copyInto_length h1]

theorem elementsLoopC_within {α : Type} {f : α → Counted Node} {a b : Nat} {w : α → Nat}
    (xs : List α) (h : ∀ x ∈ xs, 1 ≤ w x ∧ Within (f x) (a * w x - 1) (b * w x - 2)) (ha : 0 < a)
    (hb : 1 < b) (i : Nat) (chunks : Bytes) :
    Within (elementsToChunksLoopC f i xs chunks) (a * (xs.map w).sum - xs.length)
      (b * (xs.map w).sum - xs.length) ∧ xs.length ≤ (xs.map w).sum := by
  induction xs generalizing i chunks with
  | nil => exact ⟨within_free _ _ _, Nat.le_refl _⟩
  | cons x xs ih =>
    obtain ⟨h1, h2⟩ := h x (by simp)
    have ih := fun i c => ih (fun y hy => h y (by simp [hy])) i c
    have hs := (ih 0 []).2
    have h3 : xs.length ≤ a * (xs.map w).sum := Nat.le_trans hs (Nat.le_mul_of_pos_left _ ha)
    have h4 : 2 * xs.length ≤ b * (xs.map w).sum := Nat.mul_le_mul hb hs
    have h5 : 1 ≤ a * w x := Nat.mul_pos ha h1
    have h6 : 2 * 1 ≤ b * w x := Nat.mul_le_mul hb h1
    refine ⟨?_, by simp only [List.length_cons, List.map_cons, List.sum_cons]; omega⟩
    rw [elementsToChunksLoopC]
    refine within_mono (within_step_bind (within_bind h2 fun _ _ => within_free_bind fun _ _ =>
      (ih _ _).1)) ?_ ?_ <;>
    simp only [List.length_cons, List.map_cons, List.sum_cons, Nat.mul_add] <;> omega

theorem Env.mul_le {E : Env} {a b c : Nat} (h : E.mul a b = .ok c) : c ≤ a * b := by
  unfold Env.mul at h
  split at h
  · cases h; exact Nat.le_refl _
  · split at h
    · nomatch h
    · cases h; exact Nat.mod_le _ _

theorem zeros_length {ε : Type} {n : Nat} {b : Bytes} (h : (zeros n : Res ε Bytes) = .ok b) :
    b.length = n := by
  unfold zeros at h
  split at h
  · cases h; exact List.length_replicate
  · nomatch h

theorem packs_values : ∀ {t : Ty} (v : t.Val), packs t = true → fixedLen t ≤ 32 * values t v
  | .uint u, _, _ => by cases u <;> simp [fixedLen, values, UintTy.bits]
  | .u256, _, _ => by simp [fixedLen, values]
  | .bool, _, _ => by simp [fixedLen, values]
  | .node, _, _ => by simp [fixedLen, values]
  | .array t n, v, h => by
    have h1 : ∀ xs : List t.Val, fixedLen t * xs.length ≤ 32 * (xs.map fun x => values t x).sum := by
      intro xs
      induction xs with
      | nil => exact Nat.le_refl _
      | cons x xs ih =>
        have := packs_values x (t := t) h
        rw [List.length_cons, List.map_cons, List.sum_cons, Nat.mul_add, Nat.mul_add]
        omega
    have h2 := h1 v.1
    rw [v.2] at h2
    show fixedLen t * n ≤ 32 * (1 + _)
    omega

theorem add_within {x : Counted Bytes} {h s k : Nat} (hw : Within x (h - k) (s - k)) (h1 : k ≤ h)
    (h2 : k ≤ s) (hc : ∀ c, x.2 = .ok c → c.length / 32 ≤ k) :
    ∀ c, x.2 = .ok c → x.1.hashes + c.length / 32 ≤ h ∧ x.1.steps + c.length / 32 ≤ s := by
  intro c h3
  have := hc c h3
  obtain ⟨h4, h5⟩ := hw
  omega

theorem assembleC_within (E : Env) {t : Ty} {xs : List t.Val} (hl : Legal t)
    (hs : packs t = true → fixedLen t < 2 ^ 32)
    (h : ∀ x ∈ xs, 1 ≤ values t x ∧
      Within (t.rootC E x) (65 * values t x - 1) (194 * values t x - 2)) :
    Within (assembleChunksC E (t.impl E) (fun x => t.rootC E x) xs)
      (65 * (xs.map (values t)).sum) (194 * (xs.map (values t)).sum) ∧
    (∀ c, (assembleChunksC E (t.impl E) (fun x => t.rootC E x) xs).2 = .ok c →
      (assembleChunksC E (t.impl E) (fun x => t.rootC E x) xs).1.hashes + c.length / 32 ≤
        65 * (xs.map (values t)).sum ∧
      (assembleChunksC E (t.impl E) (fun x => t.rootC E x) xs).1.steps + c.length / 32 ≤
        194 * (xs.map (values t)).sum) := by
  have hn : xs.length ≤ (xs.map (values t)).sum :=
    (elementsLoopC_within (f := fun x => t.rootC E x) xs h (by decide) (by decide) 0 []).2
  unfold assembleChunksC
  rw [impl_isComposite]
  cases hp : packs t with
  | false =>
    simp only [Bool.not_false, if_true]
    unfold elementsToChunksC
    have hw : ∀ c, Within (elementsToChunksLoopC (fun x => t.rootC E x) 0 xs c) _ _ := fun c =>
      (elementsLoopC_within (f := fun x => t.rootC E x) (w := values t) xs h (by decide) (by decide)
        0 c).1
    have hw' := within_free_bind (r := (E.mul xs.length 32).lift) fun a _ =>
      within_free_bind (r := zeros a) fun c _ => hw c
    refine ⟨within_mono hw' (by omega) (by omega), add_within hw' (by omega) (by omega) fun c hc => ?_⟩
    obtain ⟨a, h1, hc, -⟩ := bind_hashes hc
    obtain ⟨z, h2, hc, -⟩ := bind_hashes hc
    have h3 := Env.mul_le (E := E) (a := xs.length) (b := 32) (c := a) (by
      rw [free_res] at h1
      cases he : E.mul xs.length 32 with
      | ok y => rw [he] at h1; cases h1; rfl
      | err e => exact e.elim
      | panic => rw [he] at h1; nomatch h1)
    rw [elementsLoopC_length hc, zeros_length h2]
    omega
  | true =>
    simp only [Bool.not_true, Bool.false_eq_true, if_false]
    unfold packC
    have hw := within_mono (within_bind (packLoopC_within (t.impl E).toSerializable xs [])
      fun b _ => within_free (.ok (packBytes b)) 0 0)
      (h' := 65 * (xs.map (values t)).sum - (xs.map (values t)).sum)
      (s' := 194 * (xs.map (values t)).sum - (xs.map (values t)).sum) (by omega) (by omega)
    refine ⟨within_mono hw (by omega) (by omega), add_within hw (by omega) (by omega) fun c hc => ?_⟩
    obtain ⟨b, h1, hc, -⟩ := bind_hashes hc
    cases hc
    rw [packLoopC_res, packLoop_ok xs [] fun v _ =>
      packs_serialize E hp hl (hs hp) (packs_valid v hp)] at h1
    cases h1
    have hlen : ∀ xs : List t.Val, (xs.flatMap (enc t)).length ≤ 32 * (xs.map (values t)).sum := by
      intro xs
      induction xs with
      | nil => exact Nat.le_refl _
      | cons x xs ih =>
        have := packs_values x hp
        rw [List.flatMap_cons, List.length_append, List.map_cons, List.sum_cons, packs_length x hp]
        omega
    have := hlen xs
    rw [packBytes_length, List.nil_append]
    omega

/-- A collection: its elements, its chunks and what is mixed in. -/
theorem collection_within {α : Type} {x : Counted Bytes} {f : Bytes → Counted α} {S : Nat}
    (h1 : Within x (65 * S) (194 * S))
    (h2 : ∀ c, x.2 = .ok c → x.1.hashes + c.length / 32 ≤ 65 * S ∧ x.1.steps + c.length / 32 ≤ 194 * S)
    (h3 : ∀ c, Within (f c) (c.length / 32 + 64) (c.length / 32 + 191)) :
    Within (x >>= f) (65 * (1 + S) - 1) (194 * (1 + S) - 2) := by
  show Within (Counted.bind x f) _ _
  unfold Counted.bind
  obtain ⟨h4, h5⟩ := h1
  split
  · rename_i a e
    obtain ⟨h6, h7⟩ := h2 a e
    obtain ⟨h8, h9⟩ := h3 a
    exact ⟨by show x.1.hashes + (f a).1.hashes ≤ _; omega, by show x.1.steps + (f a).1.steps ≤ _; omega⟩
  · exact ⟨by show x.1.hashes ≤ _; omega, by show x.1.steps ≤ _; omega⟩
  · exact ⟨by show x.1.hashes ≤ _; omega, by show x.1.steps ≤ _; omega⟩

theorem merkleizeC_bind_within {E : Env} {c : Bytes} {l : Option Nat} {f : Node → Counted Node}
    (h : ∀ r, Within (f r) 1 0) :
    Within (merkleizeC E c l >>= f) (c.length / 32 + 64) (c.length / 32 + 191) :=
  within_mono (within_bind (merkleizeC_within E c l) fun r _ => h r) (Nat.le_refl _) (Nat.le_refl _)

theorem bits_within {r : Res MerkError Bytes} {f : Bytes → Counted Node} {S : Nat}
    (hc : ∀ c, r = .ok c → c.length / 32 ≤ S)
    (h3 : ∀ c, Within (f c) (c.length / 32 + 64) (c.length / 32 + 191)) :
    Within (free r >>= f) (65 * (1 + S) - 1) (194 * (1 + S) - 2) :=
  within_free_bind fun c h => within_mono (h3 c) (by have := hc c h; omega) (by have := hc c h; omega)

mutual

theorem values_pos : ∀ (t : Ty) (v : t.Val), 1 ≤ values t v
  | .uint _, _ => Nat.le_refl _
  | .u256, _ => Nat.le_refl _
  | .bool, _ => Nat.le_refl _
  | .node, _ => Nat.le_refl _
  | .array _ _, _ => Nat.le_add_right _ _
  | .vector _ _, _ => Nat.le_add_right _ _
  | .list _ _, _ => Nat.le_add_right _ _
  | .bitvector _, _ => Nat.le_add_right _ _
  | .bitlist _, _ => Nat.le_add_right _ _
  | .option t, v => by
    match v with
    | none => exact Nat.le_refl _
    | some _ => exact Nat.le_add_right _ _
  | .newtype _, _ => Nat.le_add_right _ _
  | .container _, _ => Nat.le_add_right _ _
  | .union vs, v => valuesV_pos vs v

theorem valuesV_pos : ∀ (vs : Variants) (v : vs.Val), 1 ≤ valuesV vs v
  | .nil, v => Empty.elim v
  | .unit _, .inl _ => Nat.le_refl _
  | .unit rest, .inr v => valuesV_pos rest v
  | .data _ _, .inl _ => Nat.le_add_right _ _
  | .data _ rest, .inr v => valuesV_pos rest v

end

theorem valuesF_count : ∀ (fs : Fields) (v : fs.Val), countF fs ≤ valuesF fs v
  | .nil, _ => Nat.le_refl _
  | .cons _ t rest, v => by
    have h1 := values_pos t v.1
    have h2 := valuesF_count rest v.2
    simp only [countF, valuesF]
    omega

theorem chunksC_length (E : Env) : ∀ (fs : Fields) (v : fs.Val) (i : Nat) (c out : Bytes),
    (fs.chunksC E v i c).2 = .ok out → out.length = c.length
  | .nil, _, _, _, _, h => by cases h; rfl
  | .cons _ t rest, v, i, c, out, h => by
    rw [Fields.chunksC] at h
    obtain ⟨_, -, h, -⟩ := bind_hashes h
    obtain ⟨_, -, h, -⟩ := bind_hashes h
    obtain ⟨_, h1, h, -⟩ := bind_hashes h
    rw [chunksC_length E rest _ _ _ _ h, copyInto_length h1]

mutual

theorem rootC_within (E : Env) : ∀ (t : Ty) (v : t.Val), Legal t → Bounded t →
    Within (t.rootC E v) (65 * values t v - 1) (194 * values t v - 2)
  | .uint _, _, _, _ => within_free _ _ _
  | .u256, _, _, _ => within_free _ _ _
  | .bool, _, _, _ => within_free _ _ _
  | .node, _, _, _ => within_free _ _ _
  | .array t n, v, hl, hb => by
    obtain ⟨h1, h2⟩ := assembleC_within E (xs := v.1) hl.2 hb.2 fun x _ =>
      ⟨values_pos t x, rootC_within E t x hl.2 hb.1⟩
    rw [Ty.rootC, values]
    exact collection_within h1 h2 fun c =>
      within_mono (merkleizeC_within E c none) (by omega) (Nat.le_refl _)
  | .vector t n, v, hl, hb => by
    obtain ⟨h1, h2⟩ := assembleC_within E (xs := show List t.Val from v) hl.2 hb.2 fun x _ =>
      ⟨values_pos t x, rootC_within E t x hl.2 hb.1⟩
    rw [Ty.rootC, values]
    exact collection_within h1 h2 fun c =>
      within_mono (merkleizeC_within E c none) (by omega) (Nat.le_refl _)
  | .list t n, v, hl, hb => by
    obtain ⟨h1, h2⟩ := assembleC_within E (xs := show List t.Val from v) hl hb.2.1 fun x _ =>
      ⟨values_pos t x, rootC_within E t x hl hb.1⟩
    rw [Ty.rootC, values]
    refine collection_within h1 h2 fun c => ?_
    have hm : ∀ r, Within (mixInDecorationC E r (List.length v)) 1 0 := fun r =>
      mixInDecorationC_within E r _ 0
    split
    · exact merkleizeC_bind_within hm
    · exact within_free_bind fun a _ => merkleizeC_bind_within hm
  | .bitvector n, v, hl, hb => by
    rw [Ty.rootC, values]
    refine bits_within (fun c hc => ?_) fun c =>
      within_mono (merkleizeC_within E c _) (by omega) (Nat.le_refl _)
    have hlen : ((chunks8 v.live).map byteOfBits).length = (v.live.length + 7) / 8 :=
      chunks8_map_length _
    unfold Bitvector.packBits Bitvector.serialize at hc
    split at hc
    · rename_i e
      split at e
      · cases e
      · cases e
        cases hc
        rw [packBytes_length, List.nil_append, hlen]
        omega
    · nomatch hc
    · nomatch hc
  | .bitlist n, v, hl, hb => by
    rw [Ty.rootC, values]
    refine bits_within (fun c hc => ?_) fun c => merkleizeC_bind_within fun r =>
      mixInDecorationC_within E r _ 0
    have hlen : v.rawSlice.length = ((v.live ++ v.dead).length + 7) / 8 := chunks8_map_length _
    unfold Bitlist.packBits Bitlist.serializeWithLength at hc
    split at hc
    · rename_i e
      split at e
      · cases e
      · simp only [Bool.false_eq_true, if_false] at e
        cases e
        cases hc
        rw [packBytes_length, List.nil_append, hlen, List.length_append]
        omega
    · nomatch hc
    · nomatch hc
  | .option t, v, hl, hb => by
    match v with
    | none =>
      exact within_free_bind fun _ _ => within_mono (mixInDecorationC_within E _ _ 0) (by
        show 1 ≤ 65 * 1 - 1; decide) (Nat.zero_le _)
    | some x =>
      have h1 := values_pos t x
      refine within_mono (within_bind (rootC_within E t x hl hb) fun _ _ => within_free_bind fun _ _ =>
        mixInDecorationC_within E _ _ 0) ?_ ?_
      · show _ ≤ 65 * (1 + values t x) - 1; omega
      · show _ ≤ 194 * (1 + values t x) - 2; omega
  | .newtype t, v, hl, hb => by
    have h1 := values_pos t v
    rw [Ty.rootC, values]
    refine within_mono (within_bind (rootC_within E t v hl hb) fun _ _ => within_free_bind fun c hc =>
      within_mono (h' := 64) (s' := 192) (merkleizeC_within E c none) ?_ ?_) ?_ ?_
    · rw [copyInto_length hc]; decide
    · rw [copyInto_length hc]; decide
    · omega
    · omega
  | .container fs, v, hl, hb => by
    have hc := valuesF_count fs v
    have h1 := chunksC_within E fs v hl.2.2 hb.1 0 (List.replicate ((fs.impls E).count * 32) 0)
    rw [Ty.rootC, values]
    refine within_mono (within_bind h1 fun c h =>
      within_mono (h' := countF fs + 63) (s' := countF fs + 191) (merkleizeC_within E c none) ?_ ?_) ?_ ?_
    · rw [chunksC_length E fs _ _ _ _ h, List.length_replicate, count_impls]; omega
    · rw [chunksC_length E fs _ _ _ _ h, List.length_replicate, count_impls]; omega
    · omega
    · omega
  | .union vs, v, hl, hb => rootCV_within E vs 0 v hl.2 hb

theorem chunksC_within (E : Env) : ∀ (fs : Fields) (v : fs.Val), LegalF fs → BoundedF fs →
    ∀ (i : Nat) (c : Bytes), Within (fs.chunksC E v i c) (65 * valuesF fs v - countF fs)
      (194 * valuesF fs v - countF fs)
  | .nil, _, _, _, _, _ => within_free _ _ _
  | .cons _ t rest, v, hl, hb, i, c => by
    have h1 := values_pos t v.1
    have h2 := valuesF_count rest v.2
    simp only [Fields.chunksC, valuesF, countF]
    refine within_mono (within_step_bind (within_bind (rootC_within E t v.1 hl.1 hb.1) fun _ _ =>
      within_free_bind fun _ _ => chunksC_within E rest v.2 hl.2 hb.2 _ _)) ?_ ?_ <;> omega

theorem rootCV_within (E : Env) : ∀ (vs : Variants) (i : Nat) (v : vs.Val), LegalV vs → BoundedV vs →
    Within (vs.rootC E i v) (65 * valuesV vs v - 1) (194 * valuesV vs v - 2)
  | .nil, _, v, _, _ => Empty.elim v
  | .unit _, _, .inl _, _, _ => within_mono (mixInDecorationC_within E _ _ 0) (by
      show 1 ≤ 65 * 1 - 1; decide) (Nat.zero_le _)
  | .unit rest, i, .inr v, hl, hb => rootCV_within E rest (i + 1) v hl hb
  | .data t _, i, .inl v, hl, hb => by
    have h1 := values_pos t v
    refine within_mono (within_bind (rootC_within E t v hl.1 hb.1) fun _ _ =>
      mixInDecorationC_within E _ _ 0) ?_ ?_
    · show _ ≤ 65 * (1 + values t v) - 1; omega
    · show _ ≤ 194 * (1 + values t v) - 2; omega
  | .data _ rest, i, .inr v, hl, hb => rootCV_within E rest (i + 1) v hl.2 hb.2

end

/-! ## Values and bytes -/

theorem elements_values {t : Ty} (xs : List t.Val)
    (h : ∀ x, values t x ≤ typeSize t * max 1 (dataBytes t x)) :
    1 + (xs.map fun x => values t x).sum ≤
      (1 + typeSize t) * max 1 (xs.map fun x => max 1 (dataBytes t x)).sum := by
  have h1 : (xs.map fun x => values t x).sum ≤
      typeSize t * (xs.map fun x => max 1 (dataBytes t x)).sum := by
    induction xs with
    | nil => exact Nat.zero_le _
    | cons x xs ih =>
      have := h x
      rw [List.map_cons, List.sum_cons, List.map_cons, List.sum_cons, Nat.mul_add]
      omega
  have h2 : typeSize t * (xs.map fun x => max 1 (dataBytes t x)).sum ≤
      typeSize t * max 1 (xs.map fun x => max 1 (dataBytes t x)).sum :=
    Nat.mul_le_mul_left _ (Nat.le_max_right _ _)
  rw [Nat.add_mul, Nat.one_mul]
  omega

theorem bits_values (x : Nat) : 1 + (x + 255) / 256 ≤ 2 * max 1 (x / 8) := by omega

mutual

theorem values_le : ∀ (t : Ty) (v : t.Val), values t v ≤ typeSize t * max 1 (dataBytes t v)
  | .uint _, _ => by simp only [values, typeSize]; omega
  | .u256, _ => by simp only [values, typeSize]; omega
  | .bool, _ => by simp only [values, typeSize]; omega
  | .node, _ => by simp only [values, typeSize]; omega
  | .array t _, v => elements_values v.1 (values_le t)
  | .vector t _, v => elements_values (t := t) v (values_le t)
  | .list t _, v => elements_values (t := t) v (values_le t)
  | .bitvector _, v => bits_values _
  | .bitlist _, v => bits_values _
  | .option t, v => by
    match v with
    | none => show 1 ≤ (1 + typeSize t) * 1; omega
    | some x =>
      have h := values_le t x
      have h1 : typeSize t * max 1 (dataBytes t x) ≤ typeSize t * max 1 (1 + dataBytes t x) :=
        Nat.mul_le_mul_left _ (by omega)
      show 1 + values t x ≤ (1 + typeSize t) * max 1 (1 + dataBytes t x)
      rw [Nat.add_mul, Nat.one_mul]
      omega
  | .newtype t, v => by
    have h := values_le t v
    show 1 + values t v ≤ (1 + typeSize t) * max 1 (dataBytes t v)
    rw [Nat.add_mul, Nat.one_mul]
    omega
  | .container fs, v => by
    have h := valuesF_le fs v
    show 1 + valuesF fs v ≤ (1 + typeSizeF fs) * max 1 (dataBytesF fs v)
    rw [Nat.add_mul, Nat.one_mul]
    omega
  | .union vs, v => valuesV_le vs v

theorem valuesF_le : ∀ (fs : Fields) (v : fs.Val),
    valuesF fs v ≤ typeSizeF fs * max 1 (dataBytesF fs v)
  | .nil, _ => Nat.zero_le _
  | .cons _ t rest, v => by
    have h1 := values_le t v.1
    have h2 := valuesF_le rest v.2
    have h3 : typeSize t * max 1 (dataBytes t v.1) ≤
        typeSize t * max 1 (dataBytes t v.1 + dataBytesF rest v.2) :=
      Nat.mul_le_mul_left _ (by omega)
    have h4 : typeSizeF rest * max 1 (dataBytesF rest v.2) ≤
        typeSizeF rest * max 1 (dataBytes t v.1 + dataBytesF rest v.2) :=
      Nat.mul_le_mul_left _ (by omega)
    simp only [valuesF, typeSizeF, dataBytesF]
    rw [Nat.add_mul]
    omega

theorem valuesV_le : ∀ (vs : Variants) (v : vs.Val),
    valuesV vs v ≤ (1 + typeSizeV vs) * max 1 (dataBytesV vs v)
  | .nil, v => Empty.elim v
  | .unit rest, .inl _ => by
    show 1 ≤ (1 + (1 + typeSizeV rest)) * 1
    omega
  | .unit rest, .inr v => by
    have h := valuesV_le rest v
    have h1 : (1 + typeSizeV rest) * max 1 (dataBytesV rest v) ≤
        (1 + (1 + typeSizeV rest)) * max 1 (dataBytesV rest v) :=
      Nat.mul_le_mul_right _ (by omega)
    exact Nat.le_trans h h1
  | .data t rest, .inl v => by
    have h := values_le t v
    have h1 : typeSize t * max 1 (dataBytes t v) ≤ typeSize t * max 1 (1 + dataBytes t v) :=
      Nat.mul_le_mul_left _ (by omega)
    show 1 + values t v ≤ (1 + (typeSize t + typeSizeV rest)) * max 1 (1 + dataBytes t v)
    rw [Nat.add_mul, Nat.add_mul, Nat.one_mul]
    omega
  | .data t rest, .inr v => by
    have h := valuesV_le rest v
    have h1 : (1 + typeSizeV rest) * max 1 (dataBytesV rest v) ≤
        (1 + (typeSize t + typeSizeV rest)) * max 1 (dataBytesV rest v) :=
      Nat.mul_le_mul_right _ (by omega)
    exact Nat.le_trans h h1

end

end Ssz
