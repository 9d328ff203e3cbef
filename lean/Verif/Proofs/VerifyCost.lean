import Verif.Model.VerifyCost
import Verif.Proofs.Cost
import Verif.Proofs.MultiVerify
import Verif.Proofs.Prove

/-!
# Costs of verification
-/

namespace Ssz

open Spec Counted

@[simp] theorem steps_res (n : Nat) : (steps n).2 = .ok () := rfl

theorem within_steps_bind {β : Type} {n : Nat} {f : Unit → Counted β} {h s : Nat}
    (h2 : Within (f ()) h s) : Within (steps n >>= f) h (s + n) := by
  have := within_bind (x := steps n) (f := f) (h := 0) (s := n) ⟨Nat.le_refl _, Nat.le_refl _⟩
    (fun _ _ => h2)
  rwa [Nat.add_comm n s, Nat.zero_add] at this

theorem bind_of_ok {α β : Type} {x : Counted α} {f : α → Counted β} {a : α} (h : x.2 = .ok a) :
    (x >>= f).1 = ⟨x.1.hashes + (f a).1.hashes, x.1.steps + (f a).1.steps⟩ := by
  show (Counted.bind x f).1 = _
  unfold Counted.bind
  rw [h]

/-! ## The counters change nothing -/

theorem branchLoopC_res (E : Env) (index : Nat) : ∀ (bs : List Node) (i : Nat) (n : Node),
    (branchLoopC E index i bs n).2 = branchLoop E index i bs n
  | [], _, _ => rfl
  | _ :: bs, i, _ => by
    simp only [branchLoopC, branchLoop, bind_res, step_res, free_res, hash_res, Res.ok_bind,
      branchLoopC_res E index bs]

theorem isValidC_res (E : Env) (leaf : Node) (branch : List Node) (depth index : Nat) (root : Node) :
    (isValidMerkleBranchC E leaf branch depth index root).2 =
      isValidMerkleBranch E leaf branch depth index root := by
  rw [isValidMerkleBranchC, isValidMerkleBranch]
  split
  · rfl
  · rw [bind_res, branchLoopC_res]
    congr 1; funext d
    split <;> rfl

theorem verifyC_res (E : Env) (p : Proof) (root : Node) : (p.verifyC E root).2 = p.verify E root := by
  simp only [Proof.verifyC, Proof.verify, isValidMerkleBranchForGeneralizedIndexC,
    isValidMerkleBranchForGeneralizedIndex, bind_res, free_res, isValidC_res]

theorem merkleRootLoopC_res (E : Env) (index : Nat) : ∀ (bs : List Node) (i : Nat) (n : Node),
    (merkleRootLoopC E index i bs n).2 = merkleRootLoop E index i bs n
  | [], _, _ => rfl
  | _ :: bs, i, _ => by
    simp only [merkleRootLoopC, merkleRootLoop, bind_res, step_res, free_res, hash_res, Res.ok_bind,
      merkleRootLoopC_res E index bs]

theorem verifyMerkleProofC_res (E : Env) (leaf : Node) (proof : List Node) (index : Nat)
    (root : Node) : (verifyMerkleProofC E leaf proof index root).2 =
      verifyMerkleProof E leaf proof index root := by
  simp only [verifyMerkleProofC, verifyMerkleProof, calculateMerkleRootC, calculateMerkleRoot,
    bind_res, free_res]
  congr 1
  · congr 1; funext n
    split
    · rfl
    · exact merkleRootLoopC_res E index _ _ _
  · funext r
    split <;> rfl

theorem branchIndicesLoopC_spec (focus : Nat) : ∀ acc,
    (branchIndicesLoopC focus acc).2 = .ok (branchIndicesLoop focus acc) ∧
    (branchIndicesLoopC focus acc).1.hashes = 0 ∧
    (branchIndicesLoopC focus acc).1.steps + acc.length = (branchIndicesLoop focus acc).length := by
  induction focus using Nat.strongRecOn with
  | _ focus ih =>
    intro acc
    rw [branchIndicesLoopC, branchIndicesLoop]
    split
    · rename_i h
      obtain ⟨h1, h2, h3⟩ := ih _ (sibling_parent_lt h) (acc ++ [sibling (parent focus)])
      rw [List.length_append, List.length_singleton] at h3
      rw [bind_of_ok step_res]
      refine ⟨h1, ?_, ?_⟩
      · rw [h2]; rfl
      · rw [step_steps, ← h3]; dsimp only; omega
    · exact ⟨rfl, rfl, Nat.zero_add _⟩

theorem pathIndicesLoopC_spec (focus : Nat) : ∀ acc,
    (pathIndicesLoopC focus acc).2 = .ok (pathIndicesLoop focus acc) ∧
    (pathIndicesLoopC focus acc).1.hashes = 0 ∧
    (pathIndicesLoopC focus acc).1.steps + acc.length = (pathIndicesLoop focus acc).length := by
  induction focus using Nat.strongRecOn with
  | _ focus ih =>
    intro acc
    rw [pathIndicesLoopC, pathIndicesLoop]
    split
    · obtain ⟨h1, h2, h3⟩ := ih (parent focus) (by simp only [parent]; omega) (acc ++ [parent focus])
      rw [List.length_append, List.length_singleton] at h3
      rw [bind_of_ok step_res]
      refine ⟨h1, ?_, ?_⟩
      · rw [h2]; rfl
      · rw [step_steps, ← h3]; dsimp only; omega
    · exact ⟨rfl, rfl, Nat.zero_add _⟩

theorem getPathIndices_length (g : Nat) : (getPathIndices g).length = Nat.log2 g := by
  induction g using Nat.strongRecOn with
  | _ g ih =>
    by_cases h : 1 < g
    · rw [getPathIndices_step h, List.length_cons, ih _ (by omega), log2_half h]
    · rw [getPathIndices_small (by omega)]
      have : g = 0 ∨ g = 1 := by omega
      rcases this with rfl | rfl <;> decide +kernel

theorem getBranchIndicesC_spec (i : Nat) : (getBranchIndicesC i).2 = .ok (getBranchIndices i) ∧
    (getBranchIndicesC i).1.hashes = 0 ∧ (getBranchIndicesC i).1.steps = Nat.log2 i := by
  obtain ⟨h1, h2, h3⟩ := branchIndicesLoopC_spec (sibling i) [sibling i]
  have h4 := getBranchIndices_length i
  rw [getBranchIndices, List.length_dropLast, ← h3, List.length_singleton] at h4
  refine ⟨?_, ?_, ?_⟩
  · rw [getBranchIndicesC, bind_res, h1]; rfl
  · rw [getBranchIndicesC, bind_of_ok h1, h2]; rfl
  · rw [getBranchIndicesC, bind_of_ok h1, free_steps]; dsimp only; omega

theorem getPathIndicesC_spec (i : Nat) : (getPathIndicesC i).2 = .ok (getPathIndices i) ∧
    (getPathIndicesC i).1.hashes = 0 ∧ (getPathIndicesC i).1.steps = Nat.log2 i := by
  obtain ⟨h1, h2, h3⟩ := pathIndicesLoopC_spec i [i]
  have h4 := getPathIndices_length i
  rw [getPathIndices, List.length_dropLast, ← h3, List.length_singleton] at h4
  refine ⟨?_, ?_, ?_⟩
  · rw [getPathIndicesC, bind_res, h1]; rfl
  · rw [getPathIndicesC, bind_of_ok h1, h2]; rfl
  · rw [getPathIndicesC, bind_of_ok h1, free_steps]; dsimp only; omega

/-- The lengths of the paths to the indices, together. -/
def depths (is : List Nat) : Nat := (is.map Nat.log2).sum

theorem helperLoopC_spec : ∀ is : List Nat,
    (helperLoopC is).2 = .ok (is.flatMap getBranchIndices, is.flatMap getPathIndices) ∧
    (helperLoopC is).1.hashes = 0 ∧ (helperLoopC is).1.steps = is.length + 4 * depths is
  | [] => ⟨rfl, rfl, rfl⟩
  | i :: is => by
    obtain ⟨h1, h2, h3⟩ := helperLoopC_spec is
    obtain ⟨b1, b2, b3⟩ := getBranchIndicesC_spec i
    obtain ⟨p1, p2, p3⟩ := getPathIndicesC_spec i
    refine ⟨?_, ?_, ?_⟩
    · simp only [helperLoopC, bind_res, step_res, steps_res, free_res, Res.ok_bind, b1, p1, h1]
      rfl
    · simp only [helperLoopC]
      rw [bind_of_ok step_res, bind_of_ok b1, bind_of_ok (steps_res _), bind_of_ok p1,
        bind_of_ok (steps_res _), bind_of_ok h1, b2, p2, h2]
      rfl
    · simp only [helperLoopC]
      rw [bind_of_ok step_res, bind_of_ok b1, bind_of_ok (steps_res _), bind_of_ok p1,
        bind_of_ok (steps_res _), bind_of_ok h1, b3, p3, h3, getBranchIndices_length,
        getPathIndices_length, step_steps, free_steps, List.length_cons]
      have hd : depths (i :: is) = Nat.log2 i + depths is := rfl
      rw [hd]
      simp only [steps]
      omega

theorem flatMap_branch_length (is : List Nat) :
    (is.flatMap getBranchIndices).length = depths is := by
  rw [List.length_flatMap, depths]
  congr 1
  exact List.map_congr_left fun i _ => getBranchIndices_length i

theorem dedup_length_le (l : List Nat) : l.dedup.length ≤ l.length :=
  (List.dedup_sublist l).length_le

theorem sortDesc_length (l : List Nat) : (sortDesc l).length = l.length := by
  rw [sortDesc, List.length_mergeSort]

theorem helpers_length (is : List Nat) : (getHelperIndices is).length ≤ depths is := by
  rw [getHelperIndices, sortDesc_length]
  refine Nat.le_trans (List.length_filter_le _ _) (Nat.le_trans (dedup_length_le _) ?_)
  rw [flatMap_branch_length]

theorem getHelperIndicesC_spec (is : List Nat) :
    (getHelperIndicesC is).2 = .ok (getHelperIndices is) ∧
    (getHelperIndicesC is).1.hashes = 0 ∧
    (getHelperIndicesC is).1.steps ≤ is.length + 5 * depths is := by
  obtain ⟨h1, h2, h3⟩ := helperLoopC_spec is
  refine ⟨?_, ?_, ?_⟩
  · simp only [getHelperIndicesC, bind_res, h1, Res.ok_bind, steps_res]; rfl
  · simp only [getHelperIndicesC]
    rw [bind_of_ok h1, bind_of_ok (steps_res _), h2]; rfl
  · simp only [getHelperIndicesC]
    rw [bind_of_ok h1, bind_of_ok (steps_res _), h3, free_steps]
    have := dedup_length_le (is.flatMap getBranchIndices)
    rw [flatMap_branch_length] at this
    simp only [steps]
    omega

theorem multiproofLoopC_res (E : Env) (keys : List Nat) (m : Objects) :
    (multiproofLoopC E keys m).2 = multiproofLoop E keys m := by
  induction keys, m using multiproofLoop.induct E with
  | case1 m => rw [multiproofLoopC, multiproofLoop]; rfl
  | case2 m key keys hc ri li left right hr hl node ih =>
    rw [multiproofLoopC, multiproofLoop, dif_pos hc, bind_res, step_res, Res.ok_bind, dif_pos hc]
    have hl' : m.get (sibling (key ||| 1)) = some left := hl
    have hr' : m.get (key ||| 1) = some right := hr
    simp only [hl', hr', bind_res, hash_res, Res.ok_bind]
    exact ih
  | case3 m key keys hc ri li hno =>
    rw [multiproofLoopC, multiproofLoop, dif_pos hc, bind_res, step_res, Res.ok_bind, dif_pos hc]
    dsimp only
    cases hl : m.get (sibling (key ||| 1)) with
    | none => rfl
    | some l =>
      cases hr : m.get (key ||| 1) with
      | none => rfl
      | some r => exact absurd hr (hno l r hl)
  | case4 m key keys hc ih =>
    rw [multiproofLoopC, multiproofLoop, dif_neg hc, bind_res, step_res, Res.ok_bind, dif_neg hc]
    exact ih

theorem calcC_res (E : Env) (leaves proof : List Node) (is : List Nat) :
    (calculateMultiMerkleRootC E leaves proof is).2 = calculateMultiMerkleRoot E leaves proof is := by
  rw [calculateMultiMerkleRootC, calculateMultiMerkleRoot]
  split
  · rfl
  · rw [bind_res, (getHelperIndicesC_spec is).1, Res.ok_bind]
    dsimp only
    split
    · rfl
    · simp only [bind_res, steps_res, Res.ok_bind, multiproofLoopC_res]
      congr 1; funext m
      cases m.get 1 <;> rfl

theorem verifyMultiC_res (E : Env) (leaves proof : List Node) (is : List Nat) (root : Node) :
    (verifyMerkleMultiproofC E leaves proof is root).2 =
      verifyMerkleMultiproof E leaves proof is root := by
  rw [verifyMerkleMultiproofC, verifyMerkleMultiproof, bind_res, calcC_res]
  congr 1; funext r
  split <;> rfl

/-! ## Single proofs -/

theorem branchLoopC_within (E : Env) (index : Nat) : ∀ (bs : List Node) (i : Nat) (n : Node),
    Within (branchLoopC E index i bs n) bs.length bs.length
  | [], _, _ => within_free _ _ _
  | _ :: bs, i, _ => by
    rw [branchLoopC, List.length_cons]
    exact within_step_bind (within_free_bind fun _ _ => within_free_bind fun _ _ =>
      within_hash_bind fun _ _ => branchLoopC_within E index bs _ _)

theorem isValidC_within (E : Env) (leaf : Node) (branch : List Node) (depth index : Nat)
    (root : Node) : Within (isValidMerkleBranchC E leaf branch depth index root)
      (min branch.length depth) (min branch.length depth) := by
  rw [isValidMerkleBranchC]
  split
  · exact within_free _ _ _
  · rename_i h
    rw [← not_not.1 h, Nat.min_self]
    refine within_bind (h' := 0) (s' := 0) (branchLoopC_within E index branch 0 leaf) fun d _ => ?_
    split <;> exact within_free _ _ _

theorem branchLoopC_hashes (E : Env) (index : Nat) : ∀ (bs : List Node) (i : Nat) (n : Node),
    i + bs.length ≤ 64 → (branchLoopC E index i bs n).1.hashes = bs.length
  | [], _, _, _ => rfl
  | b :: bs, i, n, h => by
    rw [List.length_cons] at h
    have hne : 2 ^ i ≠ 0 := Nat.pos_iff_ne_zero.1 (Nat.two_pow_pos i)
    have h1 : (free (E.pow2 i).lift : Counted Nat).2 = .ok (2 ^ i) := by
      rw [pow2_ok (by omega)]; rfl
    have h2 : (free (usizeDiv index (2 ^ i)) : Counted Nat).2 = .ok (index / 2 ^ i) := by
      rw [free_res, usizeDiv, if_neg hne]
    rw [branchLoopC, bind_of_ok step_res, bind_of_ok h1, bind_of_ok h2, bind_of_ok (hash_res _)]
    dsimp only
    rw [branchLoopC_hashes E index bs (i + 1) _ (by omega), List.length_cons]
    simp only [step_hashes, free_hashes, hash_hashes]
    omega

theorem verifyC_hashes (E : Env) (p : Proof) (root : Node) (hg : p.index < 2 ^ 64) :
    (p.verifyC E root).1.hashes =
      if p.index ≠ 0 ∧ p.branch.length = Nat.log2 p.index then Nat.log2 p.index else 0 := by
  rw [Proof.verifyC, isValidMerkleBranchForGeneralizedIndexC]
  by_cases h0 : p.index = 0
  · rw [if_neg (fun h => h.1 h0), h0]
    rfl
  · have h1 : (free (getDepth p.index) : Counted Nat).2 = .ok (Nat.log2 p.index) :=
      getDepth_ok (by omega)
    have h2 : (free (getSubtreeIndex E p.index) : Counted Nat).2 =
        .ok (p.index % 2 ^ Nat.log2 p.index) := by
      rw [free_res, getSubtreeIndex, getDepth_ok (by omega), Res.ok_bind, getIndex,
        pow2_ok (log2_lt64 hg), Res.lift_ok, Res.ok_bind, usizeRem_pow]
    rw [bind_of_ok h1, bind_of_ok h2, isValidMerkleBranchC]
    simp only [free_hashes]
    by_cases hl : p.branch.length = Nat.log2 p.index
    · rw [if_neg (not_not.2 hl), if_pos ⟨h0, hl⟩]
      have h3 := branchLoopC_res E (p.index % 2 ^ Nat.log2 p.index) p.branch 0 p.leaf
      have h4 := log2_lt64 hg
      rw [branchLoop_ok E _ p.branch 0 _ (by omega)] at h3
      rw [bind_of_ok h3]
      dsimp only
      rw [branchLoopC_hashes E _ p.branch 0 _ (by omega), hl]
      split <;> simp
    · rw [if_pos hl, if_neg (fun h => hl h.2)]
      rfl

theorem merkleRootLoopC_within (E : Env) (index : Nat) : ∀ (bs : List Node) (i : Nat) (n : Node),
    Within (merkleRootLoopC E index i bs n) bs.length bs.length
  | [], _, _ => within_free _ _ _
  | _ :: bs, i, _ => by
    rw [merkleRootLoopC, List.length_cons]
    exact within_step_bind (within_free_bind fun _ _ =>
      within_hash_bind fun _ _ => merkleRootLoopC_within E index bs _ _)

theorem verifyMerkleProofC_within (E : Env) (leaf : Node) (proof : List Node) (index : Nat)
    (root : Node) : Within (verifyMerkleProofC E leaf proof index root)
      (min proof.length (Nat.log2 index)) (min proof.length (Nat.log2 index)) := by
  suffices h : Within (calculateMerkleRootC E leaf proof index)
      (min proof.length (Nat.log2 index)) (min proof.length (Nat.log2 index)) from
    within_bind (h' := 0) (s' := 0) h fun r _ => by split <;> exact within_free _ _ _
  refine within_free_bind fun n hn => ?_
  split
  · exact within_free _ _ _
  · rename_i h
    have h1 : n = Nat.log2 index := by
      unfold getPathLength getDepth log2 at hn
      split at hn
      · rename_i h1
        split at h1
        · nomatch h1
        · cases h1; cases hn; rfl
      · nomatch hn
    rw [← h1, not_not.1 h, Nat.min_self]
    exact merkleRootLoopC_within E index proof 0 leaf

/-! ## Multiproofs -/

theorem multiproofLoopC_spec (E : Env) (B : Nat → Prop) (keys : List Nat) (m : Objects) :
    (∀ k, m.contains k = true → 1 ≤ parent k → B (parent k)) →
    (∀ k, B k → 1 ≤ parent k → B (parent k)) →
    ∃ xs : List Nat, xs.Nodup ∧ (∀ x ∈ xs, m.contains x = false ∧ 1 ≤ x ∧ B x) ∧
      (∀ m', multiproofLoop E keys m = .ok m' →
        ∀ g, m'.contains g = true ↔ m.contains g = true ∨ g ∈ xs) ∧
      (multiproofLoopC E keys m).1.hashes = xs.length ∧
      (multiproofLoopC E keys m).1.steps ≤ keys.length + xs.length := by
  induction keys, m using multiproofLoop.induct E with
  | case1 m =>
    intro _ _
    refine ⟨[], List.nodup_nil, nofun, fun m' h g => ?_, by rw [multiproofLoopC]; rfl,
      by rw [multiproofLoopC]; exact Nat.zero_le _⟩
    rw [multiproofLoop] at h
    cases h
    simp
  | case2 m key keys hc ri li left right hr hl node ih =>
    intro h1 h2
    have hl' : m.get (sibling (key ||| 1)) = some left := hl
    have hr' : m.get (key ||| 1) = some right := hr
    have hc' := hc
    rw [Bool.and_eq_true, Bool.and_eq_true, Bool.not_eq_true'] at hc'
    obtain ⟨⟨hc1, hc2⟩, hc3⟩ := hc'
    have hkey : 1 ≤ parent key := by
      rcases Nat.eq_zero_or_pos (parent key) with h | h
      · exfalso
        have : key = 0 ∨ key = 1 := by simp only [parent] at h; omega
        rcases this with rfl | rfl
        · have h2 : parent 0 = 0 := by decide
          rw [h2, hc1] at hc3; cases hc3
        · have h2 : sibling 1 = parent 1 := by decide
          rw [h2, hc3] at hc2; cases hc2
      · exact h
    have hB : B (parent key) := h1 key hc1 hkey
    have hins : ∀ g, (m.insert (parent key) node).contains g = true ↔
        m.contains g = true ∨ g = parent key := by
      intro g
      rw [contains_iff, contains_iff, get_insert]
      split
      · rename_i h; exact ⟨fun _ => .inr h, fun _ => ⟨_, rfl⟩⟩
      · rename_i h; exact ⟨.inl, fun h' => h'.resolve_right h⟩
    obtain ⟨xs, r1, r2, r3, r4, r5⟩ := ih (fun k hk h => by
      rcases (hins k).1 hk with h3 | h3
      · exact h1 k h3 h
      · exact h2 k (h3 ▸ hB) h) h2
    have hnot : ∀ x, (m.insert (parent key) node).contains x = false →
        m.contains x = false ∧ x ≠ parent key := by
      intro x hx
      have h3 := mt (hins x).2 (by rw [hx]; decide)
      rw [not_or, Bool.not_eq_true] at h3
      exact h3
    refine ⟨parent key :: xs, List.nodup_cons.2 ⟨fun h => (hnot _ (r2 _ h).1).2 rfl, r1⟩, ?_, ?_, ?_, ?_⟩
    · intro x hx
      rcases List.mem_cons.1 hx with rfl | hx
      · exact ⟨hc3, hkey, hB⟩
      · exact ⟨(hnot x (r2 x hx).1).1, (r2 x hx).2⟩
    · intro m' hm g
      rw [multiproofLoop, dif_pos hc] at hm
      simp only [hl', hr'] at hm
      rw [r3 m' hm g, hins, List.mem_cons, or_assoc]
    · rw [multiproofLoopC, bind_of_ok step_res, dif_pos hc]
      simp only [hl', hr']
      rw [bind_of_ok (hash_res _), List.length_cons, step_hashes, hash_hashes]
      dsimp only
      exact (by omega : ∀ a b : Nat, a = b → 0 + (1 + a) = b + 1) _ _ r4
    · rw [multiproofLoopC, bind_of_ok step_res, dif_pos hc]
      simp only [hl', hr']
      rw [bind_of_ok (hash_res _), List.length_cons, step_steps, hash_steps]
      rw [List.length_append, List.length_singleton] at r5
      dsimp only
      rw [List.length_cons]
      exact (by omega : ∀ a b c : Nat, a ≤ b + 1 + c → 1 + (0 + a) ≤ b + 1 + (c + 1)) _ _ _ r5
  | case3 m key keys hc ri li hno =>
    intro _ _
    have hc' := hc
    rw [Bool.and_eq_true, Bool.and_eq_true, Bool.not_eq_true'] at hc'
    obtain ⟨⟨hc1, hc2⟩, hc3⟩ := hc'
    exfalso
    have hri : ri = 2 * parent key + 1 := or_one_eq key
    have hli : li = 2 * parent key := by rw [← sibling_odd, ← hri]
    obtain ⟨x, hx⟩ := (contains_iff _ _).1 hc1
    obtain ⟨y, hy⟩ := (contains_iff _ _).1 hc2
    rcases Nat.mod_two_eq_zero_or_one key with hp | hp
    · have h1 : key = 2 * parent key := by simp only [parent]; omega
      rw [h1, sibling_even] at hy
      rw [h1] at hx
      exact hno x y (hli ▸ hx) (hri ▸ hy)
    · have h1 : key = 2 * parent key + 1 := by simp only [parent]; omega
      rw [h1, sibling_odd] at hy
      rw [h1] at hx
      exact hno y x (hli ▸ hy) (hri ▸ hx)
  | case4 m key keys hc ih =>
    intro h1 h2
    obtain ⟨xs, r1, r2, r3, r4, r5⟩ := ih h1 h2
    refine ⟨xs, r1, r2, fun m' hm => r3 m' ?_, ?_, ?_⟩
    · rw [multiproofLoop, dif_neg hc] at hm
      exact hm
    · rw [multiproofLoopC, bind_of_ok step_res, dif_neg hc, step_hashes, Nat.zero_add]
      exact r4
    · rw [multiproofLoopC, bind_of_ok step_res, dif_neg hc, step_steps, List.length_cons]
      dsimp only
      omega

theorem insertAll_length (kvs : List (Nat × Node)) : ∀ m : Objects,
    (Objects.insertAll m kvs).length ≤ m.length + kvs.length := by
  induction kvs with
  | nil => intro m; exact Nat.le_refl _
  | cons kv kvs ih =>
    intro m
    refine Nat.le_trans (ih (m.insert kv.1 kv.2)) ?_
    have : (m.insert kv.1 kv.2).length ≤ m.length + 1 := by
      rw [Objects.insert, List.length_cons]
      exact Nat.succ_le_succ (List.length_filter_le _ _)
    rw [List.length_cons]
    omega

theorem startKeys_length {leaves proof : List Node} {is : List Nat} :
    (sortDesc (startMap leaves proof is).keys).length ≤ is.length + (getHelperIndices is).length := by
  rw [sortDesc_length, Objects.keys, List.length_map]
  refine Nat.le_trans (insertAll_length _ _) (Nat.add_le_add
    (Nat.le_trans (insertAll_length _ _) ?_) ?_)
  · rw [List.length_zip]
    show 0 + _ ≤ _
    omega
  · rw [List.length_zip]
    omega

/-- The ancestors of the indices. -/
def Above (is : List Nat) (g : Nat) : Prop := ∃ i ∈ is, ∃ k, i / 2 ^ (k + 1) = g

theorem above_start {leaves proof : List Node} {is : List Nat}
    (hl : leaves.length = is.length) (hp : proof.length = (getHelperIndices is).length) (k : Nat)
    (h : (startMap leaves proof is).contains k = true) : Above is (parent k) := by
  rcases (startMap_contains hl hp k).1 h with h | h
  · exact ⟨k, h, 0, by simp [parent]⟩
  · obtain ⟨⟨i, hi, n, -, rfl⟩, -⟩ := mem_getHelperIndices.1 h
    refine ⟨i, hi, n, ?_⟩
    rw [← sibling_other, parent_sibling, parent, Nat.div_div_eq_div_mul, Nat.pow_succ]

theorem above_parent {is : List Nat} {k : Nat} (h : Above is k) : Above is (parent k) := by
  obtain ⟨i, hi, n, rfl⟩ := h
  exact ⟨i, hi, n + 1, by rw [parent, Nat.div_div_eq_div_mul, ← Nat.pow_succ]⟩

theorem above_length {is xs : List Nat} (hn : xs.Nodup) (h : ∀ x ∈ xs, 1 ≤ x ∧ Above is x) :
    xs.length ≤ depths is := by
  have hsub : xs ⊆ is.flatMap fun i => (List.range (Nat.log2 i)).map fun k => i / 2 ^ (k + 1) := by
    intro x hx
    obtain ⟨h1, i, hi, k, rfl⟩ := h x hx
    refine List.mem_flatMap.2 ⟨i, hi, List.mem_map.2 ⟨k, List.mem_range.2 ?_, rfl⟩⟩
    refine log2_div_pow ?_
    rw [Nat.pow_succ, ← Nat.div_div_eq_div_mul] at h1
    omega
  refine Nat.le_trans (List.subperm_of_subset hn hsub).length_le ?_
  rw [List.length_flatMap, depths]
  refine Nat.le_of_eq (congrArg List.sum (List.map_congr_left fun i _ => ?_))
  rw [List.length_map, List.length_range]

theorem calcC_spec (E : Env) {leaves proof : List Node} {is : List Nat}
    (hl : leaves.length = is.length) (hp : proof.length = (getHelperIndices is).length) :
    ∃ xs : List Nat, xs.Nodup ∧ (∀ g, g ∈ xs ↔ 1 ≤ g ∧ g ∉ is ∧ Above is g) ∧
      (calculateMultiMerkleRootC E leaves proof is).1.hashes = xs.length ∧
      (calculateMultiMerkleRootC E leaves proof is).1.steps ≤ 4 * is.length + 9 * depths is := by
  obtain ⟨xs, r1, r2, r3, r4, r5⟩ := multiproofLoopC_spec E (Above is)
    (sortDesc (startMap leaves proof is).keys) (startMap leaves proof is)
    (fun k hk _ => above_start hl hp k hk) (fun k hk _ => above_parent hk)
  obtain ⟨m', e, s1, -, s3⟩ := multiproofLoop_ok E (fun _ _ => True) (startMap leaves proof is)
    (fun _ _ _ _ _ _ _ => trivial) (sortDesc (startMap leaves proof is).keys)
    (startMap leaves proof is) (fun _ _ h => h) (fun _ _ _ => trivial) (start_keys _)
  have e' : (multiproofLoopC E (sortDesc (startMap leaves proof is).keys)
      (startMap leaves proof is)).2 = .ok m' := by rw [multiproofLoopC_res, e]
  obtain ⟨g1, g2, g3⟩ := getHelperIndicesC_spec is
  have hlen := above_length r1 fun x hx => (r2 x hx).2
  have hH := helpers_length is
  have hK := startKeys_length (leaves := leaves) (proof := proof) (is := is)
  refine ⟨xs, r1, fun g => ⟨fun h => ?_, fun ⟨h1, h2, h3⟩ => ?_⟩, ?_, ?_⟩
  · obtain ⟨h1, h2, h3⟩ := r2 g h
    refine ⟨h2, fun hg => ?_, h3⟩
    rw [(startMap_contains hl hp g).2 (.inl hg)] at h1
    nomatch h1
  · obtain ⟨i, hi, k, hk⟩ := h3
    have hpres : m'.contains g = true := by
      refine paths_present (is := is) (fun g hg => ?_) s3 g h1 ⟨i, hi, k + 1, hk⟩
      obtain ⟨n, hn⟩ := (contains_iff _ _).1 ((startMap_contains hl hp g).2 hg)
      exact (contains_iff _ _).2 ⟨n, s1 g n hn⟩
    refine ((r3 m' e g).1 hpres).resolve_left fun h => ?_
    rcases (startMap_contains hl hp g).1 h with h | h
    · exact h2 h
    · exact (mem_getHelperIndices.1 h).2 ⟨i, hi, k + 1, hk⟩
  · rw [calculateMultiMerkleRootC, if_neg (not_not.2 hl), bind_of_ok g1, if_neg (not_not.2 hp),
      bind_of_ok (steps_res _), bind_of_ok (steps_res _), bind_of_ok (steps_res _)]
    rw [show Objects.insertAll (Objects.insertAll [] (is.zip leaves))
      ((getHelperIndices is).zip proof) = startMap leaves proof is from rfl, bind_of_ok e', r4, g2]
    cases m'.get 1 <;> simp only [steps, free_hashes] <;> omega
  · rw [calculateMultiMerkleRootC, if_neg (not_not.2 hl), bind_of_ok g1, if_neg (not_not.2 hp),
      bind_of_ok (steps_res _), bind_of_ok (steps_res _), bind_of_ok (steps_res _)]
    rw [show Objects.insertAll (Objects.insertAll [] (is.zip leaves))
      ((getHelperIndices is).zip proof) = startMap leaves proof is from rfl, bind_of_ok e']
    cases m'.get 1 <;> simp only [steps, free_steps] <;> omega

theorem verifyMultiC_within (E : Env) (leaves proof : List Node) (is : List Nat) (root : Node) :
    Within (verifyMerkleMultiproofC E leaves proof is root) (depths is)
      (4 * is.length + 9 * depths is) := by
  suffices h : Within (calculateMultiMerkleRootC E leaves proof is) (depths is)
      (4 * is.length + 9 * depths is) from
    within_bind (h' := 0) (s' := 0) h fun r _ => by split <;> exact within_free _ _ _
  by_cases hl : leaves.length = is.length
  · by_cases hp : proof.length = (getHelperIndices is).length
    · obtain ⟨xs, h1, h2, h3, h4⟩ := calcC_spec E hl hp
      exact ⟨h3 ▸ above_length h1 fun x hx => ⟨((h2 x).1 hx).1, ((h2 x).1 hx).2.2⟩, h4⟩
    · obtain ⟨g1, g2, g3⟩ := getHelperIndicesC_spec is
      rw [calculateMultiMerkleRootC, if_neg (not_not.2 hl)]
      refine within_mono (within_bind (h := 0) (s := is.length + 5 * depths is) (h' := 0) (s' := 0)
        ⟨Nat.le_of_eq g2, g3⟩ fun a ha => ?_) (by omega) (by omega)
      rw [g1] at ha
      cases ha
      rw [if_pos hp]
      exact within_free _ _ _
  · rw [calculateMultiMerkleRootC, if_pos hl]
    exact within_free _ _ _

end Ssz
