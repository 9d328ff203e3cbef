import Verif.Model.WidthProve
import Verif.Spec.WidthProve
import Verif.Proofs.WidthCode
import Verif.Proofs.WidthRoot
import Verif.Proofs.Prove

/-!
# The making of proofs on targets with a smaller `usize`
-/

namespace Ssz

open Spec

variable {α : Type}

/-! ## 64 bits -/

theorem siblingsLoopW_64 (E : Env) (tree : Tree) (n target : Nat) (branch : List Node) :
    siblingsLoopW 64 E tree n target branch = siblingsLoop E tree n target branch := by
  induction n generalizing target branch with
  | zero => rfl
  | succ n ih => rw [siblingsLoopW, siblingsLoop]; simp only [ih]; rfl

theorem computeProofW_64 (E : Env) (T : SimpleSerialize α) (v : α) (prover : Prover) :
    computeProofW 64 E T.chunkCount (T.decoration v) (T.chunks v) (T.proveElement v) prover =
      computeProof E T v prover := by
  unfold computeProofW computeProof
  simp only [siblingsLoopW_64]
  rfl

/-! ## Less than 64 bits -/

theorem shrinkIndex_le (n i : Nat) : shrinkIndex n i ≤ n := by
  induction i using Nat.strong_induction_on with
  | _ i ih =>
    unfold shrinkIndex
    split
    · exact ih (i / 2) (by omega)
    · omega

theorem shrinkIndex_le_self (n i : Nat) : shrinkIndex n i ≤ i := by
  induction i using Nat.strong_induction_on with
  | _ i ih =>
    unfold shrinkIndex
    split
    · exact Nat.le_trans (ih (i / 2) (by omega)) (by omega)
    · exact Nat.le_refl _

theorem getDepth_inv {i d : Nat} (h : getDepth i = .ok d) : i ≠ 0 ∧ d = Nat.log2 i := by
  unfold getDepth log2 at h
  split at h
  · rename_i h1
    split at h1
    · cases h1
    · cases h1; cases h; exact ⟨by assumption, rfl⟩
  · cases h

theorem pow2W_same {b k : Nat} {E : Env} (hb' : b ≤ 64) (h : k < b) : (E.on b).pow2 k = (E.on 64).pow2 k := by
  unfold Target.pow2
  rw [if_pos (by exact h), if_pos (show k < 64 by omega)]

theorem addW_eq {b x y : Nat} {E : Env} (hb' : b ≤ 64) (h : x + y < 2 ^ b) :
    (E.on b).add x y = (E.on 64).add x y := by
  rw [add_fits (by exact h), add_fits (Nat.lt_of_lt_of_le h (pow_le_64 hb'))]

theorem mulW_eq {b x y : Nat} {E : Env} (hb' : b ≤ 64) (h : x * y < 2 ^ b) :
    (E.on b).mul x y = (E.on 64).mul x y := by
  rw [mul_fits (by exact h), mul_fits (Nat.lt_of_lt_of_le h (pow_le_64 hb'))]

theorem subW_eq {b x y : Nat} {E : Env} (h : y ≤ x) : (E.on b).sub x y = (E.on 64).sub x y := by
  unfold Target.sub
  rw [if_pos h, if_pos h]

theorem getIndexW_eq {b i d : Nat} {E : Env} (hb' : b ≤ 64) (h : d < b) :
    getIndexW (E.on b) i d = getIndexW (E.on 64) i d := by
  unfold getIndexW
  rw [pow2W_same hb' h]

theorem coordsW_eq {b : Nat} (hb : 32 ≤ b) (hb' : b ≤ 64) (E : Env) (i : Nat) {L : Nat} (h1 : 1 ≤ L)
    (hL : L ≤ 2 ^ (b - 7)) :
    computeLocalMerkleCoordinatesW b E i L = computeLocalMerkleCoordinatesW 64 E i L := by
  have p : 2 ^ b = 128 * 2 ^ (b - 7) := by
    conv_lhs => rw [show b = 7 + (b - 7) by omega, Nat.pow_add]
  unfold computeLocalMerkleCoordinatesW
  rw [mulW_eq hb' (by omega)]
  rw [mul_fits (show 2 * L < 2 ^ 64 from Nat.lt_of_lt_of_le (by omega) (pow_le_64 hb'))]
  simp only [Res.lift_ok, Res.ok_bind]
  rw [subW_eq (by omega)]
  rw [show (E.on 64).sub (2 * L) 1 = .ok (2 * L - 1) from if_pos (by omega)]
  simp only [Res.lift_ok, Res.ok_bind]
  cases hd : getDepth (shrinkIndex (2 * L - 1) i) with
  | err e => rfl
  | panic => rfl
  | ok d =>
    obtain ⟨h0, rfl⟩ := getDepth_inv hd
    have := shrinkIndex_le (2 * L - 1) i
    have hlt : Nat.log2 (shrinkIndex (2 * L - 1) i) < b := (Nat.log2_lt h0).2 (by omega)
    simp only [Res.ok_bind]
    rw [getIndexW_eq hb' hlt]

/-- What the coordinates are. -/
theorem coordsW_ok {E : Env} {i L d x g : Nat} (h1 : 1 ≤ L) (hL : 2 * L < 2 ^ 64)
    (h : computeLocalMerkleCoordinatesW 64 E i L = .ok (d, x, g)) :
    g ≠ 0 ∧ g ≤ i ∧ g ≤ 2 * L - 1 ∧ d = Nat.log2 g := by
  unfold computeLocalMerkleCoordinatesW at h
  rw [mul_fits (by exact hL)] at h
  simp only [Res.lift_ok, Res.ok_bind] at h
  rw [show (E.on 64).sub (2 * L) 1 = .ok (2 * L - 1) from if_pos (by omega)] at h
  simp only [Res.lift_ok, Res.ok_bind] at h
  obtain ⟨d', hd, h⟩ := Res.bind_eq_ok.1 h
  obtain ⟨x', hx, h⟩ := Res.bind_eq_ok.1 h
  cases h
  obtain ⟨h0, rfl⟩ := getDepth_inv hd
  exact ⟨h0, shrinkIndex_le_self _ _, shrinkIndex_le _ _, rfl⟩

theorem getW_eq {b : Nat} (hb' : b ≤ 64) (E : Env) (tree : Tree) {g : Nat} (h0 : 1 ≤ g)
    (h : g * 32 < 2 ^ b) : Tree.getW b E tree g = Tree.getW 64 E tree g := by
  unfold Tree.getW
  rw [subW_eq h0, show (E.on 64).sub g 1 = .ok (g - 1) from if_pos h0]
  simp only [Res.lift_ok, Res.ok_bind]
  rw [mulW_eq hb' (by omega), mulW_eq hb' h]

theorem siblingsLoopW_eq {b : Nat} (hb' : b ≤ 64) (E : Env) (tree : Tree) (n target : Nat)
    (branch : List Node) (h1 : 2 ^ n ≤ target) (h : (target + 1) * 32 < 2 ^ b) :
    siblingsLoopW b E tree n target branch = siblingsLoopW 64 E tree n target branch := by
  induction n generalizing target branch with
  | zero => rfl
  | succ n ih =>
    rw [Nat.pow_succ] at h1
    have := Nat.two_pow_pos n
    have e1 : (E.on b).sub target 1 = .ok (target - 1) := if_pos (by omega)
    have e2 : (E.on 64).sub target 1 = .ok (target - 1) := if_pos (by omega)
    have e3 : (E.on b).add target 1 = .ok (target + 1) := if_pos (by show target + 1 < 2 ^ b; omega)
    have e4 : (E.on 64).add target 1 = .ok (target + 1) :=
      if_pos (Nat.lt_of_lt_of_le (by show target + 1 < 2 ^ b; omega) (pow_le_64 hb'))
    rw [siblingsLoopW, siblingsLoopW, e1, e2, e3, e4]
    simp only [Res.lift_ok, Res.ok_bind]
    rw [getW_eq hb' E tree (g := target - 1) (by omega) (by omega),
      getW_eq hb' E tree (g := target + 1) (by omega) (by omega)]
    have hr : ∀ node, siblingsLoopW b E tree n (target / 2) (branch ++ [node]) =
        siblingsLoopW 64 E tree n (target / 2) (branch ++ [node]) := fun node =>
      ih (target / 2) (branch ++ [node]) (by omega) (by omega)
    simp only [hr]

theorem computeMerkleTreeW_eq {b : Nat} (hb : 32 ≤ b) (hb' : b ≤ 64) (E : Env) (chunks : Bytes) {k : Nat}
    (hk : k ≤ b - 7) (hc : chunks.length ≤ 2 ^ (b - 1)) :
    computeMerkleTreeW b E chunks (2 ^ k) = computeMerkleTreeW 64 E chunks (2 ^ k) := by
  have p : 2 ^ b = 128 * 2 ^ (b - 7) := by
    conv_lhs => rw [show b = 7 + (b - 7) by omega, Nat.pow_add]
  have p1 : 2 ^ (b - 1) = 64 * 2 ^ (b - 7) := by
    conv_lhs => rw [show b - 1 = 6 + (b - 7) by omega, Nat.pow_add]
  have hL : 2 ^ k ≤ 2 ^ (b - 7) := Nat.pow_le_pow_right (by decide) hk
  have h0 := Nat.two_pow_pos k
  have h64 := pow_le_64 hb'
  have h63 : 2 ^ (b - 1) ≤ 2 ^ 63 := Nat.pow_le_pow_right (by decide) (by omega)
  have e0 : ∀ c, 32 ≤ c → b ≤ c → (E.on c).nextPowerOfTwo (2 ^ k) = .ok (2 ^ k) := fun c h1 h2 => by
    rw [nextW_ok (by omega) (Nat.pow_le_pow_right (by decide) (by omega)), depthFor,
      Nat.clog_pow _ _ (by decide)]
  have e1 : ∀ c, 2 ^ b ≤ 2 ^ c → (E.on c).mul 2 (2 ^ k) = .ok (2 * 2 ^ k) := fun c h => mul_fits (by show _ < 2 ^ c; omega)
  have e2 : ∀ c, (E.on c).sub (2 * 2 ^ k) 1 = .ok (2 * 2 ^ k - 1) := fun c => if_pos (by omega)
  have e3 : ∀ c, (E.on c).sub (2 * 2 ^ k - 1) (2 ^ k) = .ok (2 * 2 ^ k - 1 - 2 ^ k) := fun c => if_pos (by omega)
  have e4 : ∀ c, 2 ^ b ≤ 2 ^ c → (E.on c).mul (2 * 2 ^ k - 1 - 2 ^ k) 32 = .ok ((2 * 2 ^ k - 1 - 2 ^ k) * 32) :=
    fun c h => mul_fits (by show _ < 2 ^ c; omega)
  have e5 : ∀ c, 2 ^ b ≤ 2 ^ c → (E.on c).mul (2 * 2 ^ k - 1) 32 = .ok ((2 * 2 ^ k - 1) * 32) :=
    fun c h => mul_fits (by show _ < 2 ^ c; omega)
  have e6 : ∀ c, 2 ^ (b - 1) ≤ 2 ^ (c - 1) → zerosW c ((2 * 2 ^ k - 1) * 32) = .ok (List.replicate ((2 * 2 ^ k - 1) * 32) 0) :=
    fun c h => if_pos (by omega)
  have e7 : ∀ c, 2 ^ b ≤ 2 ^ c → (E.on c).add ((2 * 2 ^ k - 1 - 2 ^ k) * 32) chunks.length =
      .ok ((2 * 2 ^ k - 1 - 2 ^ k) * 32 + chunks.length) := fun c h => add_fits (by show _ < 2 ^ c; omega)
  unfold computeMerkleTreeW
  rw [e0 b hb (Nat.le_refl _), e0 64 (by decide) hb', e1 b (Nat.le_refl _), e1 64 h64]
  simp only [Res.lift_ok, Res.ok_bind]
  rw [e2 b, e2 64]
  simp only [Res.lift_ok, Res.ok_bind]
  rw [e3 b, e3 64]
  simp only [Res.lift_ok, Res.ok_bind]
  rw [e4 b (Nat.le_refl _), e4 64 h64, e5 b (Nat.le_refl _), e5 64 h64]
  simp only [Res.lift_ok, Res.ok_bind]
  rw [e6 b (Nat.le_refl _), e6 64 h63]
  simp only [Res.lift_ok, Res.ok_bind]
  rw [e7 b (Nat.le_refl _), e7 64 h64]

theorem computeProofW_eq {b : Nat} (hb : 32 ≤ b) (hb' : b ≤ 64) (E : Env) {c : Nat} (hc : c ≤ 2 ^ (b - 8))
    (deco : Option Nat) {ch : Res MerkError Bytes} (hch : ∀ x, ch = .ok x → x.length ≤ 2 ^ (b - 1))
    {pe pe' : Nat → Prover → Res MerkError Prover}
    (hpe : ∀ i (p : Prover), p.proof.index < 2 ^ b → pe i p = pe' i p) (pr : Prover)
    (hi : pr.proof.index < 2 ^ b) :
    computeProofW b E (.ok c) deco ch pe pr = computeProofW 64 E (.ok c) deco ch pe' pr := by
  have p : 2 ^ b = 128 * 2 ^ (b - 7) := by
    conv_lhs => rw [show b = 7 + (b - 7) by omega, Nat.pow_add]
  have p2 : 2 ^ (b - 7) = 2 * 2 ^ (b - 8) := by
    conv_lhs => rw [show b - 7 = 1 + (b - 8) by omega, Nat.pow_add]
  have p1 : 2 ^ (b - 1) = 64 * 2 ^ (b - 7) := by
    conv_lhs => rw [show b - 1 = 6 + (b - 7) by omega, Nat.pow_add]
  have h64 := pow_le_64 hb'
  have h63 : 2 ^ (b - 1) ≤ 2 ^ 63 := Nat.pow_le_pow_right (by decide) (by omega)
  have hD : depthFor c ≤ b - 8 := depthFor_le hc
  have hD2 : 2 ^ depthFor c ≤ 2 ^ (b - 8) := Nat.pow_le_pow_right (by decide) hD
  have hpos := Nat.two_pow_pos (depthFor c)
  obtain ⟨k, hk, hkd⟩ : ∃ k, k ≤ b - 7 ∧ (if deco.isSome then 2 ^ depthFor c * 2 else 2 ^ depthFor c) = 2 ^ k := by
    split
    · exact ⟨depthFor c + 1, by omega, (Nat.pow_succ _ _).symm⟩
    · exact ⟨depthFor c, by omega, rfl⟩
  have hK : 2 ^ k ≤ 2 ^ (b - 7) := Nat.pow_le_pow_right (by decide) hk
  have hKp := Nat.two_pow_pos k
  have hs : ∀ tree g br, g ≠ 0 → g ≤ 2 * 2 ^ k - 1 → siblingsLoopW b E tree (Nat.log2 g) g br =
      siblingsLoopW 64 E tree (Nat.log2 g) g br := fun tree g br h0 h1 =>
    siblingsLoopW_eq hb' E tree _ g br (Nat.log2_self_le h0) (by omega)
  have hroot : ∀ tree, Tree.getW b E tree 1 = Tree.getW 64 E tree 1 := fun tree =>
    getW_eq hb' E tree (Nat.le_refl _) (by omega)
  unfold computeProofW
  simp only [Res.lift_ok, Res.ok_bind]
  rw [nextW_ok (by omega) (by omega), nextW_ok (by omega) (by show _ ≤ 2 ^ 63; omega)]
  simp only [Res.lift_ok, Res.ok_bind]
  cases deco <;>
  · simp only [Option.isSome_none, Option.isSome_some, if_true, if_false, Bool.false_eq_true] at hkd ⊢
    try rw [mul_fits (show 2 ^ depthFor c * 2 < 2 ^ b by omega),
      mul_fits (show 2 ^ depthFor c * 2 < 2 ^ 64 by omega)]
    try simp only [Res.lift_ok, Res.ok_bind]
    rw [hkd, coordsW_eq hb hb' E pr.proof.index hKp hK]
    cases hco : computeLocalMerkleCoordinatesW 64 E pr.proof.index (2 ^ k) with
    | err e => rfl
    | panic => rfl
    | ok co =>
      obtain ⟨d, x, g⟩ := co
      obtain ⟨h0, hle, hn, rfl⟩ := coordsW_ok hKp (by omega) hco
      simp only [Res.ok_bind]
      by_cases hlt : g < pr.proof.index
      · simp only [hlt, if_true, decide_true, Bool.not_true, Bool.false_eq_true, if_false]
        cases hd : getDepth pr.proof.index with
        | err e => rfl
        | panic => rfl
        | ok d =>
          obtain ⟨hi0, rfl⟩ := getDepth_inv hd
          have hself := Nat.log2_self_le h0
          have hdl : Nat.log2 g ≤ Nat.log2 pr.proof.index := by
            rw [Nat.le_log2 hi0]; omega
          have hdb : Nat.log2 pr.proof.index < b := (Nat.log2_lt hi0).2 hi
          simp only [Res.ok_bind]
          rw [show E.sub (Nat.log2 pr.proof.index) (Nat.log2 g) =
            .ok (Nat.log2 pr.proof.index - Nat.log2 g) from if_pos hdl]
          simp only [Res.lift_ok, Res.ok_bind]
          generalize hcd : Nat.log2 pr.proof.index - Nat.log2 g = cd
          have hcd' : cd < b := by omega
          have hcp : 2 ^ cd ≤ 2 ^ (b - 1) := Nat.pow_le_pow_right (by decide) (by omega)
          have hr : pr.proof.index % 2 ^ cd < 2 ^ cd := Nat.mod_lt _ (Nat.two_pow_pos _)
          rw [pow2W_same hb' hcd', show (E.on 64).pow2 cd = .ok (2 ^ cd) from if_pos (show cd < 64 by omega)]
          simp only [Res.lift_ok, Res.ok_bind, usizeRem, if_neg (Nat.pos_iff_ne_zero.1 (Nat.two_pow_pos cd))]
          rw [addW_eq hb' (by omega), add_fits (show 2 ^ cd + pr.proof.index % 2 ^ cd < 2 ^ 64 by omega)]
          simp only [Res.lift_ok, Res.ok_bind]
          rw [hpe _ _ (show 2 ^ cd + pr.proof.index % 2 ^ cd < 2 ^ b by omega)]
          cases hx : ch with
          | err e => rfl
          | panic => rfl
          | ok chunks =>
            simp only [Res.ok_bind]
            rw [computeMerkleTreeW_eq hb hb' E chunks hk (hch chunks hx)]
            simp only [hroot, hs _ g _ h0 hn]
      · have hg : g = pr.proof.index := by omega
        have hget : ∀ tree, Tree.getW b E tree pr.proof.index = Tree.getW 64 E tree pr.proof.index := fun tree =>
          getW_eq hb' E tree (by omega) (by omega)
        simp only [hlt, if_false, decide_false, Bool.not_false, if_true]
        cases hx : ch with
        | err e => rfl
        | panic => rfl
        | ok chunks =>
          simp only [Res.ok_bind]
          rw [computeMerkleTreeW_eq hb hb' E chunks hk (hch chunks hx)]
          simp only [hroot, hs _ g _ h0 hn, hget]

/-! ## Types and values -/

theorem pow_8 {b : Nat} (hb : 32 ≤ b) : 2 ^ b = 256 * 2 ^ (b - 8) ∧ 2 ^ (b - 1) = 128 * 2 ^ (b - 8) ∧
    2 ^ (b - 6) = 4 * 2 ^ (b - 8) ∧ 0 < 2 ^ (b - 8) := by
  refine ⟨?_, ?_, ?_, Nat.two_pow_pos _⟩
  · conv_lhs => rw [show b = 8 + (b - 8) by omega, Nat.pow_add]
  · conv_lhs => rw [show b - 1 = 7 + (b - 8) by omega, Nat.pow_add]
  · conv_lhs => rw [show b - 6 = 2 + (b - 8) by omega, Nat.pow_add]

namespace Spec

mutual

theorem ShallowW.ranged {b : Nat} (hb : 32 ≤ b) : ∀ {t : Ty}, ShallowW b t → RangedW b t
  | .uint _, _ => trivial
  | .u256, _ => trivial
  | .bool, _ => trivial
  | .node, _ => trivial
  | .array _ _, h => ⟨h.2.2.ranged hb, h.2.1⟩
  | .vector _ _, h => ⟨h.2.2.ranged hb, h.2.1⟩
  | .list _ _, h => ⟨h.2.2.2.ranged hb, h.2.1⟩
  | .bitvector _, h => h
  | .bitlist _, h => h
  | .option t, h => ShallowW.ranged hb (t := t) h
  | .newtype t, h => ShallowW.ranged hb (t := t) h
  | .container _, h => ⟨h.2.ranged hb, Nat.le_trans h.1 (by have := pow_8 hb; omega)⟩
  | .union vs, h => ShallowWV.ranged hb (vs := vs) h

theorem ShallowWF.ranged {b : Nat} (hb : 32 ≤ b) : ∀ {fs : Fields}, ShallowWF b fs → RangedWF b fs
  | .nil, _ => trivial
  | .cons _ _ _, h => ⟨h.1.ranged hb, h.2.ranged hb⟩

theorem ShallowWV.ranged {b : Nat} (hb : 32 ≤ b) : ∀ {vs : Variants}, ShallowWV b vs → RangedWV b vs
  | .nil, _ => trivial
  | .unit rest, h => ShallowWV.ranged hb (vs := rest) h
  | .data _ _, h => ⟨h.1.ranged hb, h.2.ranged hb⟩

end

mutual

theorem ShallowW.fits {b : Nat} (hb : 32 ≤ b) : ∀ {t : Ty}, ShallowW b t → FitsWidth b t
  | .uint _, _ => trivial
  | .u256, _ => trivial
  | .bool, _ => trivial
  | .node, _ => trivial
  | .array t n, h => ⟨⟨h.2.1.1, by have h1 := h.1; have := pow_8 hb; unfold itemCount at h1; omega⟩, h.2.2.fits hb⟩
  | .vector t n, h => ⟨⟨h.2.1.1, by have h1 := h.1; have := pow_8 hb; unfold itemCount at h1; omega⟩, h.2.2.fits hb⟩
  | .list t n, h => ⟨⟨h.2.1.1, by have h1 := h.1; have := pow_8 hb; unfold itemCount at h1; omega⟩, h.2.2.2.fits hb⟩
  | .bitvector _, _ => trivial
  | .bitlist _, _ => trivial
  | .option t, h => ShallowW.fits hb (t := t) h
  | .newtype t, h => ShallowW.fits hb (t := t) h
  | .container _, h => h.2.fits hb
  | .union vs, h => ShallowWV.fits hb (vs := vs) h

theorem ShallowWF.fits {b : Nat} (hb : 32 ≤ b) : ∀ {fs : Fields}, ShallowWF b fs → FitsWidthF b fs
  | .nil, _ => trivial
  | .cons _ _ _, h => ⟨h.1.fits hb, h.2.fits hb⟩

theorem ShallowWV.fits {b : Nat} (hb : 32 ≤ b) : ∀ {vs : Variants}, ShallowWV b vs → FitsWidthV b vs
  | .nil, _ => trivial
  | .unit rest, h => ShallowWV.fits hb (vs := rest) h
  | .data _ _, h => ⟨h.1.fits hb, h.2.fits hb⟩

end

theorem not_huge_64 {b : Nat} (hb' : b ≤ 64) {t : Ty} {n : Nat} (h : ¬ HugeW b t n) :
    if packs t then n * fixedLen t < 2 ^ 64 else n ≤ 2 ^ 63 := by
  have h1 := not_hugeW h
  have h64 := pow_le_64 hb'
  have h63 : 2 ^ (b - 1) ≤ 2 ^ 63 := Nat.pow_le_pow_right (by decide) (by omega)
  split at h1
  · rw [if_pos (by assumption)]; omega
  · rw [if_neg (by assumption)]; omega

theorem pow56 {b n : Nat} (hb' : b ≤ 64) (h : n ≤ 2 ^ (b - 8)) : n ≤ 2 ^ 56 :=
  Nat.le_trans h (Nat.pow_le_pow_right (by decide) (by omega))

mutual

theorem ShallowW.bounded {b : Nat} (hb : 32 ≤ b) (hb' : b ≤ 64) : ∀ {t : Ty}, ShallowW b t → Bounded t
  | .uint _, _ => trivial
  | .u256, _ => trivial
  | .bool, _ => trivial
  | .node, _ => trivial
  | .array _ _, h => ⟨h.2.2.bounded hb hb', h.2.1.2⟩
  | .vector _ _, h => ⟨h.2.2.bounded hb hb', h.2.1.2⟩
  | .list _ _, h => ⟨h.2.2.2.bounded hb hb', h.2.1.2, not_huge_64 hb' h.2.2.1⟩
  | .bitvector _, h => Nat.lt_of_lt_of_le h (pow_le_64 hb')
  | .bitlist _, h => Nat.lt_of_lt_of_le h (pow_le_64 hb')
  | .option t, h => ShallowW.bounded hb hb' (t := t) h
  | .newtype t, h => ShallowW.bounded hb hb' (t := t) h
  | .container _, h => ⟨h.2.bounded hb hb', Nat.le_trans (pow56 hb' h.1) (by decide)⟩
  | .union vs, h => ShallowWV.bounded hb hb' (vs := vs) h

theorem ShallowWF.bounded {b : Nat} (hb : 32 ≤ b) (hb' : b ≤ 64) : ∀ {fs : Fields}, ShallowWF b fs → BoundedF fs
  | .nil, _ => trivial
  | .cons _ _ _, h => ⟨h.1.bounded hb hb', h.2.bounded hb hb'⟩

theorem ShallowWV.bounded {b : Nat} (hb : 32 ≤ b) (hb' : b ≤ 64) : ∀ {vs : Variants}, ShallowWV b vs → BoundedV vs
  | .nil, _ => trivial
  | .unit rest, h => ShallowWV.bounded hb hb' (vs := rest) h
  | .data _ _, h => ⟨h.1.bounded hb hb', h.2.bounded hb hb'⟩

end

theorem bits_shallow {b n : Nat} (hb : 32 ≤ b) (h : n < 2 ^ b) : (n + 255) / 256 ≤ 2 ^ (b - 8) := by
  have := pow_8 hb; omega

mutual

theorem ShallowW.shallow {b : Nat} (hb : 32 ≤ b) (hb' : b ≤ 64) : ∀ {t : Ty}, ShallowW b t → Shallow t
  | .uint _, _ => trivial
  | .u256, _ => trivial
  | .bool, _ => trivial
  | .node, _ => trivial
  | .array _ _, h => ⟨pow56 hb' h.1, h.2.2.shallow hb hb'⟩
  | .vector _ _, h => ⟨pow56 hb' h.1, h.2.2.shallow hb hb'⟩
  | .list _ _, h => ⟨pow56 hb' h.1, h.2.2.2.shallow hb hb'⟩
  | .bitvector _, h => pow56 hb' (bits_shallow hb h)
  | .bitlist _, h => pow56 hb' (bits_shallow hb h)
  | .option t, h => ShallowW.shallow hb hb' (t := t) h
  | .newtype t, h => ShallowW.shallow hb hb' (t := t) h
  | .container _, h => ⟨pow56 hb' h.1, h.2.shallow hb hb'⟩
  | .union vs, h => ShallowWV.shallow hb hb' (vs := vs) h

theorem ShallowWF.shallow {b : Nat} (hb : 32 ≤ b) (hb' : b ≤ 64) : ∀ {fs : Fields}, ShallowWF b fs → ShallowF fs
  | .nil, _ => trivial
  | .cons _ _ _, h => ⟨h.1.shallow hb hb', h.2.shallow hb hb'⟩

theorem ShallowWV.shallow {b : Nat} (hb : 32 ≤ b) (hb' : b ≤ 64) : ∀ {vs : Variants}, ShallowWV b vs → ShallowV vs
  | .nil, _ => trivial
  | .unit rest, h => ShallowWV.shallow hb hb' (vs := rest) h
  | .data _ _, h => ⟨h.1.shallow hb hb', h.2.shallow hb hb'⟩

end

mutual

theorem ShallowW.no_overflow {b : Nat} : ∀ {t : Ty} (v : t.Val), ShallowW b t → ¬ OverflowsW b t v
  | .uint _, _, _ => fun h => h
  | .u256, _, _ => fun h => h
  | .bool, _, _ => fun h => h
  | .node, _, _ => fun h => h
  | .array _ _, _, h => fun ⟨x, _, hx⟩ => h.2.2.no_overflow x hx
  | .vector _ _, _, h => fun ⟨x, _, hx⟩ => h.2.2.no_overflow x hx
  | .list _ _, _, h => fun h' => h'.elim h.2.2.1 fun ⟨x, _, hx⟩ => h.2.2.2.no_overflow x hx
  | .bitvector _, _, _ => fun h => h
  | .bitlist _, _, _ => fun h => h
  | .option t, _, h => fun ⟨x, _, hx⟩ => ShallowW.no_overflow (t := t) x h hx
  | .newtype t, v, h => ShallowW.no_overflow (t := t) v h
  | .container _, v, h => h.2.no_overflow v
  | .union vs, v, h => ShallowWV.no_overflow (vs := vs) v h

theorem ShallowWF.no_overflow {b : Nat} : ∀ {fs : Fields} (v : fs.Val), ShallowWF b fs → ¬ OverflowsWF b fs v
  | .nil, _, _ => fun h => h
  | .cons _ _ _, v, h => fun h' => h'.elim (h.1.no_overflow v.1) (h.2.no_overflow v.2)

theorem ShallowWV.no_overflow {b : Nat} : ∀ {vs : Variants} (v : vs.Val), ShallowWV b vs → ¬ OverflowsWV b vs v
  | .nil, _, _ => fun h => h
  | .unit _, .inl _, _ => fun h => h
  | .unit rest, .inr v, h => ShallowWV.no_overflow (vs := rest) v h
  | .data _ _, .inl v, h => h.1.no_overflow v
  | .data _ _, .inr v, h => h.2.no_overflow v

end

theorem heldW.widen {b : Nat} (hb' : b ≤ 64) {t : Ty} {n : Nat} (h : heldW b t n) : held t n :=
  ⟨Nat.lt_of_lt_of_le h.1 (Nat.pow_le_pow_right (by decide) (by omega)),
   fun hp => Nat.lt_of_lt_of_le (h.2 hp) (Nat.pow_le_pow_right (by decide) (by omega))⟩

mutual

theorem InMemoryW.memory {b : Nat} (hb' : b ≤ 64) : ∀ {t : Ty} (v : t.Val), InMemoryW b t v → InMemory t v
  | .uint _, _, _ => trivial
  | .u256, _, _ => trivial
  | .bool, _, _ => trivial
  | .node, _, _ => trivial
  | .array _ _, _, h => ⟨h.1.widen hb', fun x hx => (h.2 x hx).memory hb'⟩
  | .vector _ _, _, h => ⟨h.1.widen hb', fun x hx => (h.2 x hx).memory hb'⟩
  | .list _ _, _, h => ⟨h.1.widen hb', fun x hx => (h.2 x hx).memory hb'⟩
  | .bitvector _, _, h => Nat.lt_of_lt_of_le h (pow_le_64 hb')
  | .bitlist _, _, h => Nat.lt_of_lt_of_le h (pow_le_64 hb')
  | .option _, _, h => fun x hx => (h x hx).memory hb'
  | .newtype t, v, h => InMemoryW.memory hb' (t := t) v h
  | .container fs, v, h => InMemoryWF.memory hb' (fs := fs) v h
  | .union vs, v, h => InMemoryWV.memory hb' (vs := vs) v h

theorem InMemoryWF.memory {b : Nat} (hb' : b ≤ 64) : ∀ {fs : Fields} (v : fs.Val), InMemoryWF b fs v → InMemoryF fs v
  | .nil, _, _ => trivial
  | .cons _ _ _, v, h => ⟨h.1.memory hb', h.2.memory hb'⟩

theorem InMemoryWV.memory {b : Nat} (hb' : b ≤ 64) : ∀ {vs : Variants} (v : vs.Val), InMemoryWV b vs v → InMemoryV vs v
  | .nil, _, _ => trivial
  | .unit _, .inl _, _ => trivial
  | .unit rest, .inr v, h => InMemoryWV.memory hb' (vs := rest) v h
  | .data t _, .inl v, h => InMemoryW.memory hb' (t := t) v h
  | .data _ rest, .inr v, h => InMemoryWV.memory hb' (vs := rest) v h

end

end Spec

theorem rootW_ok {b : Nat} (hb : 32 ≤ b) (hb' : b ≤ 64) (E : Env) {t : Ty} {v : t.Val} (hl : Legal t)
    (hs : ShallowW b t) (hv : Valid t v) (hm : InMemoryW b t v) :
    t.rootW b E v = .ok ((treeBy packs t v).root E.sha256) :=
  (htrW_rooted hb hb' E t v hl (hs.ranged hb) hv hm).1 (hs.no_overflow v)

theorem rootW_eq {b : Nat} (hb : 32 ≤ b) (hb' : b ≤ 64) (E : Env) {t : Ty} {v : t.Val} (hl : Legal t)
    (hs : ShallowW b t) (hv : Valid t v) (hm : InMemoryW b t v) :
    t.rootW b E v = (t.impl E).hashTreeRoot v := by
  rw [rootW_ok hb hb' E hl hs hv hm, htr_ok E t v hl (hs.bounded hb hb') hv (hm.memory hb')]

theorem node_chunk {n : Node} {b : Nat} (hb : 32 ≤ b) : n.1.length ≤ 2 ^ (b - 1) := by
  have := Nat.pow_le_pow_right (show 0 < 2 by decide) (show 31 ≤ b - 1 by omega)
  rw [n.2]; omega

theorem proofOfZeroW_eq {b : Nat} (hb : 32 ≤ b) (hb' : b ≤ 64) (E : Env) (pr : Prover)
    (hi : pr.proof.index < 2 ^ b) :
    proofOfZeroW b E pr = computeProof E (SimpleSerialize.uint .usize) (0 : BitVec 64) pr := by
  rw [← computeProofW_64]
  exact computeProofW_eq hb hb' E (Nat.one_le_two_pow) none
    (fun x hx => by
      have h31 := Nat.pow_le_pow_right (show 0 < 2 by decide) (show 31 ≤ b - 1 by omega)
      have : x = packBytes ([] ++ toLeBytes (bitsToBytes UintTy.usize.bits) (0 : BitVec 64).toNat) := by
        exact (Res.ok.inj hx).symm
      rw [this]; exact Nat.le_trans (show _ ≤ 32 by decide) (by omega))
    (fun _ _ _ => rfl) pr hi

/-- Types with one chunk. -/
theorem singleW_eq {b : Nat} (hb : 32 ≤ b) (hb' : b ≤ 64) (E : Env) {T : SimpleSerialize α} {v : α}
    {deco : Option Nat} {n : Node} {ch : Res MerkError Bytes} {pe : Nat → Prover → Res MerkError Prover}
    (h1 : T.chunkCount = .ok 1) (h2 : T.decoration v = deco) (hc : ch = .ok n.1) (h3 : T.chunks v = .ok n.1)
    (hpe : ∀ i (p : Prover), p.proof.index < 2 ^ b → pe i p = T.proveElement v i p) (pr : Prover)
    (hi : pr.proof.index < 2 ^ b) :
    computeProofW b E defaultChunkCount deco ch pe pr = computeProof E T v pr := by
  rw [← computeProofW_64, h1, h2, h3, hc]
  exact computeProofW_eq hb hb' E Nat.one_le_two_pow deco
    (fun x hx => by rw [← Res.ok.inj hx]; exact node_chunk hb) hpe pr hi

theorem uint_chunk (u : UintTy) (v : BitVec u.bits) : uintChunks u v = .ok (pad32 (enc (.uint u) v)).1 := by
  show Res.ok (packBytes ([] ++ toLeBytes (bitsToBytes u.bits) v.toNat)) = _
  rw [toLeBytes_eq, List.nil_append]
  simp only [enc]
  congr 1
  rw [pad32_short (by cases u <;> simp [UintTy.bits])]
  cases u <;> simp [packBytes, bitsToBytes, UintTy.bits]

/-- Collections. -/
theorem collectionW_eq {b : Nat} (hb : 32 ≤ b) (hb' : b ≤ 64) (E : Env) {T : SimpleSerialize α} {v : α}
    {t : Ty} {n : Nat} {deco : Option Nat} {vs : List t.Val} (hl : Legal t)
    (hc : itemCount prims t n ≤ 2 ^ (b - 8)) (he : elementW t) (hs : ShallowW b t)
    (hv : ∀ x ∈ vs, Valid t x) (hm : ∀ x ∈ vs, InMemoryW b t x) (hh : heldW b t vs.length)
    (h1 : T.chunkCount = itemChunkCount E (t.impl E) n) (h2 : T.decoration v = deco)
    (h3 : T.chunks v = assembleChunks E (t.impl E) vs)
    (h4 : T.proveElement v = collectionProveElement E (t.impl E) n vs)
    (ih : ∀ x ∈ vs, ∀ p : Prover, p.proof.index < 2 ^ b → t.proofW b E x p = computeProof E (t.impl E) x p)
    (pr : Prover) (hi : pr.proof.index < 2 ^ b) :
    computeProofW b E (itemChunkCountW (E.on b) (t.itemLengthW (E.on b)) n) deco
      (assembleChunksW b E (t.impl E) (fun x => t.rootW b E x) vs)
      (collectionElementW (fun x p => t.proofW b E x p) n vs) pr = computeProof E T v pr := by
  have hp := pow_8 hb
  have h64 := pow_le_64 hb'
  have hcb : n * itemLen prims t + 31 < 2 ^ b := by unfold itemCount at hc; omega
  have hpp := pow_parts hb
  rw [← computeProofW_64, h1, h2, h3, h4, itemChunkCount_eq,
    countCalc_ok (by omega), itemLengthW_eq he.1, countW_ok (by exact hcb),
    assembleChunksW_ok hb E hl he.2 hv hh (fun x hx => rootW_ok hb hb' E hl hs (hv x hx) (hm x hx)),
    assembleChunks_ok E hl he.2 hv (hh.widen hb')
      (fun x hx => htr_ok E t x hl (hs.bounded hb hb') (hv x hx) ((hm x hx).memory hb'))]
  refine computeProofW_eq hb hb' E hc deco (fun x hx => ?_) (fun i p hpi => ?_) pr hi
  · rw [← Res.ok.inj hx, flat_length, List.length_map, partsOf_length hv]
    have := heldW_chunks hb hh
    omega
  · unfold collectionElementW collectionProveElement
    split
    · rfl
    · cases hx : vs[i]? with
      | none => rw [index, hx]; rfl
      | some x =>
        rw [index_ok hx]
        exact ih x (List.mem_of_getElem? hx) p hpi

/-- Bit sequences. -/
theorem bitsW_eq {b : Nat} (hb : 32 ≤ b) (hb' : b ≤ 64) (E : Env) {T : SimpleSerialize α} {v : α}
    {n : Nat} {deco : Option Nat} {bits : List Bool} {ch : Res MerkError Bytes} (hn : bits.length ≤ n)
    (hs : n < 2 ^ b) (h1 : T.chunkCount = .ok (bitsChunkCount n)) (h2 : T.decoration v = deco)
    (hc : ch = .ok (flat (chunkify (Spec.packBits bits)))) (h3 : T.chunks v = ch)
    (h4 : T.proveElement v = fun _ _ => .err .noInnerElement) (pr : Prover) (hi : pr.proof.index < 2 ^ b) :
    computeProofW b E (.ok (bitsChunkCount n)) deco ch (fun _ _ => .err .noInnerElement) pr =
      computeProof E T v pr := by
  have hp := pow_8 hb
  rw [← computeProofW_64, h1, h2, h3, h4, hc]
  refine computeProofW_eq hb hb' E (show (n + 255) / 256 ≤ _ by omega) deco (fun x hx => ?_) (fun _ _ _ => rfl) pr hi
  have h5 : (chunkify (Spec.packBits bits)).length = (leaves (Spec.packBits bits)).length := by simp [leaves]
  rw [← Res.ok.inj hx, flat_length, h5, leaves_length, packBits_length]
  omega

theorem zeroNode_flat : List.replicate 32 (0 : Byte) = zeroNode.1 := rfl

mutual

theorem proofW_eq {b : Nat} (hb : 32 ≤ b) (hb' : b ≤ 64) (E : Env) : ∀ (t : Ty) (v : t.Val), Legal t →
    ShallowW b t → Valid t v → InMemoryW b t v → ∀ pr : Prover, pr.proof.index < 2 ^ b →
    t.proofW b E v pr = computeProof E (t.impl E) v pr
  | .uint u, v, _, _, _, _, pr, hi => by
    rw [Ty.proofW]
    exact singleW_eq hb hb' E (T := SimpleSerialize.uint u) rfl rfl (uint_chunk u v) (uint_chunk u v)
      (fun _ _ _ => rfl) pr hi
  | .u256, v, _, _, _, _, pr, hi => by
    rw [Ty.proofW]
    have h : (Res.ok (toLeBytes 32 (BitVec.toNat v)) : Res MerkError Bytes) = .ok (pad32 (enc .u256 v)).1 := by
      rw [toLeBytes_eq, pad32_full (by simp [enc])]; rfl
    exact singleW_eq hb hb' E (T := Ty.u256.impl E) rfl rfl h h (fun _ _ _ => rfl) pr hi
  | .bool, v, _, _, _, _, pr, hi => by
    rw [Ty.proofW]
    have h : (Res.ok (boolChunks v) : Res MerkError Bytes) = .ok (pad32 (enc .bool v)).1 := by cases v <;> rfl
    exact singleW_eq hb hb' E (T := Ty.bool.impl E) rfl rfl h h (fun _ _ _ => rfl) pr hi
  | .node, v, _, _, _, _, pr, hi => by
    rw [Ty.proofW]
    exact singleW_eq hb hb' E (T := Ty.node.impl E) rfl rfl rfl rfl (fun _ _ _ => rfl) pr hi
  | .array t n, v, hl, hs, hv, hm, pr, hi => by
    rw [Ty.proofW]
    exact collectionW_eq hb hb' E (T := (Ty.array t n).impl E) (v := v) (t := t) (n := n) (vs := v.1) hl.2 hs.1 hs.2.1 hs.2.2 hv hm.2 hm.1 rfl rfl rfl rfl
      (fun x hx => proofW_eq hb hb' E t x hl.2 hs.2.2 (hv x hx) (hm.2 x hx)) pr hi
  | .vector t n, v, hl, hs, hv, hm, pr, hi => by
    rw [Ty.proofW]
    exact collectionW_eq hb hb' E (T := (Ty.vector t n).impl E) (v := v) (t := t) (n := n) (vs := v) hl.2 hs.1 hs.2.1 hs.2.2 hv.2 hm.2 hm.1 rfl rfl rfl rfl
      (fun x hx => proofW_eq hb hb' E t x hl.2 hs.2.2 (hv.2 x hx) (hm.2 x hx)) pr hi
  | .list t n, v, hl, hs, hv, hm, pr, hi => by
    rw [Ty.proofW]
    exact collectionW_eq hb hb' E (T := (Ty.list t n).impl E) (v := v) (t := t) (n := n) (vs := v) hl hs.1 hs.2.1 hs.2.2.2 hv.2 hm.2 hm.1
      rfl rfl rfl rfl
      (fun x hx => proofW_eq hb hb' E t x hl hs.2.2.2 (hv.2 x hx) (hm.2 x hx)) pr hi
  | .bitvector n, v, hl, hs, hv, hm, pr, hi => by
    rw [Ty.proofW]
    exact bitsW_eq hb hb' E (T := (Ty.bitvector n).impl E) (v := v) (Nat.le_of_eq hv) hs rfl rfl
      (Bitvector.packBits_ok hl hv) rfl rfl pr hi
  | .bitlist n, v, hl, hs, hv, hm, pr, hi => by
    rw [Ty.proofW]
    exact bitsW_eq hb hb' E (T := (Ty.bitlist n).impl E) (v := v) hv.1 hs rfl rfl
      (Bitlist.packBits_ok hv.1 hv.2) rfl rfl pr hi
  | .option t, v, hl, hs, hv, hm, pr, hi => by
    cases v with
    | none =>
      simp only [Ty.proofW]
      refine singleW_eq hb hb' E (T := (Ty.option t).impl E) (v := none) rfl rfl (n := zeroNode) rfl rfl
        (fun i p hp => ?_) pr hi
      show _ = if i ≥ 2 then _ else _
      rw [proofOfZeroW_eq hb hb' E p hp]
    | some x =>
      simp only [Ty.proofW]
      have h1 := rootW_ok hb hb' E (t := t) hl hs (hv x rfl) (hm x rfl)
      have h2 := rootW_eq hb hb' E (t := t) hl hs (hv x rfl) (hm x rfl)
      refine singleW_eq hb hb' E (T := (Ty.option t).impl E) (v := some x) rfl rfl
        (n := (treeBy packs t x).root E.sha256) (by rw [h1]; rfl) ?_ (fun i p hp => ?_) pr hi
      · show ((t.impl E).hashTreeRoot x).map (·.1) = _
        rw [← h2, h1]; rfl
      · show _ = if i ≥ 2 then _ else _
        rw [proofW_eq hb hb' E t x hl hs (hv x rfl) (hm x rfl) p hp]
  | .newtype t, v, hl, hs, hv, hm, pr, hi => by
    rw [Ty.proofW]
    exact proofW_eq hb hb' E t v hl hs hv hm pr hi
  | .container fs, v, hl, hs, hv, hm, pr, hi => by
    have hp := pow_8 hb
    rw [Ty.proofW]
    have h1 : fs.chunksW b E v 0 (List.replicate (fs.countW * 32) 0) =
        .ok (flat ((treesByF packs fs v).map (·.root E.sha256))) := by
      rw [countW_countF, ← flat_replicate]
      exact (htrWF_rooted hb hb' E fs v [] hl.2.2 (hs.2.ranged hb) hv hm).1 (hs.2.no_overflow v)
    have h2 : (fs.impls E).assembleChunks v =
        .ok (flat ((treesByF packs fs v).map (·.root E.sha256))) := by
      unfold FieldImpls.assembleChunks
      rw [count_impls, ← flat_replicate]
      exact htrF_ok E fs v [] hl.2.2 (hs.2.bounded hb hb') hv (InMemoryWF.memory hb' v hm)
    rw [← computeProofW_64]
    show _ = computeProofW 64 E (.ok (fs.impls E).count) none ((fs.impls E).assembleChunks v)
      (fun i p => if i ≥ (fs.impls E).count then .err .invalidInnerIndex else (fs.impls E).proveField E p v i) pr
    rw [h1, h2, ← countW_fields E fs]
    refine computeProofW_eq hb hb' E (by rw [countW_countF]; exact hs.1) none (fun x hx => ?_) (fun i p hpi => ?_) pr hi
    · rw [← Res.ok.inj hx, flat_length, List.length_map]
      have h3 := hs.1
      have h4 := treesByF_length packs fs v
      exact Nat.le_trans (Nat.mul_le_mul_left 32 (Nat.le_of_eq h4)) (by omega)
    · rw [proofWF_eq hb hb' E fs v hl.2.2 hs.2 hv hm p hpi i]
  | .union vs, v, hl, hs, hv, hm, pr, hi => by
    rw [Ty.proofW]
    obtain ⟨n, h1, h2⟩ := chunksWV_eq hb hb' E vs v hl.2 hs hv hm
    refine singleW_eq hb hb' E (T := (Ty.union vs).impl E) (v := v) rfl ?_ h1 h2 (fun i p hpi => ?_) pr hi
    · exact congrArg some (selectorW_eq E vs 0 v)
    · show _ = if i ≥ (vs.impls E).count then _ else _
      rw [countW_variants E vs, proofWV_eq hb hb' E vs v hl.2 hs hv hm p hpi]
      rfl

theorem proofWF_eq {b : Nat} (hb : 32 ≤ b) (hb' : b ≤ 64) (E : Env) : ∀ (fs : Fields) (v : fs.Val), LegalF fs →
    ShallowWF b fs → ValidF fs v → InMemoryWF b fs v → ∀ pr : Prover, pr.proof.index < 2 ^ b → ∀ i,
    fs.proofW b E v pr i = (fs.impls E).proveField E pr v i
  | .nil, _, _, _, _, _, _, _, _ => rfl
  | .cons _ t rest, v, hl, hs, hv, hm, pr, hi, 0 => proofW_eq hb hb' E t v.1 hl.1 hs.1 hv.1 hm.1 pr hi
  | .cons _ t rest, v, hl, hs, hv, hm, pr, hi, i + 1 => proofWF_eq hb hb' E rest v.2 hl.2 hs.2 hv.2 hm.2 pr hi i

theorem proofWV_eq {b : Nat} (hb : 32 ≤ b) (hb' : b ≤ 64) (E : Env) : ∀ (vs : Variants) (v : vs.Val), LegalV vs →
    ShallowWV b vs → ValidV vs v → InMemoryWV b vs v → ∀ pr : Prover, pr.proof.index < 2 ^ b →
    vs.proofW b E v pr = (vs.impls E).proveVariant E pr v
  | .nil, v, _, _, _, _, _, _ => Empty.elim v
  | .unit _, .inl _, _, _, _, _, pr, hi => proofOfZeroW_eq hb hb' E pr hi
  | .unit rest, .inr v, hl, hs, hv, hm, pr, hi => proofWV_eq hb hb' E rest v hl hs hv hm pr hi
  | .data t _, .inl v, hl, hs, hv, hm, pr, hi => proofW_eq hb hb' E t v hl.1 hs.1 hv hm pr hi
  | .data _ rest, .inr v, hl, hs, hv, hm, pr, hi => proofWV_eq hb hb' E rest v hl.2 hs.2 hv hm pr hi

theorem chunksWV_eq {b : Nat} (hb : 32 ≤ b) (hb' : b ≤ 64) (E : Env) : ∀ (vs : Variants) (v : vs.Val), LegalV vs →
    ShallowWV b vs → ValidV vs v → InMemoryWV b vs v →
    ∃ n : Node, vs.chunksW b E v = .ok n.1 ∧ (vs.impls E).chunks v = .ok n.1
  | .nil, v, _, _, _, _ => Empty.elim v
  | .unit _, .inl _, _, _, _, _ => ⟨zeroNode, rfl, rfl⟩
  | .unit rest, .inr v, hl, hs, hv, hm => chunksWV_eq hb hb' E rest v hl hs hv hm
  | .data t _, .inl v, hl, hs, hv, hm => by
    have h1 := rootW_ok hb hb' E (t := t) hl.1 hs.1 hv hm
    have h2 := rootW_eq hb hb' E (t := t) hl.1 hs.1 hv hm
    refine ⟨(treeBy packs t v).root E.sha256, ?_, ?_⟩
    · rw [Variants.chunksW, h1]; rfl
    · show ((t.impl E).hashTreeRoot v).map (·.1) = _
      rw [← h2, h1]; rfl
  | .data _ rest, .inr v, hl, hs, hv, hm => chunksWV_eq hb hb' E rest v hl.2 hs.2 hv hm

theorem selectorW_eq (E : Env) : ∀ (vs : Variants) (i : Nat) (v : vs.Val),
    (vs.impls E).decoration i v = vs.selectorW i v
  | .nil, _, v => Empty.elim v
  | .unit _, _, .inl _ => rfl
  | .unit rest, i, .inr v => selectorW_eq E rest (i + 1) v
  | .data _ _, _, .inl _ => rfl
  | .data _ rest, i, .inr v => selectorW_eq E rest (i + 1) v

end

/-! ## 64 bits: the same function -/

theorem computeProofW_same (E : Env) {T : SimpleSerialize α} {v : α} {cc : Calc Nat} {deco : Option Nat}
    {ch : Res MerkError Bytes} {pe : Nat → Prover → Res MerkError Prover} (h1 : cc = T.chunkCount)
    (h2 : deco = T.decoration v) (h3 : ch = T.chunks v) (h4 : pe = T.proveElement v) (pr : Prover) :
    computeProofW 64 E cc deco ch pe pr = computeProof E T v pr := by
  subst h1 h2 h3 h4
  exact computeProofW_64 E T v pr

theorem proofOfZeroW_64 (E : Env) (pr : Prover) :
    proofOfZeroW 64 E pr = computeProof E (SimpleSerialize.uint .usize) (0 : BitVec 64) pr :=
  computeProofW_64 E (SimpleSerialize.uint .usize) (0 : BitVec 64) pr

theorem collectionElementW_64 (E : Env) {t : Ty}
    (h : ∀ (x : t.Val) (p : Prover), t.proofW 64 E x p = computeProof E (t.impl E) x p) (n : Nat)
    (vs : List t.Val) :
    collectionElementW (fun x p => t.proofW 64 E x p) n vs = collectionProveElement E (t.impl E) n vs := by
  funext i p
  unfold collectionElementW collectionProveElement
  simp only [h]

theorem itemCountW_64 (E : Env) (t : Ty) (n : Nat) :
    itemChunkCountW (E.on 64) (t.itemLengthW (E.on 64)) n = itemChunkCount E (t.impl E) n := by
  unfold itemChunkCountW itemChunkCount
  simp only [itemLength_ok, itemLengthW_64, Res.ok_bind]
  rfl

theorem chunksWV_64 (E : Env) : ∀ (vs : Variants) (v : vs.Val), vs.chunksW 64 E v = (vs.impls E).chunks v
  | .nil, v => Empty.elim v
  | .unit _, .inl _ => rfl
  | .unit rest, .inr v => chunksWV_64 E rest v
  | .data t _, .inl v => by
    rw [Variants.chunksW, rootW_64]; rfl
  | .data _ rest, .inr v => chunksWV_64 E rest v

mutual

theorem proofW_64 (E : Env) : ∀ (t : Ty) (v : t.Val) (pr : Prover),
    t.proofW 64 E v pr = computeProof E (t.impl E) v pr
  | .uint u, v, pr => by
    rw [Ty.proofW]
    exact computeProofW_same E (T := SimpleSerialize.uint u) rfl rfl rfl rfl pr
  | .u256, v, pr => by
    rw [Ty.proofW]
    exact computeProofW_same E (T := Ty.u256.impl E) rfl rfl rfl rfl pr
  | .bool, v, pr => by
    rw [Ty.proofW]
    exact computeProofW_same E (T := Ty.bool.impl E) rfl rfl rfl rfl pr
  | .node, v, pr => by
    rw [Ty.proofW]
    exact computeProofW_same E (T := Ty.node.impl E) rfl rfl rfl rfl pr
  | .array t n, v, pr => by
    rw [Ty.proofW]
    exact computeProofW_same E (T := (Ty.array t n).impl E) (itemCountW_64 E t n) rfl
      (assembleChunksW_64 E (t.impl E) (rootW_64 E t) v.1) (collectionElementW_64 E (proofW_64 E t) n v.1) pr
  | .vector t n, v, pr => by
    rw [Ty.proofW]
    exact computeProofW_same E (T := (Ty.vector t n).impl E) (itemCountW_64 E t n) rfl
      (assembleChunksW_64 E (t.impl E) (rootW_64 E t) v) (collectionElementW_64 E (proofW_64 E t) n v) pr
  | .list t n, v, pr => by
    rw [Ty.proofW]
    exact computeProofW_same E (T := (Ty.list t n).impl E) (v := v) (itemCountW_64 E t n) rfl
      (assembleChunksW_64 E (t.impl E) (rootW_64 E t) v) (collectionElementW_64 E (proofW_64 E t) n v) pr
  | .bitvector n, v, pr => by
    rw [Ty.proofW]
    exact computeProofW_same E (T := (Ty.bitvector n).impl E) (v := v) rfl rfl rfl rfl pr
  | .bitlist n, v, pr => by
    rw [Ty.proofW]
    exact computeProofW_same E (T := (Ty.bitlist n).impl E) (v := v) rfl rfl rfl rfl pr
  | .option t, v, pr => by
    cases v with
    | none =>
      simp only [Ty.proofW, proofOfZeroW_64]
      exact computeProofW_same E (T := (Ty.option t).impl E) (v := none) rfl rfl rfl rfl pr
    | some x =>
      simp only [Ty.proofW, rootW_64, proofW_64 E t]
      exact computeProofW_same E (T := (Ty.option t).impl E) (v := some x) rfl rfl rfl rfl pr
  | .newtype t, v, pr => by
    rw [Ty.proofW]
    exact proofW_64 E t v pr
  | .container fs, v, pr => by
    rw [Ty.proofW]
    refine computeProofW_same E (T := (Ty.container fs).impl E) (v := v)
      (congrArg Res.ok (countW_fields E fs)) rfl ?_ (funext fun i => funext fun p => ?_) pr
    · rw [countW_fields E fs]
      exact chunksW_64 E fs v 0 _
    · rw [countW_fields E fs]
      exact if_congr Iff.rfl rfl (proofWF_64 E fs v p i)
  | .union vs, v, pr => by
    rw [Ty.proofW]
    refine computeProofW_same E (T := (Ty.union vs).impl E) (v := v) rfl
      (congrArg some (selectorW_eq E vs 0 v).symm) (chunksWV_64 E vs v) (funext fun i => funext fun p => ?_) pr
    rw [countW_variants E vs]
    exact if_congr Iff.rfl rfl (proofWV_64 E vs v p)

theorem proofWF_64 (E : Env) : ∀ (fs : Fields) (v : fs.Val) (pr : Prover) (i : Nat),
    fs.proofW 64 E v pr i = (fs.impls E).proveField E pr v i
  | .nil, _, _, _ => rfl
  | .cons _ t rest, v, pr, 0 => proofW_64 E t v.1 pr
  | .cons _ t rest, v, pr, i + 1 => proofWF_64 E rest v.2 pr i

theorem proofWV_64 (E : Env) : ∀ (vs : Variants) (v : vs.Val) (pr : Prover),
    vs.proofW 64 E v pr = (vs.impls E).proveVariant E pr v
  | .nil, v, _ => Empty.elim v
  | .unit _, .inl _, pr => proofOfZeroW_64 E pr
  | .unit rest, .inr v, pr => proofWV_64 E rest v pr
  | .data t _, .inl v, pr => proofW_64 E t v pr
  | .data _ rest, .inr v, pr => proofWV_64 E rest v pr

end

/-! ## Trees that do not fit -/

theorem shrinkIndex_self {n i : Nat} (h : i ≤ n) : shrinkIndex n i = i := by
  unfold shrinkIndex
  rw [dif_neg (by omega)]

/-- A tree of `2^b - 32` bytes. -/
theorem computeProofW_panic {b : Nat} (hb : 32 ≤ b) (E : Env) (m : Nat) (x : Bytes)
    (pe : Nat → Prover → Res MerkError Prover) (pr : Prover) (h1 : 1 ≤ pr.proof.index)
    (h2 : pr.proof.index < 2 ^ (b - 5)) :
    computeProofW b E (.ok (2 ^ (b - 7))) (some m) (.ok x) pe pr = .panic := by
  have p5 : 2 ^ b = 32 * 2 ^ (b - 5) := by conv_lhs => rw [show b = 5 + (b - 5) by omega, Nat.pow_add]
  have p1 : 2 ^ (b - 1) = 16 * 2 ^ (b - 5) := by
    conv_lhs => rw [show b - 1 = 4 + (b - 5) by omega, Nat.pow_add]
  have p6 : 2 ^ (b - 5) = 2 * 2 ^ (b - 6) := by
    conv_lhs => rw [show b - 5 = 1 + (b - 6) by omega, Nat.pow_add]
  have p7 : 2 ^ (b - 6) = 2 * 2 ^ (b - 7) := by
    conv_lhs => rw [show b - 6 = 1 + (b - 7) by omega, Nat.pow_add]
  have hp := Nat.two_pow_pos (b - 7)
  have hlog : Nat.log2 pr.proof.index < b := (Nat.log2_lt (by omega)).2 (by omega)
  have hco : computeLocalMerkleCoordinatesW b E pr.proof.index (2 ^ (b - 6)) =
      .ok (Nat.log2 pr.proof.index, pr.proof.index % 2 ^ Nat.log2 pr.proof.index, pr.proof.index) := by
    unfold computeLocalMerkleCoordinatesW getIndexW
    rw [mul_fits (show 2 * 2 ^ (b - 6) < 2 ^ b by omega)]
    simp only [Res.lift_ok, Res.ok_bind]
    rw [show (E.on b).sub (2 * 2 ^ (b - 6)) 1 = .ok (2 * 2 ^ (b - 6) - 1) from if_pos (by omega)]
    simp only [Res.lift_ok, Res.ok_bind]
    rw [shrinkIndex_self (by omega), getDepth_ok h1]
    simp only [Res.ok_bind]
    rw [show (E.on b).pow2 (Nat.log2 pr.proof.index) = .ok (2 ^ Nat.log2 pr.proof.index) from if_pos hlog]
    simp only [Res.lift_ok, Res.ok_bind, usizeRem_pow]
  have htree : computeMerkleTreeW b E x (2 ^ (b - 6)) = .panic := by
    unfold computeMerkleTreeW
    rw [mul_fits (show 2 * 2 ^ (b - 6) < 2 ^ b by omega), nextW_ok (by omega)
      (Nat.pow_le_pow_right (by decide) (by omega))]
    simp only [Res.lift_ok, Res.ok_bind]
    rw [show (E.on b).sub (2 * 2 ^ (b - 6)) 1 = .ok (2 * 2 ^ (b - 6) - 1) from if_pos (by omega)]
    simp only [Res.lift_ok, Res.ok_bind]
    rw [show (E.on b).sub (2 * 2 ^ (b - 6) - 1) (2 ^ (b - 6)) = .ok (2 * 2 ^ (b - 6) - 1 - 2 ^ (b - 6)) from
      if_pos (by omega)]
    simp only [Res.lift_ok, Res.ok_bind]
    rw [mul_fits (show (2 * 2 ^ (b - 6) - 1 - 2 ^ (b - 6)) * 32 < 2 ^ b by omega),
      mul_fits (show (2 * 2 ^ (b - 6) - 1) * 32 < 2 ^ b by omega)]
    simp only [Res.lift_ok, Res.ok_bind]
    rw [show zerosW b ((2 * 2 ^ (b - 6) - 1) * 32) = .panic from if_neg (by omega)]
    simp only [Res.panic_bind, Env.debugAssert]
    split <;> split <;> try rfl
    all_goals (simp only [Res.lift_ok, Res.ok_bind]; split <;> rfl)
  unfold computeProofW
  simp only [Res.lift_ok, Res.ok_bind]
  rw [nextW_ok (by omega) (Nat.pow_le_pow_right (by decide) (by omega)),
    show depthFor (2 ^ (b - 7)) = b - 7 by rw [depthFor, Nat.clog_pow _ _ (by decide)]]
  simp only [Res.lift_ok, Res.ok_bind, Option.isSome_some, if_true]
  rw [mul_fits (show 2 ^ (b - 7) * 2 < 2 ^ b by omega)]
  simp only [Res.lift_ok, Res.ok_bind]
  rw [show 2 ^ (b - 7) * 2 = 2 ^ (b - 6) by omega, hco]
  simp only [Res.ok_bind, Nat.lt_irrefl, if_false, htree, Res.panic_bind]

end Ssz
