import Verif.Spec.Merkle
import Verif.Proofs.Basics

/-!
# Merkleization computes the root of the padded tree
-/

namespace Ssz

open Spec

/-! ## Byte buffers holding nodes -/

/-- The bytes of a sequence of nodes. -/
def flat (ns : List Node) : Bytes := ns.flatMap (·.1)

@[simp] theorem flat_nil : flat [] = [] := rfl
@[simp] theorem flat_cons (n : Node) (ns : List Node) : flat (n :: ns) = n.1 ++ flat ns := rfl
@[simp] theorem flat_append (a b : List Node) : flat (a ++ b) = flat a ++ flat b := by
  simp [flat]

@[simp] theorem flat_length (ns : List Node) : (flat ns).length = 32 * ns.length := by
  induction ns with
  | nil => rfl
  | cons n ns ih => rw [flat_cons, List.length_append, ih, n.2, List.length_cons]; omega

theorem flat_replicate (k : Nat) : flat (List.replicate k zeroNode) = List.replicate (k * 32) 0 := by
  induction k with
  | zero => rfl
  | succ k ih =>
    rw [List.replicate_succ, flat_cons, ih, Nat.succ_mul, Nat.add_comm, List.replicate_add]; rfl

theorem flat_singleton (n : Node) : flat [n] = n.1 := by simp

theorem flat_drop (ns : List Node) (i : Nat) : (flat ns).drop (32 * i) = flat (ns.drop i) := by
  induction ns generalizing i with
  | nil => simp
  | cons n ns ih =>
    cases i with
    | zero => simp
    | succ i =>
      rw [flat_cons, List.drop_succ_cons, ← ih]
      rw [List.drop_append, List.drop_eq_nil_of_le (by rw [n.2]; omega), n.2]
      simp [Nat.mul_succ]

theorem flat_take (ns : List Node) (i : Nat) : (flat ns).take (32 * i) = flat (ns.take i) := by
  induction ns generalizing i with
  | nil => simp
  | cons n ns ih =>
    cases i with
    | zero => simp
    | succ i =>
      rw [flat_cons, List.take_succ_cons, flat_cons, ← ih]
      rw [List.take_append, List.take_of_length_le (by rw [n.2]; omega), n.2]
      simp [Nat.mul_succ]

theorem slice_flat {ε : Type} {ns : List Node} {s e i : Nat} {n : Node} (h : ns[i]? = some n)
    (hs : s = i * 32) (he : e = (i + 1) * 32) :
    (slice (flat ns) s e : Res ε Bytes) = .ok n.1 := by
  have hi : i < ns.length := by
    by_contra hc
    rw [List.getElem?_eq_none (by omega)] at h; cases h
  rw [slice_ok (by omega) (by rw [flat_length]; omega)]
  congr 1
  rw [hs, he, Nat.mul_comm i, flat_drop, show (i + 1) * 32 - 32 * i = 32 * 1 by omega, flat_take]
  rw [List.getElem?_eq_getElem hi] at h
  rw [List.drop_eq_getElem_cons hi]
  simp at h
  simp [h]

theorem slice_flat_all {ε : Type} {ns : List Node} {s e i j : Nat}
    (hs : s = i * 32) (he : e = j * 32) (h1 : i ≤ j) (h2 : j ≤ ns.length) :
    (slice (flat ns) s e : Res ε Bytes) = .ok (flat ((ns.drop i).take (j - i))) := by
  rw [slice_ok (by omega) (by rw [flat_length]; omega)]
  congr 1
  rw [hs, he, Nat.mul_comm i, flat_drop, show j * 32 - 32 * i = 32 * (j - i) by omega, flat_take]

theorem copyInto_flat {ε : Type} {ns : List Node} {s e i : Nat} {b : Bytes} (n : Node)
    (hi : i < ns.length) (hs : s = i * 32) (he : e = (i + 1) * 32) (hb : b = n.1) :
    (copyInto (flat ns) s e b : Res ε Bytes) = .ok (flat (ns.set i n)) := by
  unfold copyInto
  rw [if_pos ⟨by omega, by rw [flat_length]; omega, by rw [hb, n.2]; omega⟩]
  congr 1
  rw [hs, he, hb, Nat.mul_comm i, Nat.mul_comm (i + 1), flat_take, flat_drop,
    List.set_eq_take_append_cons_drop, if_pos hi, flat_append, flat_cons, List.append_assoc]

theorem toNode_node {ε : Type} (n : Node) : (toNode n.1 : Res ε Node) = .ok n := by
  unfold toNode; rw [dif_pos n.2]

/-! ## Powers of two -/

theorem clog_eq_log2 {x : Nat} (h : 1 < x) : Nat.clog 2 x = Nat.log2 (x - 1) + 1 := by
  have h0 : x - 1 ≠ 0 := by omega
  have h1 := Nat.log2_self_le h0
  have h2 := Nat.lt_log2_self (n := x - 1)
  apply Nat.le_antisymm
  · rw [Nat.clog_le_iff_le_pow (by decide)]; omega
  · have := (Nat.lt_clog_iff_pow_lt (b := 2) (by decide) (x := x) (y := Nat.log2 (x - 1))).mpr
      (by omega)
    omega

theorem nextPowerOfTwo_ok {E : Env} {x : Nat} (h : x ≤ 2 ^ 63) :
    E.nextPowerOfTwo x = .ok (2 ^ depthFor x) := by
  have hd : depthFor x ≤ 63 := by
    unfold depthFor; rw [Nat.clog_le_iff_le_pow (by decide)]; exact h
  have hlt : 2 ^ depthFor x < usizeMod :=
    Nat.lt_of_le_of_lt (Nat.pow_le_pow_right (by decide) hd) (by decide)
  have he : (if x ≤ 1 then 1 else 2 ^ (Nat.log2 (x - 1) + 1)) = 2 ^ depthFor x := by
    unfold depthFor
    split
    · rw [Nat.clog_of_right_le_one (by assumption)]
    · rw [clog_eq_log2 (by omega)]
  simp only [Env.nextPowerOfTwo, he, if_pos hlt]

theorem nextPowerOfTwo_overflow {E : Env} {x : Nat} (h : 2 ^ 63 < x) :
    E.nextPowerOfTwo x = if E.debug then .panic else .ok 0 := by
  have hd : 64 ≤ Nat.clog 2 x := (Nat.lt_clog_iff_pow_lt (by decide)).mpr h
  rw [clog_eq_log2 (by omega)] at hd
  have : ¬ 2 ^ (Nat.log2 (x - 1) + 1) < usizeMod :=
    Nat.not_lt.mpr (Nat.le_trans (by decide) (Nat.pow_le_pow_right (by decide : 0 < 2) hd))
  simp only [Env.nextPowerOfTwo, if_neg (show ¬ x ≤ 1 by omega), if_neg this]

theorem trailingZerosAux_pow (f d : Nat) (h : d < f) : trailingZerosAux f (2 ^ d) = d := by
  induction d generalizing f with
  | zero =>
    obtain ⟨f, rfl⟩ : ∃ g, f = g + 1 := ⟨f - 1, by omega⟩
    simp [trailingZerosAux]
  | succ d ih =>
    obtain ⟨f, rfl⟩ : ∃ g, f = g + 1 := ⟨f - 1, by omega⟩
    rw [trailingZerosAux, if_neg (by rw [Nat.pow_succ]; omega), Nat.pow_succ,
      Nat.mul_div_cancel _ (by decide), ih _ (by omega)]
    omega

theorem trailingZeros_pow {d : Nat} (h : d < 64) : trailingZeros (2 ^ d) = d :=
  trailingZerosAux_pow 64 d h

theorem depthFor_le {x d : Nat} (h : x ≤ 2 ^ d) : depthFor x ≤ d := Nat.clog_le_of_le_pow h

theorem le_pow_depthFor (x : Nat) : x ≤ 2 ^ depthFor x := Nat.le_pow_clog (by decide) x

theorem depthFor_mono {x y : Nat} (h : x ≤ y) : depthFor x ≤ depthFor y := Nat.clog_mono_right 2 h

/-! ## The zero hashes -/

/-- Root of the full tree of depth `d` over zero leaves. -/
def zeroRoot (H : Bytes → Node) : Nat → Node
  | 0 => zeroNode
  | d + 1 => H ((zeroRoot H d).1 ++ (zeroRoot H d).1)

theorem zeroHashesLoop_ok (E : Env) (steps i : Nat) (h : i + steps = 63) :
    zeroHashesLoop E steps i
        (flat ((List.range (i + 1)).map (zeroRoot E.sha256) ++ List.replicate (63 - i) zeroNode)) =
      .ok (flat ((List.range 64).map (zeroRoot E.sha256))) := by
  induction steps generalizing i with
  | zero => obtain rfl : i = 63 := by omega
            simp [zeroHashesLoop]
  | succ steps ih =>
    rw [zeroHashesLoop, slice_flat (n := zeroRoot E.sha256 i) (i := i) (by
      rw [List.getElem?_append_left (by simp)]; simp) rfl rfl, Res.ok_bind,
      hashNodes, show i + 2 = i + 1 + 1 by rfl, show E.sha256 ((zeroRoot E.sha256 i).1 ++
        (zeroRoot E.sha256 i).1) = zeroRoot E.sha256 (i + 1) by rfl, copyInto_flat (ns := (List.range (i + 1)).map (zeroRoot E.sha256) ++
        List.replicate (63 - i) zeroNode) (i := i + 1) (zeroRoot E.sha256 (i + 1))
        (by simp; omega) rfl rfl rfl, Res.ok_bind]
    rw [← ih (i + 1) (by omega)]
    congr 2
    rw [List.range_succ (n := i + 1), List.map_append, List.append_assoc,
      List.set_append_right _ _ (by simp)]
    congr 1
    obtain ⟨k, hk⟩ : ∃ k, 63 - i = k + 1 := ⟨62 - i, by omega⟩
    rw [hk, List.replicate_succ, show 63 - (i + 1) = k by omega]
    simp

theorem computeZeroHashes_ok (E : Env) :
    computeZeroHashes E = .ok (flat ((List.range 64).map (zeroRoot E.sha256))) := by
  rw [computeZeroHashes, ← zeroHashesLoop_ok E 63 0 rfl, show (64 * 32) = (1 + 63) * 32 by rfl,
    ← flat_replicate, List.replicate_add]
  rfl

theorem contextIndex_ok (E : Env) {d : Nat} (h : d < 64) :
    contextIndex E d = .ok (zeroRoot E.sha256 d).1 := by
  rw [contextIndex, computeZeroHashes_ok, Res.ok_bind]
  exact slice_flat (i := d) (by simp [h]) rfl rfl

theorem contextIndex_panic (E : Env) {d : Nat} (h : 64 ≤ d) : contextIndex E d = .panic := by
  rw [contextIndex, computeZeroHashes_ok, Res.ok_bind, slice, if_neg]
  rw [flat_length]; simp; omega

/-! ## Layers -/

/-- One layer up; a missing right neighbour is `z`. -/
def pairUp (H : Bytes → Node) (z : Node) : List Node → List Node
  | [] => []
  | [a] => [H (a.1 ++ z.1)]
  | a :: b :: rest => H (a.1 ++ b.1) :: pairUp H z rest

theorem pairUp_length (H : Bytes → Node) (z : Node) (ns : List Node) :
    (pairUp H z ns).length = (ns.length + 1) / 2 := by
  fun_induction pairUp with
  | case1 => rfl
  | case2 => simp
  | case3 a b rest ih => simp [ih]; omega

theorem pairUp_take (H : Bytes → Node) (z : Node) (m : Nat) (ns : List Node) :
    pairUp H z (ns.take (2 * m)) = (pairUp H z ns).take m := by
  induction m generalizing ns with
  | zero => simp [pairUp]
  | succ m ih =>
    match ns with
    | [] => simp [pairUp]
    | [a] => simp [pairUp, Nat.mul_succ]
    | a :: b :: rest => simp [pairUp, Nat.mul_succ, ih]

theorem pairUp_drop (H : Bytes → Node) (z : Node) (m : Nat) (ns : List Node) :
    pairUp H z (ns.drop (2 * m)) = (pairUp H z ns).drop m := by
  induction m generalizing ns with
  | zero => simp
  | succ m ih =>
    match ns with
    | [] => simp [pairUp]
    | [a] => simp [pairUp, Nat.mul_succ]
    | a :: b :: rest => simp [pairUp, Nat.mul_succ, ih]

/-- Root of the full tree over the given nodes, completed by copies of `z`. -/
def rootD (H : Bytes → Node) (z : Node) : Nat → List Node → Node
  | 0, ns => ns.headD z
  | k + 1, ns => H ((rootD H z k (ns.take (2 ^ k))).1 ++ (rootD H z k (ns.drop (2 ^ k))).1)

theorem rootD_pairUp (H : Bytes → Node) (z : Node) (k : Nat) (ns : List Node) :
    rootD H z (k + 1) ns = rootD H (H (z.1 ++ z.1)) k (pairUp H z ns) := by
  induction k generalizing ns with
  | zero =>
    match ns with
    | [] => simp [rootD, pairUp]
    | [a] => simp [rootD, pairUp]
    | a :: b :: rest => simp [rootD, pairUp]
  | succ k ih =>
    rw [rootD, ih, ih, rootD, Nat.pow_succ, Nat.mul_comm (2 ^ k) 2, pairUp_take, pairUp_drop]

theorem rootD_nil (H : Bytes → Node) (d k : Nat) :
    rootD H (zeroRoot H d) k [] = zeroRoot H (d + k) := by
  induction k with
  | zero => rfl
  | succ k ih => simp only [rootD, List.take_nil, List.drop_nil, ih]; rfl

theorem full_root (H : Bytes → Node) (k : Nat) (ts : List MTree) :
    (full k ts).root H = rootD H zeroNode k (ts.map (·.root H)) := by
  induction k generalizing ts with
  | zero => cases ts <;> simp [full, rootD, MTree.root]
  | succ k ih => rw [full, MTree.root, ih, ih, rootD, List.map_take, List.map_drop]

theorem layerLoop_ok (E : Env) {bound last depth : Nat} (i : Nat) (ns : List Node) {z : Node}
    (hz : contextIndex E depth = .ok z.1) (hi : i % 2 = 0) (hb : last < bound)
    (hl : last < ns.length) (hi2 : i ≤ last + 2) :
    ∃ ns', layerLoop E bound last depth i (flat ns) = .ok (flat ns') ∧
      ns'.length = ns.length ∧
      ns'.take (last / 2 + 1) =
        ns.take (i / 2) ++ pairUp E.sha256 z ((ns.take (last + 1)).drop i) := by
  by_cases hlast : last < i
  · have : layerLoop E bound last depth i (flat ns) = .ok (flat ns) := by
      rw [layerLoop]
      split
      · rw [if_neg (by omega), if_neg (by omega)]
      · rfl
    refine ⟨ns, this, rfl, ?_⟩
    rw [List.drop_eq_nil_of_le (by simp; omega), pairUp, List.append_nil,
      show last / 2 + 1 = i / 2 by omega]
  · rw [layerLoop, dif_pos (by omega)]
    have hgi : ns[i]? = some ns[i] := List.getElem?_eq_getElem (by omega)
    by_cases hlt : i < last
    · have hgi1 : ns[i + 1]? = some ns[i + 1] := List.getElem?_eq_getElem (by omega)
      dsimp only
      rw [if_pos hlt, slice_flat_all (i := i / 2) (j := i + 2) rfl rfl (by omega) (by omega),
        Res.ok_bind, slice_flat hgi rfl rfl, Res.ok_bind,
        slice_flat hgi1 rfl rfl, Res.ok_bind,
        hashNodes, copyInto_flat (ns := ns) (i := i / 2) (E.sha256 (ns[i].1 ++ ns[i + 1].1)) (by omega) rfl (Nat.succ_mul _ _).symm rfl,
        Res.ok_bind]
      obtain ⟨ns', h1, h2, h3⟩ := layerLoop_ok E (i + 2)
        (ns.set (i / 2) (E.sha256 (ns[i].1 ++ ns[i + 1].1))) hz (by omega) hb (by simpa using hl)
        (by omega)
      refine ⟨ns', h1, by rw [h2, List.length_set], ?_⟩
      rw [h3]
      have e1 : (ns.take (last + 1)).drop i =
          ns[i] :: ns[i + 1] :: (ns.take (last + 1)).drop (i + 2) := by
        rw [List.drop_eq_getElem_cons (by simp; omega), List.drop_eq_getElem_cons (by simp; omega)]
        simp
      rw [e1, pairUp, show (i + 2) / 2 = i / 2 + 1 by omega, List.take_set, List.drop_take,
        List.drop_set_of_lt (by omega), ← List.drop_take]
      rw [List.take_succ_eq_append_getElem (show i / 2 < ns.length by omega),
        List.set_append_right _ _ (by simp; omega)]
      simp [List.length_take, Nat.min_eq_left (show i / 2 ≤ ns.length by omega)]
    · obtain rfl : i = last := by omega
      dsimp only
      rw [if_neg hlt, if_pos rfl,
        slice_flat_all (i := i / 2) (j := i + 1) rfl rfl (by omega) (by omega),
        Res.ok_bind, slice_flat hgi rfl rfl, Res.ok_bind, hz, Res.ok_bind,
        hashNodes, copyInto_flat (ns := ns) (i := i / 2) (E.sha256 (ns[i].1 ++ z.1)) (by omega) rfl (Nat.succ_mul _ _).symm rfl,
        Res.ok_bind]
      have : layerLoop E bound i depth (i + 2)
          (flat (ns.set (i / 2) (E.sha256 (ns[i].1 ++ z.1)))) =
          .ok (flat (ns.set (i / 2) (E.sha256 (ns[i].1 ++ z.1)))) := by
        rw [layerLoop]
        split
        · rw [if_neg (by omega), if_neg (by omega)]
        · rfl
      refine ⟨_, this, by simp, ?_⟩
      have e1 : (ns.take (i + 1)).drop i = [ns[i]] := by
        rw [List.drop_eq_getElem_cons (by simp; omega), List.drop_eq_nil_of_le (by simp; omega)]
        simp
      rw [e1, pairUp, List.take_set,
        List.take_succ_eq_append_getElem (show i / 2 < ns.length by omega),
        List.set_append_right _ _ (by simp; omega)]
      simp [List.length_take, Nat.min_eq_left (show i / 2 ≤ ns.length by omega)]
termination_by bound - i

theorem layersLoop_ok (E : Env) (D k last : Nat) (ns : List Node) (hk : k ≤ D) (hk' : k < 64)
    (hD : D ≤ 64) (hl : last < 2 ^ k) (hn : last < ns.length) :
    ∃ ns', layersLoop E (D + 1) k last (flat ns) = .ok (flat ns') ∧
      ns'.length = ns.length ∧
      ns'.head? = some (rootD E.sha256 (zeroRoot E.sha256 (D - k)) k (ns.take (last + 1))) := by
  induction k generalizing last ns with
  | zero =>
    refine ⟨ns, rfl, rfl, ?_⟩
    cases ns with
    | nil => simp at hn
    | cons a ns => simp [rootD]
  | succ k ih =>
    have hp : E.pow2 (k + 1) = .ok (2 ^ (k + 1)) := by
      simp [Env.pow2, show k + 1 < 64 by omega]
    obtain ⟨ns1, h1, h2, h3⟩ := layerLoop_ok E (bound := 2 ^ (k + 1)) (depth := D - (k + 1)) 0 ns
      (contextIndex_ok E (show D - (k + 1) < 64 by omega)) rfl hl hn (by omega)
    obtain ⟨ns2, h4, h5, h6⟩ := ih (last / 2) ns1 (by omega) (by omega) (by rw [Nat.pow_succ] at hl; omega)
      (by omega)
    refine ⟨ns2, ?_, by omega, ?_⟩
    · rw [layersLoop, hp, Res.lift_ok, Res.ok_bind,
        show D + 1 - (k + 1) - 1 = D - (k + 1) by omega, h1, Res.ok_bind, h4]
    · rw [h6, h3]
      simp only [Nat.zero_div, List.take_zero, List.nil_append, List.drop_zero]
      rw [rootD_pairUp, show D - k = D - (k + 1) + 1 by omega]
      rfl

theorem merkleizeVirtual_ok (E : Env) (ns : List Node) {D : Nat} (hD : D < 64)
    (h : ns.length ≤ 2 ^ D) :
    merkleizeChunksWithVirtualPadding E (flat ns) (2 ^ D) = .ok (rootD E.sha256 zeroNode D ns) := by
  have hle : (2 : Nat) ^ D ≤ 2 ^ 63 := Nat.pow_le_pow_right (by decide) (by omega)
  have hnp : E.nextPowerOfTwo (2 ^ D) = .ok (2 ^ D) := by
    rw [nextPowerOfTwo_ok hle]
    unfold depthFor; rw [Nat.clog_pow _ _ (by decide)]
  have h32 : 32 * ns.length / 32 = ns.length := by omega
  have hm : ((flat ns).length % 32 == 0) = true := by rw [flat_length]; simp
  rw [merkleizeChunksWithVirtualPadding, hm, Env.debugAssert_true, Res.lift_ok, Res.ok_bind]
  simp only [hnp, Res.lift_ok, Res.ok_bind, beq_self_eq_true, Env.debugAssert_true, ite_self]
  rw [trailingZeros_pow hD]
  have e3 : decide (D < 64) = true := by simp [hD]
  rw [e3, Env.debugAssert_true, Res.lift_ok, Res.ok_bind]
  simp only [flat_length, h32, Nat.add_sub_cancel]
  cases hns : ns with
  | nil =>
    rw [if_pos (by rfl), contextIndex_ok E hD, Res.ok_bind, toNode_node, ← Nat.zero_add D, ← rootD_nil E.sha256 0 D, Nat.zero_add]
    rfl
  | cons a rest =>
    rw [if_neg (by simp), ← hns]
    have hpos : 0 < ns.length := by simp [hns]
    obtain ⟨ns', h1, h2, h3⟩ := layersLoop_ok E D D (ns.length - 1) ns (by omega) hD (by omega)
      (by omega) (by omega)
    rw [h1, Res.ok_bind]
    rw [Nat.sub_add_cancel hpos, List.take_length, Nat.sub_self] at h3
    rw [slice_flat (i := 0) (by rw [← List.head?_eq_getElem?]; exact h3) rfl rfl, Res.ok_bind,
      toNode_node]
    rfl

theorem merkleize_none_ok (E : Env) (ns : List Node) (h : ns.length ≤ 2 ^ 63) :
    merkleize E (flat ns) none = .ok (rootD E.sha256 zeroNode (depthFor ns.length) ns) := by
  have h32 : 32 * ns.length / 32 = ns.length := by omega
  have hm : ((flat ns).length % 32 == 0) = true := by rw [flat_length]; simp
  rw [merkleize, hm, Env.debugAssert_true, Res.lift_ok, Res.ok_bind]
  simp only [flat_length, h32]
  rw [nextPowerOfTwo_ok h, Res.lift_ok, Res.ok_bind]
  have := depthFor_le h
  exact merkleizeVirtual_ok E ns (by omega) (le_pow_depthFor _)

theorem merkleize_some_ok (E : Env) (ns : List Node) {l : Nat} (h : ns.length ≤ l)
    (hl : l ≤ 2 ^ 63) :
    merkleize E (flat ns) (some l) = .ok (rootD E.sha256 zeroNode (depthFor l) ns) := by
  have h32 : 32 * ns.length / 32 = ns.length := by omega
  have hm : ((flat ns).length % 32 == 0) = true := by rw [flat_length]; simp
  rw [merkleize, hm, Env.debugAssert_true, Res.lift_ok, Res.ok_bind]
  simp only [flat_length, h32]
  rw [nextPowerOfTwo_ok (Nat.le_trans h hl), Res.lift_ok, Res.ok_bind]
  rw [if_neg (by omega), nextPowerOfTwo_ok hl, Res.lift_ok, Res.ok_bind]
  have := depthFor_le hl
  exact merkleizeVirtual_ok E ns (by omega) (Nat.le_trans h (le_pow_depthFor _))

theorem merkleize_exceeds (E : Env) (ns : List Node) {l : Nat} (h : l < ns.length)
    (hn : ns.length ≤ 2 ^ 63) :
    merkleize E (flat ns) (some l) = .err (.inputExceedsLimit l) := by
  have h32 : 32 * ns.length / 32 = ns.length := by omega
  have hm : ((flat ns).length % 32 == 0) = true := by rw [flat_length]; simp
  rw [merkleize, hm, Env.debugAssert_true, Res.lift_ok, Res.ok_bind]
  simp only [flat_length, h32]
  rw [nextPowerOfTwo_ok hn, Res.lift_ok, Res.ok_bind]
  rw [if_pos h]

end Ssz
