import Verif.Proofs.TreeBuild
import Verif.Proofs.PathTree

/-!
# What the prover computes
-/

namespace Ssz

open Spec

/-! ## Local coordinates -/

theorem shrink_id {m i : Nat} (h : i ≤ m) : shrinkIndex m i = i := by
  rw [shrinkIndex, dif_neg (by omega)]

theorem shrink_pow {d : Nat} : ∀ {k j : Nat}, j < 2 ^ (d + k) →
    shrinkIndex (2 ^ (d + 1) - 1) (2 ^ (d + k) + j) = 2 ^ d + j / 2 ^ k
  | 0, j, h => by
    rw [Nat.pow_succ, shrink_id (by rw [Nat.add_zero] at h ⊢; omega)]
    simp
  | k + 1, j, h => by
    have hp : 2 ^ (d + (k + 1)) = 2 * 2 ^ (d + k) := by rw [← Nat.add_assoc, Nat.pow_succ]; omega
    have hq : 2 ^ d ≤ 2 ^ (d + k) := Nat.pow_le_pow_right (by decide) (by omega)
    have h0 := Nat.two_pow_pos d
    rw [shrinkIndex, dif_pos (by rw [hp, Nat.pow_succ]; omega),
      show (2 ^ (d + (k + 1)) + j) / 2 = 2 ^ (d + k) + j / 2 by omega,
      shrink_pow (by omega), Nat.div_div_eq_div_mul, Nat.pow_succ, Nat.mul_comm 2]

theorem getDepth_ok {g : Nat} (h : 1 ≤ g) : getDepth g = .ok (Nat.log2 g) := by
  rw [getDepth, log2, if_neg (by omega)]

theorem usizeRem_pow {ε : Type} (i k : Nat) : (usizeRem i (2 ^ k) : Res ε Nat) = .ok (i % 2 ^ k) := by
  rw [usizeRem, if_neg (Nat.ne_of_gt (Nat.two_pow_pos k))]

theorem coordinates_ok (E : Env) {g d : Nat} (hd : d ≤ 57)
    (hg : 1 ≤ shrinkIndex (2 ^ (d + 1) - 1) g) (h64 : shrinkIndex (2 ^ (d + 1) - 1) g < 2 ^ 64) :
    computeLocalMerkleCoordinates E g (2 ^ d) =
      .ok (Nat.log2 (shrinkIndex (2 ^ (d + 1) - 1) g),
        shrinkIndex (2 ^ (d + 1) - 1) g % 2 ^ Nat.log2 (shrinkIndex (2 ^ (d + 1) - 1) g),
        shrinkIndex (2 ^ (d + 1) - 1) g) := by
  have h57 := pow57 hd
  have h0 := Nat.two_pow_pos d
  unfold computeLocalMerkleCoordinates getIndex
  rw [Env.mul_eq_ok (by simp only [usizeMod]; omega)]
  simp only [Res.lift_ok, Res.ok_bind]
  rw [Env.sub_eq_ok (by omega)]
  simp only [Res.lift_ok, Res.ok_bind]
  rw [show 2 * 2 ^ d - 1 = 2 ^ (d + 1) - 1 by rw [Nat.pow_succ]; omega, getDepth_ok hg]
  simp only [Res.ok_bind]
  rw [pow2_ok (log2_lt64 h64)]
  simp only [Res.lift_ok, Res.ok_bind]
  rw [usizeRem_pow]
  rfl

theorem coordinates_zero (E : Env) {d : Nat} (hd : d ≤ 57) :
    computeLocalMerkleCoordinates E 0 (2 ^ d) = .err .invalidGeneralizedIndex := by
  have h57 := pow57 hd
  have h0 := Nat.two_pow_pos d
  unfold computeLocalMerkleCoordinates
  rw [Env.mul_eq_ok (by simp only [usizeMod]; omega)]
  simp only [Res.lift_ok, Res.ok_bind]
  rw [Env.sub_eq_ok (by omega)]
  simp only [Res.lift_ok, Res.ok_bind]
  rw [shrink_id (Nat.zero_le _)]
  rfl

/-! ## The tree that the prover builds -/

/-- The depth of the leaves in the tree that the prover builds. -/
def partsDepth (c : Nat) (deco : Option Nat) : Nat :=
  depthFor c + if deco.isSome then 1 else 0

/-- The tree over given parts, with the decoration. -/
def partsTree (c : Nat) (ts : List MTree) : Option Nat → MTree
  | none => full (depthFor c) ts
  | some m => .node (full (depthFor c) ts) (numLeaf m)

/-- The functions that the prover uses give the parts of a tree. -/
structure Parts {α : Type} (E : Env) (T : SimpleSerialize α) (v : α) (ts : List MTree) (c : Nat)
    (deco : Option Nat) : Prop where
  count : T.chunkCount = .ok c
  countLe : c ≤ 2 ^ 56
  length : ts.length ≤ 2 ^ depthFor c
  decoration : T.decoration v = deco
  decorationLt : ∀ m, deco = some m → m < 2 ^ 64
  chunks : T.chunks v = .ok (flat (ts.map (·.root E.sha256)))

/-- The same without the room for the parts. -/
structure Pre {α : Type} (E : Env) (T : SimpleSerialize α) (v : α) (ts : List MTree) (c : Nat)
    (deco : Option Nat) : Prop where
  count : T.chunkCount = .ok c
  countLe : c ≤ 2 ^ 56
  decoration : T.decoration v = deco
  decorationLt : ∀ m, deco = some m → m < 2 ^ 64
  chunks : T.chunks v = .ok (flat (ts.map (·.root E.sha256)))

theorem Parts.pre {α : Type} {E : Env} {T : SimpleSerialize α} {v : α} {ts : List MTree} {c : Nat}
    {deco : Option Nat} (h : Parts E T v ts c deco) : Pre E T v ts c deco :=
  ⟨h.count, h.countLe, h.decoration, h.decorationLt, h.chunks⟩

/-- The prover's tree. -/
def builtTree (E : Env) (chunks : Bytes) (leafCount : Nat) (deco : Option Nat) :
    Res MerkError Tree := do
  let tree0 ← computeMerkleTree E chunks leafCount
  match deco with
  | some d => Tree.mixInDecoration E tree0 d
  | none => (.ok tree0 : Res MerkError Tree)

theorem partsDepth_le {c : Nat} (h : c ≤ 2 ^ 56) (deco : Option Nat) : partsDepth c deco ≤ 57 := by
  have := depthFor_le h
  rw [partsDepth]
  split <;> omega

theorem builtTree_ok {α : Type} {E : Env} {T : SimpleSerialize α} {v : α} {ts : List MTree} {c : Nat}
    {deco : Option Nat} (h : Parts E T v ts c deco) :
    ∃ ns, builtTree E (flat (ts.map (·.root E.sha256))) (2 ^ partsDepth c deco) deco = .ok (flat ns) ∧
      Heap E.sha256 (partsDepth c deco) (partsTree c ts deco) ns := by
  have hd := depthFor_le h.countLe
  cases deco with
  | none =>
    obtain ⟨ns, h1, h2⟩ := computeMerkleTree_ok E (d := depthFor c) (by omega) h.length
    refine ⟨ns, ?_, h2⟩
    rw [builtTree]
    show (computeMerkleTree E _ (2 ^ depthFor c) >>= _) = _
    rw [h1, Res.ok_bind]
  | some m =>
    have hl := h.length
    obtain ⟨ns, h1, h2⟩ := computeMerkleTree_ok E (d := depthFor c + 1) (ts := ts) (by omega)
      (by rw [Nat.pow_succ]; omega)
    have hfull : full (depthFor c + 1) ts =
        .node (full (depthFor c) ts) (full (depthFor c) (ts.drop (2 ^ depthFor c))) := by
      rw [full, List.take_of_length_le hl]
    rw [hfull] at h2
    obtain ⟨ms, h3, h4, _⟩ := mixIn_ok E (by omega) h2 (h.decorationLt m rfl)
    refine ⟨ms, ?_, h4⟩
    rw [builtTree]
    show (computeMerkleTree E _ (2 ^ (depthFor c + 1)) >>= _) = _
    rw [h1, Res.ok_bind]
    exact h3

theorem leafCount_ok {α : Type} {E : Env} {T : SimpleSerialize α} {v : α} {ts : List MTree} {c : Nat}
    {deco : Option Nat} (h : Pre E T v ts c deco) :
    (if deco.isSome then (E.mul (2 ^ depthFor c) 2).lift
      else (.ok (2 ^ depthFor c) : Res MerkError Nat)) = .ok (2 ^ partsDepth c deco) := by
  have hd := pow57 (partsDepth_le h.countLe deco)
  cases deco with
  | none => rfl
  | some m =>
    have e : partsDepth c (some m) = depthFor c + 1 := rfl
    rw [e, Nat.pow_succ] at hd
    rw [e, Nat.pow_succ, Env.mul_eq_ok (by simp only [usizeMod]; omega)]
    rfl

/-- What remains of `compute_proof` after the coordinates are known and the inner proof is made. -/
def finishProof {α : Type} (E : Env) (T : SimpleSerialize α) (data : α) (leafCount idx ld lg : Nat)
    (p : Prover) : Res MerkError Prover := do
  let chunks ← T.chunks data
  let tree ← builtTree E chunks leafCount (T.decoration data)
  let leaf ←
    if !decide (lg < idx) then
      (do let l ← Tree.get E tree idx
          toNode l : Res MerkError Node)
    else .ok p.proof.leaf
  let branch ← siblingsLoop E tree ld lg p.proof.branch
  let rootBytes ← Tree.get E tree 1
  let root ← toNode rootBytes
  .ok { proof := { leaf := leaf, branch := branch, index := p.proof.index }
        witness := root }

/-- The inner proof. -/
def innerProof {α : Type} (E : Env) (T : SimpleSerialize α) (data : α) (pr : Prover) (ld li lg : Nat) :
    Res MerkError Prover :=
  if lg < pr.proof.index then
    (do
      let parentDepth ← getDepth pr.proof.index
      let childDepth ← (E.sub parentDepth ld).lift
      let nodeCount ← (E.pow2 childDepth).lift
      let r ← usizeRem pr.proof.index nodeCount
      let childIndex ← (E.add nodeCount r).lift
      let p ← T.proveElement data li
        { pr with proof := { pr.proof with index := childIndex } }
      .ok { p with proof := { p.proof with index := pr.proof.index } } : Res MerkError Prover)
  else .ok pr

theorem res_ite_bind {ε α β : Type} (c : Prop) [Decidable c] (x y : Res ε α) (k : α → Res ε β) :
    ((if c then x else y) >>= k) = if c then x >>= k else y >>= k := by
  split <;> rfl

theorem computeProof_eq {α : Type} {E : Env} {T : SimpleSerialize α} {v : α} {ts : List MTree} {c : Nat}
    {deco : Option Nat} (h : Pre E T v ts c deco) (pr : Prover) :
    computeProof E T v pr =
      computeLocalMerkleCoordinates E pr.proof.index (2 ^ partsDepth c deco) >>= fun x =>
        innerProof E T v pr x.1 x.2.1 x.2.2 >>= fun p =>
          finishProof E T v (2 ^ partsDepth c deco) pr.proof.index x.1 x.2.2 p := by
  have hc := h.countLe
  unfold computeProof
  rw [h.count]
  simp only [Res.lift_ok, Res.ok_bind]
  rw [nextPowerOfTwo_ok (Nat.le_trans h.countLe (by decide)), h.decoration]
  simp only [Res.lift_ok, Res.ok_bind]
  have hl := leafCount_ok h
  cases deco with
  | none =>
    simp only [Option.isSome_none, Bool.false_eq_true, if_false] at hl
    simp only [innerProof, finishProof, builtTree, h.decoration, Res.bind_assoc, res_ite_bind,
      Option.isSome_none, Bool.false_eq_true, if_false, Res.ok_bind, Res.ok.inj hl]
  | some m =>
    simp only [Option.isSome_some, if_true] at hl
    simp only [innerProof, finishProof, builtTree, h.decoration, Res.bind_assoc, res_ite_bind,
      Option.isSome_some, if_true, Res.ok_bind, hl]

/-- The node at the index exists: the prover finds it, its branch and the root. -/
def ProvesBy (E : Env) (f : Prover → Res MerkError Prover) (tree : MTree) : Prop :=
  ∀ (pr : Prover) (u : MTree), tree.sub pr.proof.index = some u → pr.proof.index < 2 ^ 64 →
    f pr = .ok { proof := { leaf := u.root E.sha256
                            branch := pr.proof.branch ++ tree.branchAt E.sha256 pr.proof.index
                            index := pr.proof.index }
                 witness := tree.root E.sha256 }

/-- Inner proofs. -/
def Inner {α : Type} (E : Env) (T : SimpleSerialize α) (v : α) (ts : List MTree) : Prop :=
  ∀ (i : Nat) (s : MTree), ts[i]? = some s → (∃ n, s = .leaf n) ∨ ProvesBy E (T.proveElement v i) s

theorem finishProof_ok {α : Type} {E : Env} {T : SimpleSerialize α} {v : α} {ts : List MTree} {c : Nat}
    {deco : Option Nat} (h : Parts E T v ts c deco) {g l : Nat} {s : MTree} {p : Prover} {n : Node}
    (hs : (partsTree c ts deco).sub l = some s) (hl : l < 2 ^ (partsDepth c deco + 1))
    (hn : n = if l < g then p.proof.leaf else s.root E.sha256) (hg : l < g ∨ l = g) :
    finishProof E T v (2 ^ partsDepth c deco) g (Nat.log2 l) l p =
      .ok { proof := { leaf := n
                       branch := p.proof.branch ++ (partsTree c ts deco).branchAt E.sha256 l
                       index := p.proof.index }
            witness := (partsTree c ts deco).root E.sha256 } := by
  obtain ⟨ns, h1, h2⟩ := builtTree_ok h
  have hd := partsDepth_le h.countLe deco
  have hl0 := sub_pos hs
  have hlog : Nat.log2 l ≤ partsDepth c deco := by
    have := (Nat.log2_lt (n := l) (by omega)).2 hl
    omega
  unfold finishProof
  rw [h.chunks, Res.ok_bind, h.decoration, h1]
  simp only [Res.ok_bind]
  rw [siblingsLoop_ok E hd h2 _ l s _ hs rfl hlog, heap_get E hd h2 (sub_one _)
    (Nat.one_lt_two_pow (by omega))]
  simp only [Res.ok_bind, toNode_node]
  by_cases hlt : l < g
  · simp only [hlt, decide_true, Bool.not_true, Bool.false_eq_true, if_false]
    rw [hn, if_pos hlt]
  · obtain rfl : l = g := by omega
    simp only [hlt, decide_false, Bool.not_false, if_true]
    rw [heap_get E hd h2 hs hl]
    simp only [Res.ok_bind, toNode_node]
    rw [hn, if_neg hlt]

/-- A part that is no leaf is one of the given parts. -/
theorem parts_sub {c : Nat} {ts : List MTree} {deco : Option Nat} {q k : Nat} {s u : MTree}
    (hq : q < 2 ^ partsDepth c deco) (hs : (partsTree c ts deco).sub (2 ^ partsDepth c deco + q) = some s)
    (hk : k ≠ 1) (hu : s.sub k = some u) : ts[q]? = some s := by
  have hfull : ∀ i, i < 2 ^ depthFor c → (full (depthFor c) ts).sub (2 ^ depthFor c + i) = some s →
      ts[i]? = some s := by
    intro i hi h
    rw [full_sub hi] at h
    cases hx : ts[i]? with
    | some x => rw [hx] at h; exact h
    | none =>
      rw [hx] at h
      cases h
      rw [Option.getD_none, leaf_sub hk] at hu; cases hu
  cases deco with
  | none => exact hfull q hq hs
  | some m =>
    have e : partsDepth c (some m) = depthFor c + 1 := rfl
    rw [e] at hq hs
    have hp : 2 ^ (depthFor c + 1) = 2 * 2 ^ depthFor c := by rw [Nat.pow_succ]; omega
    have h0 := Nat.two_pow_pos (depthFor c)
    by_cases hlt : q < 2 ^ depthFor c
    · rw [hp, show 2 * 2 ^ depthFor c + q = gcat 2 (2 ^ depthFor c + q) from (gcat_pow hlt).symm] at hs
      obtain ⟨x, h1, h2⟩ := (sub_cat (by decide) (by omega)).1 hs
      rw [partsTree, node_sub_left] at h1
      cases h1
      exact hfull q hlt h2
    · rw [hp, show 2 * 2 ^ depthFor c + q = gcat 3 (2 ^ depthFor c + (q - 2 ^ depthFor c)) by
        rw [gcat_pow (by omega)]; omega] at hs
      obtain ⟨x, h1, h2⟩ := (sub_cat (by decide) (by omega)).1 hs
      rw [partsTree, node_sub_right] at h1
      cases h1
      by_cases h3 : 2 ^ depthFor c + (q - 2 ^ depthFor c) = 1
      · rw [h3, sub_one] at h2
        cases h2
        rw [numLeaf, leaf_sub hk] at hu; cases hu
      · rw [numLeaf, leaf_sub h3] at h2; cases h2

theorem computeProof_ok {α : Type} {E : Env} {T : SimpleSerialize α} {v : α} {ts : List MTree} {c : Nat}
    {deco : Option Nat} (h : Parts E T v ts c deco) (hi : Inner E T v ts) :
    ProvesBy E (computeProof E T v) (partsTree c ts deco) := by
  intro pr u hu hg
  have hd := partsDepth_le h.countLe deco
  obtain ⟨e, j, hj, hge⟩ := exists_pow_add (sub_pos hu)
  rw [computeProof_eq h.pre]
  by_cases he : e ≤ partsDepth c deco
  · -- the node is in the tree built here
    have hlt : pr.proof.index < 2 ^ (partsDepth c deco + 1) := by
      have := Nat.pow_le_pow_right (show 0 < 2 by decide) he
      rw [hge, Nat.pow_succ]; omega
    have hsh : shrinkIndex (2 ^ (partsDepth c deco + 1) - 1) pr.proof.index = pr.proof.index :=
      shrink_id (by omega)
    rw [coordinates_ok E hd (by rw [hsh]; exact sub_pos hu) (by rw [hsh]; exact hg), hsh, Res.ok_bind]
    have hin : innerProof E T v pr (Nat.log2 pr.proof.index)
        (pr.proof.index % 2 ^ Nat.log2 pr.proof.index) pr.proof.index = .ok pr :=
      if_neg (Nat.lt_irrefl _)
    simp only [hin, Res.ok_bind]
    exact finishProof_ok h hu hlt (by rw [if_neg (Nat.lt_irrefl _)]) (Or.inr rfl)
  · -- the node is inside a part
    obtain ⟨k, rfl⟩ : ∃ k, e = partsDepth c deco + (k + 1) := ⟨e - partsDepth c deco - 1, by omega⟩
    have hq : j / 2 ^ (k + 1) < 2 ^ partsDepth c deco := by
      rw [Nat.div_lt_iff_lt_mul (Nat.two_pow_pos _), ← Nat.pow_add]; exact hj
    have hr := Nat.mod_lt j (Nat.two_pow_pos (k + 1))
    have hk64 : partsDepth c deco + (k + 1) < 64 := by
      have := (Nat.pow_lt_pow_iff_right (show 1 < 2 by decide)).1
        (show 2 ^ (partsDepth c deco + (k + 1)) < 2 ^ 64 by omega)
      exact this
    have hsh : shrinkIndex (2 ^ (partsDepth c deco + 1) - 1) pr.proof.index =
        2 ^ partsDepth c deco + j / 2 ^ (k + 1) := by rw [hge, shrink_pow hj]
    have hcat : pr.proof.index = gcat (2 ^ partsDepth c deco + j / 2 ^ (k + 1))
        (2 ^ (k + 1) + j % 2 ^ (k + 1)) := by
      rw [gcat_pow hr, hge, Nat.pow_add, Nat.add_mul, Nat.add_assoc, Nat.mul_comm (j / _),
        Nat.div_add_mod]
    have hmod : (2 ^ (partsDepth c deco + (k + 1)) + j) % 2 ^ (k + 1) = j % 2 ^ (k + 1) := by
      rw [Nat.pow_add, Nat.mul_comm, Nat.mul_add_mod]
    generalize j / 2 ^ (k + 1) = q at *
    generalize j % 2 ^ (k + 1) = r at *
    have h0 := Nat.two_pow_pos (partsDepth c deco)
    have h1 := Nat.two_pow_pos k
    have hk1 : 2 ^ (k + 1) = 2 ^ k * 2 := Nat.pow_succ 2 k
    rw [hcat] at hu
    obtain ⟨s, hs, hsu⟩ := (sub_cat (by omega) (by omega)).1 hu
    have hts := parts_sub hq hs (by omega) hsu
    have hlt : 2 ^ partsDepth c deco + q < pr.proof.index := by
      rw [hcat, gcat_pow hr, hk1]
      have := Nat.mul_le_mul_left (2 ^ partsDepth c deco + q) (show 2 ≤ 2 ^ k * 2 by omega)
      omega
    have hlog := log2_pow_add hq
    rw [coordinates_ok E hd (by rw [hsh]; omega) (by rw [hsh]; omega), hsh, Res.ok_bind, hlog,
      Nat.add_mod_left, Nat.mod_eq_of_lt hq]
    simp only []
    have hinner : innerProof E T v pr (partsDepth c deco) (q)
        (2 ^ partsDepth c deco + q) =
        .ok { proof := { leaf := u.root E.sha256
                         branch := pr.proof.branch ++
                           s.branchAt E.sha256 (2 ^ (k + 1) + r)
                         index := pr.proof.index }
              witness := s.root E.sha256 } := by
      unfold innerProof
      rw [if_pos hlt, getDepth_ok (by omega)]
      simp only [Res.ok_bind]
      rw [hge, log2_pow_add hj, Env.sub_eq_ok (by omega)]
      simp only [Res.lift_ok, Res.ok_bind]
      rw [show partsDepth c deco + (k + 1) - partsDepth c deco = k + 1 by omega, pow2_ok (by omega)]
      simp only [Res.lift_ok, Res.ok_bind]
      rw [usizeRem_pow, hmod]
      simp only [Res.ok_bind]
      have hk64' : 2 ^ (k + 1) ≤ 2 ^ 63 := Nat.pow_le_pow_right (by decide) (by omega)
      rw [Env.add_eq_ok (by simp only [usizeMod]; omega)]
      simp only [Res.lift_ok, Res.ok_bind]
      rcases hi _ _ hts with ⟨n, rfl⟩ | hpr
      · rw [leaf_sub (by omega)] at hsu; cases hsu
      · rw [hpr _ u hsu (by simp only; omega)]
        simp only [Res.ok_bind]
    rw [hinner]
    simp only [Res.ok_bind]
    have hfin := finishProof_ok h (g := pr.proof.index) hs (by rw [Nat.pow_succ]; omega)
      (p := { proof := { leaf := u.root E.sha256
                         branch := pr.proof.branch ++
                           s.branchAt E.sha256 (2 ^ (k + 1) + r)
                         index := pr.proof.index }
              witness := s.root E.sha256 }) rfl (Or.inl hlt)
    rw [hlog] at hfin
    rw [hfin]
    simp only [if_pos hlt]
    congr 3
    rw [List.append_assoc]
    conv => rhs; rw [hcat]
    rw [branchAt_cat (by omega) hs hsu]

/-- Whatever the index: the witness is the root. -/
theorem computeProof_witness {α : Type} {E : Env} {T : SimpleSerialize α} {v : α} {ts : List MTree}
    {c : Nat} {deco : Option Nat} (h : Parts E T v ts c deco) {pr p : Prover}
    (hp : computeProof E T v pr = .ok p) : p.witness = (partsTree c ts deco).root E.sha256 := by
  rw [computeProof_eq h.pre] at hp
  obtain ⟨x, _, hp⟩ := Res.bind_eq_ok.1 hp
  obtain ⟨q, _, hp⟩ := Res.bind_eq_ok.1 hp
  obtain ⟨ns, h1, h2⟩ := builtTree_ok h
  have hd := partsDepth_le h.countLe deco
  unfold finishProof at hp
  rw [h.chunks, Res.ok_bind, h.decoration, h1, Res.ok_bind] at hp
  have hget := heap_get E hd h2 (sub_one _) (Nat.one_lt_two_pow (by omega))
  rw [hget] at hp
  simp only [Res.ok_bind, toNode_node] at hp
  split at hp
  · obtain ⟨_, _, hp⟩ := Res.bind_eq_ok.1 hp
    obtain ⟨_, _, hp⟩ := Res.bind_eq_ok.1 hp
    cases hp; rfl
  · obtain ⟨_, _, hp⟩ := Res.bind_eq_ok.1 hp
    cases hp; rfl

/-- The index is kept. -/
theorem computeProof_index {α : Type} {E : Env} {T : SimpleSerialize α} {v : α} {ts : List MTree}
    {c : Nat} {deco : Option Nat} (h : Parts E T v ts c deco) {pr p : Prover}
    (hp : computeProof E T v pr = .ok p) : p.proof.index = pr.proof.index := by
  rw [computeProof_eq h.pre] at hp
  obtain ⟨x, _, hp⟩ := Res.bind_eq_ok.1 hp
  obtain ⟨q, hq, hp⟩ := Res.bind_eq_ok.1 hp
  have hqi : q.proof.index = pr.proof.index := by
    unfold innerProof at hq
    split at hq
    · simp only [Res.bind_eq_ok] at hq
      obtain ⟨_, _, _, _, _, _, _, _, _, _, _, _, hq⟩ := hq
      cases hq; rfl
    · cases hq; rfl
  unfold finishProof at hp
  obtain ⟨_, _, hp⟩ := Res.bind_eq_ok.1 hp
  obtain ⟨_, _, hp⟩ := Res.bind_eq_ok.1 hp
  split at hp <;>
  · simp only [Res.bind_eq_ok] at hp
    obtain ⟨_, _, _, _, _, _, _, _, hp⟩ := hp
    cases hp
    exact hqi

/-! ## All types -/

/-- The prover's functions give the Merkle tree of the value. -/
def HasParts {α : Type} (E : Env) (T : SimpleSerialize α) (v : α) (tree : MTree) : Prop :=
  ∃ ts c deco, Parts E T v ts c deco ∧ Inner E T v ts ∧ partsTree c ts deco = tree

theorem HasParts.proves {α : Type} {E : Env} {T : SimpleSerialize α} {v : α} {tree : MTree}
    (h : HasParts E T v tree) : ProvesBy E (computeProof E T v) tree := by
  obtain ⟨ts, c, deco, h1, h2, rfl⟩ := h
  exact computeProof_ok h1 h2

theorem HasParts.witness {α : Type} {E : Env} {T : SimpleSerialize α} {v : α} {tree : MTree}
    (h : HasParts E T v tree) {pr p : Prover} (hp : computeProof E T v pr = .ok p) :
    p.witness = tree.root E.sha256 := by
  obtain ⟨ts, c, deco, h1, _, rfl⟩ := h
  exact computeProof_witness h1 hp

/-- A type with a single chunk and no inner elements. -/
theorem basic_partsOnly {α : Type} {E : Env} {T : SimpleSerialize α} {v : α} {n : Node}
    (h1 : T.chunkCount = .ok 1) (h2 : T.decoration v = none) (h3 : T.chunks v = .ok n.1) :
    Parts E T v [.leaf n] 1 none :=
  ⟨h1, by decide, Nat.two_pow_pos _, h2, by simp, by rw [h3]; simp [flat, MTree.root]⟩

theorem basic_parts {α : Type} {E : Env} {T : SimpleSerialize α} {v : α} {n : Node}
    (h1 : T.chunkCount = .ok 1) (h2 : T.decoration v = none) (h3 : T.chunks v = .ok n.1) :
    HasParts E T v (.leaf n) := by
  refine ⟨[.leaf n], 1, none, basic_partsOnly h1 h2 h3, ?_, ?_⟩
  · intro i s hs
    have : s ∈ [MTree.leaf n] := List.mem_of_getElem? hs
    exact Or.inl ⟨n, by simpa using this⟩
  · simp [partsTree, depthFor, full]

theorem leaves_leaf {b : Bytes} {i : Nat} {s : MTree} (h : (leaves b)[i]? = some s) :
    ∃ n, s = .leaf n := by
  have := List.mem_of_getElem? h
  rw [leaves, List.mem_map] at this
  obtain ⟨n, _, rfl⟩ := this
  exact ⟨n, rfl⟩

theorem index_ok {ε α : Type} {xs : List α} {i : Nat} {x : α} (h : xs[i]? = some x) :
    (index xs i : Res ε α) = .ok x := by
  rw [index, h]

theorem coll_inner {E : Env} {t : Ty} {n : Nat} {vs : List t.Val} (hn : vs.length ≤ n)
    (ih : ∀ x ∈ vs, HasParts E (t.impl E) x (treeBy packs t x)) (i : Nat) (s : MTree)
    (hs : (partsOf t vs)[i]? = some s) :
    (∃ n, s = .leaf n) ∨ ProvesBy E (collectionProveElement E (t.impl E) n vs i) s := by
  cases hk : packs t with
  | true =>
    rw [partsOf, if_pos hk] at hs
    exact Or.inl (leaves_leaf hs)
  | false =>
    rw [partsOf, if_neg (by simp [hk]), List.getElem?_map, Option.map_eq_some_iff] at hs
    obtain ⟨x, hx, rfl⟩ := hs
    have hi : i < n := by
      by_contra hc
      rw [List.getElem?_eq_none (by omega)] at hx; cases hx
    refine Or.inr fun pr u hu hg => ?_
    rw [collectionProveElement, if_neg (by omega), index_ok hx, Res.ok_bind]
    exact (ih x (List.mem_of_getElem? hx)).proves pr u hu hg

theorem parts_le {t : Ty} {vs : List t.Val} {n : Nat} (hv : ∀ v ∈ vs, Valid t v) (hn : vs.length ≤ n) :
    (partsOf t vs).length ≤ 2 ^ depthFor (chunkCountBy packs t n) := by
  rw [partsOf_length hv]
  exact Nat.le_trans (chunkCountBy_le hn) (le_pow_depthFor _)

theorem count_ok (E : Env) {t : Ty} {n : Nat} (hf : flatElem t = true)
    (h : itemCount prims t n ≤ 2 ^ 56) :
    itemChunkCount E (t.impl E) n = .ok (chunkCountBy packs t n) := by
  rw [itemChunkCount_eq, countCalc_ok (by unfold itemCount at h; omega), itemCount_eq hf]

/-- Arrays and vectors. -/
theorem vector_parts {α : Type} {E : Env} {T : SimpleSerialize α} {v : α} {t : Ty} {n : Nat}
    {vs : List t.Val} (hl : Legal t) (hs : packs t = true → fixedLen t < 2 ^ 32)
    (hv : ∀ v ∈ vs, Valid t v) (hh : held t vs.length) (hn : vs.length = n)
    (hf : flatElem t = true) (hc : itemCount prims t n ≤ 2 ^ 56)
    (hr : ∀ v ∈ vs, (t.impl E).hashTreeRoot v = .ok ((treeBy packs t v).root E.sha256))
    (ih : ∀ x ∈ vs, HasParts E (t.impl E) x (treeBy packs t x))
    (h1 : T.chunkCount = itemChunkCount E (t.impl E) n) (h2 : T.decoration v = none)
    (h3 : T.chunks v = assembleChunks E (t.impl E) vs)
    (h4 : T.proveElement v = collectionProveElement E (t.impl E) n vs) :
    HasParts E T v (full (depthFor (chunkCountBy packs t n)) (partsOf t vs)) := by
  refine ⟨partsOf t vs, chunkCountBy packs t n, none,
    ⟨by rw [h1, count_ok E hf hc], by rw [← itemCount_eq hf]; exact hc,
      parts_le hv (Nat.le_of_eq hn), h2, by simp, ?_⟩, ?_, rfl⟩
  · rw [h3, assembleChunks_ok E hl hs hv hh hr]
  · intro i s h
    rw [h4]
    exact coll_inner (Nat.le_of_eq hn) ih i s h

/-- Lists. -/
theorem list_parts {E : Env} {t : Ty} {n : Nat}
    {vs : List t.Val} (hl : Legal t) (hs : packs t = true → fixedLen t < 2 ^ 32)
    (hv : ∀ v ∈ vs, Valid t v) (hh : held t vs.length) (hn : vs.length ≤ n)
    (hf : flatElem t = true) (hc : itemCount prims t n ≤ 2 ^ 56)
    (hr : ∀ v ∈ vs, (t.impl E).hashTreeRoot v = .ok ((treeBy packs t v).root E.sha256))
    (ih : ∀ x ∈ vs, HasParts E (t.impl E) x (treeBy packs t x)) :
    HasParts E (SimpleSerialize.list E (t.impl E) n) vs
      (.node (full (depthFor (chunkCountBy packs t n)) (partsOf t vs)) (numLeaf vs.length)) := by
  refine ⟨partsOf t vs, chunkCountBy packs t n, some vs.length,
    ⟨count_ok E hf hc, by rw [← itemCount_eq hf]; exact hc,
      parts_le hv hn, rfl, ?_, ?_⟩, ?_, rfl⟩
  · intro m hm
    cases hm
    have := hh.1
    omega
  · exact assembleChunks_ok E hl hs hv hh hr
  · exact coll_inner hn ih

theorem bits_parts {α : Type} {E : Env} {T : SimpleSerialize α} {v : α} {n : Nat} {bits : List Bool}
    {deco : Option Nat} (hn : bits.length ≤ n) (hc : (n + 255) / 256 ≤ 2 ^ 56)
    (hm : ∀ m, deco = some m → m < 2 ^ 64) (h1 : T.chunkCount = .ok ((n + 255) / 256))
    (h2 : T.decoration v = deco) (h3 : T.chunks v = .ok (flat (chunkify (Spec.packBits bits)))) :
    HasParts E T v (partsTree ((n + 255) / 256) (leaves (Spec.packBits bits)) deco) := by
  refine ⟨_, _, deco, ⟨h1, hc, ?_, h2, hm, ?_⟩, fun i s h => Or.inl (leaves_leaf h), rfl⟩
  · refine Nat.le_trans ?_ (le_pow_depthFor _)
    rw [leaves_length, packBits_length]; omega
  · rw [h3, leaves_root]

theorem pair_parts {α : Type} {E : Env} {T : SimpleSerialize α} {v : α} {s : MTree} {m : Nat}
    (hm : m < 2 ^ 64) (h1 : T.chunkCount = .ok 1) (h2 : T.decoration v = some m)
    (h3 : T.chunks v = .ok (s.root E.sha256).1)
    (h4 : (∃ n, s = .leaf n) ∨ ProvesBy E (T.proveElement v 0) s) :
    HasParts E T v (.node s (numLeaf m)) := by
  refine ⟨[s], 1, some m, ⟨h1, by decide, Nat.two_pow_pos _, h2, by rintro _ ⟨⟩; exact hm, ?_⟩, ?_, ?_⟩
  · rw [h3]; simp [flat]
  · intro i x hx
    cases i with
    | zero => cases hx; exact h4
    | succ i => cases hx
  · simp [partsTree, depthFor, full]

theorem unionCount_pos (E : Env) : ∀ (vs : Variants), vs.Val → 0 < (vs.impls E).count
  | .nil, v => Empty.elim v
  | .unit _, _ => by show 0 < 1 + _; omega
  | .data _ _, _ => by show 0 < 1 + _; omega

theorem container_parts {E : Env} {fs : Fields} {v : fs.Val} (hs : countF fs ≤ 2 ^ 56)
    (hc : (fs.impls E).assembleChunks v =
      .ok (flat ((treesByF packs fs v).map (·.root E.sha256))))
    (ih : ∀ (i : Nat) (s : MTree), (treesByF packs fs v)[i]? = some s →
      ProvesBy E (fun pr => (fs.impls E).proveField E pr v i) s) :
    HasParts E (SimpleSerialize.container E (fs.impls E)) v
      (full (depthFor (countF fs)) (treesByF packs fs v)) := by
  refine ⟨treesByF packs fs v, countF fs, none, ⟨?_, hs, ?_, rfl, by simp, hc⟩, ?_, rfl⟩
  · show Res.ok (fs.impls E).count = _
    rw [count_impls]
  · rw [treesByF_length]; exact le_pow_depthFor _
  · intro i s h
    refine Or.inr fun pr u hu hg => ?_
    have hi : i < countF fs := by
      by_contra hc
      rw [List.getElem?_eq_none (by rw [treesByF_length]; omega)] at h; cases h
    show (if i ≥ (fs.impls E).count then _ else _) = _
    rw [count_impls, if_neg (by omega)]
    exact ih i s h pr u hu hg

mutual

theorem has_parts (E : Env) : ∀ (t : Ty) (v : t.Val), Legal t → Bounded t → Shallow t → Flat t →
    Valid t v → InMemory t v → HasParts E (t.impl E) v (treeBy packs t v)
  | .uint u, v, _, _, _, _, _, _ => by
    refine basic_parts (n := pad32 (enc (.uint u) v)) rfl rfl ?_
    show Res.ok (packBytes ([] ++ toLeBytes (bitsToBytes u.bits) v.toNat)) = _
    rw [toLeBytes_eq, List.nil_append]
    simp only [enc]
    congr 1
    rw [pad32_short (by cases u <;> simp [UintTy.bits])]
    cases u <;> simp [packBytes, bitsToBytes, UintTy.bits]
  | .u256, v, _, _, _, _, _, _ => by
    refine basic_parts (n := pad32 (enc .u256 v)) rfl rfl ?_
    show Res.ok (toLeBytes 32 (BitVec.toNat v)) = _
    rw [toLeBytes_eq, pad32_full (by simp [enc])]
    rfl
  | .bool, v, _, _, _, _, _, _ =>
    basic_parts (n := pad32 (enc .bool v)) rfl rfl (by cases v <;> rfl)
  | .node, v, _, _, _, _, _, _ => basic_parts (n := v) rfl rfl rfl
  | .array t n, v, hl, hb, hs, hf, hv, hm =>
    vector_parts hl.2 hb.2 hv hm.1 v.2 hf.1 hs.1
      (fun x hx => htr_ok E t x hl.2 hb.1 (hv x hx) (hm.2 x hx))
      (fun x hx => has_parts E t x hl.2 hb.1 hs.2 hf.2 (hv x hx) (hm.2 x hx)) rfl rfl rfl rfl
  | .vector t n, v, hl, hb, hs, hf, hv, hm =>
    vector_parts hl.2 hb.2 hv.2 hm.1 hv.1 hf.1 hs.1
      (fun x hx => htr_ok E t x hl.2 hb.1 (hv.2 x hx) (hm.2 x hx))
      (fun x hx => has_parts E t x hl.2 hb.1 hs.2 hf.2 (hv.2 x hx) (hm.2 x hx)) rfl rfl rfl rfl
  | .list t n, v, hl, hb, hs, hf, hv, hm =>
    list_parts hl hb.2.1 hv.2 hm.1 hv.1 hf.1 hs.1
      (fun x hx => htr_ok E t x hl hb.1 (hv.2 x hx) (hm.2 x hx))
      (fun x hx => has_parts E t x hl hb.1 hs.2 hf.2 (hv.2 x hx) (hm.2 x hx))
  | .bitvector n, v, hl, _, hs, _, hv, _ =>
    bits_parts (deco := none) (Nat.le_of_eq hv) hs (by simp) rfl rfl (Bitvector.packBits_ok hl hv)
  | .bitlist n, v, _, _, hs, _, hv, hm =>
    bits_parts (deco := some v.live.length) hv.1 hs (by rintro _ ⟨⟩; exact hm) rfl rfl
      (Bitlist.packBits_ok hv.1 hv.2)
  | .option t, v, hl, hb, hs, hf, hv, hm =>
    match v with
    | none => pair_parts (by decide) rfl rfl rfl (Or.inl ⟨_, rfl⟩)
    | some x => by
      refine pair_parts (m := 1) (by decide) rfl rfl ?_
        (Or.inr (has_parts E t x hl hb hs hf (hv x rfl) (hm x rfl)).proves)
      show ((t.impl E).hashTreeRoot x).map (·.1) = _
      rw [htr_ok E t x hl hb (hv x rfl) (hm x rfl), Res.map_ok]
  | .newtype t, v, hl, hb, hs, hf, hv, hm => by
    obtain ⟨ts, c, deco, h1, h2, h3⟩ := has_parts E t v hl hb hs hf hv hm
    exact ⟨ts, c, deco, ⟨h1.count, h1.countLe, h1.length, h1.decoration, h1.decorationLt, h1.chunks⟩,
      h2, h3⟩
  | .container fs, v, hl, hb, hs, hf, hv, hm => by
    have hc : (fs.impls E).assembleChunks v =
        .ok (flat ((treesByF packs fs v).map (·.root E.sha256))) := by
      unfold FieldImpls.assembleChunks
      rw [count_impls, ← flat_replicate]
      exact htrF_ok E fs v [] hl.2.2 hb.1 hv hm
    exact container_parts hs.1 hc (has_partsF E fs v hl.2.2 hb.1 hs.2 hf hv hm)
  | .union vs, v, hl, hb, hs, hf, hv, hm => by
    have hcount : countV vs < 2 ^ 64 := by
      obtain ⟨hs, -⟩ := hl
      cases vs with
      | nil => exact hs.elim
      | unit rest => obtain ⟨_, _, h⟩ := hs; simp only [countV]; omega
      | data t rest => obtain ⟨_, h⟩ := hs; simp only [countV]; omega
    obtain ⟨s, m, h1, h2, h3, h4, h5⟩ := has_partsV E vs 0 v hl.2 hb hs hf hv hm (by omega)
    show HasParts E _ v (treeByV packs vs 0 v)
    rw [h1]
    refine pair_parts h2 rfl (congrArg some h3) h4 ?_
    rcases h5 with h5 | h5
    · exact Or.inl h5
    · refine Or.inr fun pr u hu hg => ?_
      show (if 0 ≥ (vs.impls E).count then _ else _) = _
      rw [if_neg (Nat.not_le.2 (unionCount_pos E vs v))]
      exact h5 pr u hu hg

theorem has_partsF (E : Env) : ∀ (fs : Fields) (v : fs.Val), LegalF fs → BoundedF fs →
    ShallowF fs → FlatF fs → ValidF fs v → InMemoryF fs v → ∀ (i : Nat) (s : MTree),
    (treesByF packs fs v)[i]? = some s → ProvesBy E (fun pr => (fs.impls E).proveField E pr v i) s
  | .nil, _, _, _, _, _, _, _ => by intro i s h; cases h
  | .cons _ t rest, v, hl, hb, hs, hf, hv, hm => by
    intro i s h
    cases i with
    | zero =>
      cases h
      exact (has_parts E t v.1 hl.1 hb.1 hs.1 hf.1 hv.1 hm.1).proves
    | succ i => exact has_partsF E rest v.2 hl.2 hb.2 hs.2 hf.2 hv.2 hm.2 i s h

theorem has_partsV (E : Env) : ∀ (vs : Variants) (i : Nat) (v : vs.Val), LegalV vs → BoundedV vs →
    ShallowV vs → FlatV vs → ValidV vs v → InMemoryV vs v → i + countV vs < 2 ^ 64 →
    ∃ s m, treeByV packs vs i v = .node s (numLeaf m) ∧ m < 2 ^ 64 ∧
      (vs.impls E).decoration i v = m ∧ (vs.impls E).chunks v = .ok (s.root E.sha256).1 ∧
      ((∃ n, s = .leaf n) ∨ ProvesBy E (fun pr => (vs.impls E).proveVariant E pr v) s)
  | .nil, _, v, _, _, _, _, _, _, _ => Empty.elim v
  | .unit rest, i, .inl _, _, _, _, _, _, _, hc =>
    ⟨_, i, rfl, by omega, rfl, rfl, Or.inl ⟨_, rfl⟩⟩
  | .unit rest, i, .inr v, hl, hb, hs, hf, hv, hm, hc =>
    has_partsV E rest (i + 1) v hl hb hs hf hv hm (by simp only [countV] at hc; omega)
  | .data t rest, i, .inl v, hl, hb, hs, hf, hv, hm, hc => by
    refine ⟨treeBy packs t v, i, rfl, by omega, rfl, ?_,
      Or.inr (has_parts E t v hl.1 hb.1 hs.1 hf.1 hv hm).proves⟩
    show ((t.impl E).hashTreeRoot v).map (·.1) = _
    rw [htr_ok E t v hl.1 hb.1 hv hm, Res.map_ok]
  | .data t rest, i, .inr v, hl, hb, hs, hf, hv, hm, hc =>
    has_partsV E rest (i + 1) v hl.2 hb.2 hs.2 hf.2 hv hm (by simp only [countV] at hc; omega)

end

end Ssz
