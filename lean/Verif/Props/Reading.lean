import Verif.Props.Update
import Verif.Props.Multi
import Verif.Props.Merkle
import Verif.Props.Compare
import Verif.Spec.Reading

/-!
# Property C74: a proof that verifies tells the value of the part

What one who has only the root of a value learns from a proof: the leaf of a proof for the index of a
path is the root of the part at the path, or a chunk from which an element or a bit can be read, or
the number of elements, or the number of the active variant.
-/

namespace Ssz

open Spec

theorem element_part {c : Ty} {xs : c.Val} {i : Nat} {s : Ty} {x : s.Val} (h : HasElement c xs i s x)
    (hp : packs s = true) :
    partBy packs c xs [.index i] = some (.bytes (i * fixedLen s % 32) (enc s x)) := by
  induction h with
  | array h => rename_i s _ _ _ _; simp only [partBy, h, hp, if_true]; cases s <;> rfl
  | vector h => rename_i s _ _ _ _; simp only [partBy, h, hp, if_true]; cases s <;> rfl
  | list h => rename_i s _ _ _ _; simp only [partBy, h, hp, if_true]; cases s <;> rfl
  | newtype _ ih => exact ih hp

theorem flatOn_nil : ∀ t : Ty, FlatOn t []
  | .uint _ => trivial
  | .u256 => trivial
  | .bool => trivial
  | .node => trivial
  | .array _ _ => trivial
  | .vector _ _ => trivial
  | .list _ _ => trivial
  | .bitvector _ => trivial
  | .bitlist _ => trivial
  | .option _ => trivial
  | .newtype t => flatOn_nil t
  | .container _ => trivial
  | .union _ => trivial

theorem element_flat {c : Ty} {xs : c.Val} {i : Nat} {s : Ty} {x : s.Val} (h : HasElement c xs i s x)
    (hf : flatElem s = true) : FlatOn c [.index i] := by
  have h0 := flatOn_nil s
  induction h with
  | array _ => exact ⟨hf, h0⟩
  | vector _ => exact ⟨hf, h0⟩
  | list _ => exact ⟨hf, h0⟩
  | newtype _ ih => exact ih hf h0

theorem element_legal {c : Ty} {xs : c.Val} {i : Nat} {s : Ty} {x : s.Val} (h : HasElement c xs i s x)
    (hl : Legal c) : Legal s := by
  induction h with
  | array _ => exact hl.2
  | vector _ => exact hl.2
  | list _ => exact hl
  | newtype _ ih => exact ih hl

theorem bit_part {c : Ty} {v : c.Val} {i : Nat} {b : Bool} (h : HasBit c v i b) :
    partBy packs c v [.index i] = some (.bit (i % 256) b) := by
  induction h with
  | bitvector h => simp only [partBy, h]; rfl
  | bitlist h => simp only [partBy, h]; rfl
  | newtype _ ih => exact ih

theorem bit_flat {c : Ty} {v : c.Val} {i : Nat} {b : Bool} (h : HasBit c v i b) :
    FlatOn c [.index i] := by
  induction h with
  | bitvector _ => trivial
  | bitlist _ => trivial
  | newtype _ ih => exact ih

theorem length_sub {c : Ty} {v : c.Val} {k g : Nat} {w : Ty} (h : HasLength c v k)
    (hw : walkBy prims c [.length] = some (g, w)) : (treeBy packs c v).sub g = some (numLeaf k) := by
  induction h with
  | list => cases hw; rw [gcat_one]; exact node_sub_right
  | newtype _ ih => exact ih hw

theorem treeV_selector : ∀ (vs : Variants) (j : Nat) (v : vs.Val),
    (treeByV packs vs j v).sub 3 = some (numLeaf (j + selectorOf vs v))
  | .nil, _, v => Empty.elim v
  | .unit _, _, .inl _ => node_sub_right
  | .unit vs, j, .inr v => by
    have h := treeV_selector vs (j + 1) v
    rw [Nat.add_right_comm] at h
    exact h
  | .data _ _, _, .inl _ => node_sub_right
  | .data _ vs, j, .inr v => by
    have h := treeV_selector vs (j + 1) v
    rw [Nat.add_right_comm] at h
    exact h

theorem selector_sub {c : Ty} {v : c.Val} {k g : Nat} {w : Ty} (h : HasSelector c v k)
    (hw : walkBy prims c [.selector] = some (g, w)) : (treeBy packs c v).sub g = some (numLeaf k) := by
  induction h with
  | none => cases hw; rw [gcat_one]; exact node_sub_right
  | some => cases hw; rw [gcat_one]; exact node_sub_right
  | union =>
    rename_i vs v
    cases hw
    rw [gcat_one]
    have h := treeV_selector vs 0 v
    rw [Nat.zero_add] at h
    exact h
  | newtype _ ih => exact ih hw

theorem packs_norm : ∀ {t : Ty} (v : t.Val), packs t = true → norm t v = v
  | .uint _, _, _ => rfl
  | .u256, _, _ => rfl
  | .bool, _, _ => rfl
  | .node, _, _ => rfl
  | .array t _, v, h => Subtype.ext <| by
    show v.1.map (norm t) = v.1
    rw [List.map_congr_left fun x _ => packs_norm (t := t) x h, List.map_id']

/-- The node says what the part of the value at the path is. -/
structure Tells (E : Env) (t : Ty) (v : t.Val) (path : List PathElement) (n : Node) : Prop where
  /-- It is the hash tree root of a part with a node of its own. -/
  part : ∀ (u : Ty) (x : u.Val), LeadsTo u x t v path → (u.impl E).hashTreeRoot x = .ok n
  /-- A packed element of a collection is decoded from the bytes at its place in the chunk. -/
  element : ∀ (q : List PathElement) (i : Nat) (c s : Ty) (xs : c.Val) (x : s.Val),
    path = q ++ [.index i] → LeadsTo c xs t v q → HasElement c xs i s x → packs s = true →
    flatElem s = true →
    (s.impl E).deserialize ((n.1.drop (i * fixedLen s % 32)).take (fixedLen s)) = .ok x
  /-- A bit of a bitfield is the bit at its place in the chunk. -/
  bit : ∀ (q : List PathElement) (i : Nat) (c : Ty) (xs : c.Val) (b : Bool),
    path = q ++ [.index i] → LeadsTo c xs t v q → HasBit c xs i b →
    ∃ y, n.1[i % 256 / 8]? = some y ∧ y.getLsbD (i % 8) = b
  /-- The number of elements of a list. -/
  length : ∀ (q : List PathElement) (c : Ty) (xs : c.Val) (k : Nat), path = q ++ [.length] →
    LeadsTo c xs t v q → HasLength c xs k → n.1 = leBytes 32 k
  /-- The number of the active variant. -/
  selector : ∀ (q : List PathElement) (c : Ty) (y : c.Val) (k : Nat), path = q ++ [.selector] →
    LeadsTo c y t v q → HasSelector c y k → n.1 = leBytes 32 k

/-- A node of the tree of the value at the index of the path says what the part is. -/
theorem tells_of_node (E : Env) {t : Ty} {v : t.Val} {path : List PathElement} {g : Nat} {w : Ty}
    {n : Node} (hF : Fair t v) (hw : walkBy prims t path = some (g, w))
    (hn : ∀ s, (treeBy packs t v).sub g = some s → n = s.root E.sha256) : Tells E t v path n := by
  have inner : ∀ {q rest : List PathElement} {c : Ty} {xs : c.Val}, path = q ++ rest →
      LeadsTo c xs t v q → Fair c xs ∧ ∃ b w', walkBy prims c rest = some (b, w') ∧
        ∀ s, (treeBy packs c xs).sub b = some s → n = s.root E.sha256 := by
    intro q rest c xs hq h
    subst hq
    obtain ⟨a, u, b, h1, h2, rfl⟩ := walk_append.1 hw
    obtain ⟨rfl, h3, h4⟩ := leads_reached c xs t v q hF h a u h1
    exact ⟨h4, b, _, h2, fun s hs => hn s ((sub_cat (walk_pos h1) (walk_pos h2)).2 ⟨_, h3, hs⟩)⟩
  refine ⟨fun u x h => ?_, fun q i c s xs x hq h he hp hf => ?_, fun q i c xs b hq h hb => ?_,
    fun q c xs k hq h hk => ?_, fun q c y k hq h hk => ?_⟩
  · obtain ⟨rfl, h3, h4⟩ := leads_reached u x t v path hF h g w hw
    rw [hn _ h3]
    exact htr_ok E _ x h4.legal h4.bounded h4.valid h4.inMemory
  · obtain ⟨hc, b, w', h1, h2⟩ := inner hq h
    obtain ⟨s', h3, m, rfl, h4, h5⟩ := part_points c xs hc.valid _ b w' _ (element_flat he hf) h1
      (element_part he hp)
    have h6 := h2 _ h3
    rw [MTree.root] at h6
    subst h6
    have hv := packs_valid x hp
    rw [enc_length s x (packs_fixed hp) hv] at h4 h5
    have hl := element_legal he hc.legal
    have hs : fixedLen s < 2 ^ 32 := by omega
    rw [h5, de_enc E s x hl (packs_fits hp hl hs) hv
      (small_of_length s x (by rw [enc_length s x (packs_fixed hp) hv]; exact hs)), packs_norm x hp]
  · obtain ⟨hc, g', w', h1, h2⟩ := inner hq h
    obtain ⟨s', h3, m, rfl, h4, h5⟩ := part_points c xs hc.valid _ g' w' _ (bit_flat hb) h1
      (bit_part hb)
    have h6 := h2 _ h3
    rw [MTree.root] at h6
    subst h6
    exact ⟨_, List.getElem?_eq_getElem h4, by rw [← h5]; congr 1; omega⟩
  · obtain ⟨_, g', w', h1, h2⟩ := inner hq h
    rw [h2 _ (length_sub hk h1), numLeaf_root]
  · obtain ⟨_, g', w', h1, h2⟩ := inner hq h
    rw [h2 _ (selector_sub hk h1), numLeaf_root]

/-- C74: a proof for the index of a path that verifies against the hash tree root of a value has as
its leaf a node that says what the part at the path is; or two different strings with the same hash
are among those hashed in computing the root and in verifying the proof. -/
theorem C74_single_partial (E : Env) (t : Ty) (v : t.Val) (path : List PathElement) (p : Proof) (r : Node)
    (hl : Legal t) (hb : Bounded t) (hs : Shallow t) (hv : Valid t v) (hm : InMemory t v)
    (hfit : E.debug = false → ∀ i w, walkBy prims t path = some (i, w) → i < 2 ^ 64)
    (hg : generalizedIndex (t.impl E) path = .ok p.index) (hr : (t.impl E).hashTreeRoot v = .ok r)
    (h : p.verify E r = .ok ()) :
    Tells E t v path p.leaf ∨ CollideBranch E.sha256 (treeBy packs t v) p.index p.leaf p.branch := by
  obtain ⟨w, hw, _, hlt⟩ := index_exact (fun hE => ⟨countable_of_shallow hs, hfit hE⟩) hg
  rw [htr_ok E t v hl hb hv hm, Res.ok.injEq] at hr
  subst hr
  by_cases hc : CollideBranch E.sha256 (treeBy packs t v) p.index p.leaf p.branch
  · exact Or.inr hc
  · refine Or.inl (tells_of_node E ⟨hl, hb, hs, hv, hm⟩ hw fun s hs => ?_)
    exact ((C40_sound E _ s p hlt hs h).resolve_right hc).1

/-- The list of numbers that `Demo.path` ends in. -/
theorem Demo.leads_inner : LeadsTo (.list (.uint .u16) 3) ([6, 7] : List (BitVec 16)) Demo.ty Demo.val
    [.field "e", .index 2, .index 1] := by
  show LeadsToF _ _ _ _ _ _
  simp only [LeadsToF, String.reduceEq, if_false, if_true]
  show 0 < 2 ∧ 0 < 2 - 1 ∧ 2 - 1 - 1 = 0 ∧ _
  exact ⟨by decide, by decide, rfl, rfl, _, rfl, rfl⟩

/-- A proof for element 1 of that list, the number 7. -/
example (E : Env) : Demo.path = [.field "e", .index 2, .index 1] ++ [.index 1] ∧
    HasElement (.list (.uint .u16) 3) ([6, 7] : List (BitVec 16)) 1 (.uint .u16) (7 : BitVec 16) ∧
    packs (.uint .u16) = true ∧ flatElem (.uint .u16) = true ∧
    ∃ (p : Proof) (r : Node), generalizedIndex (Demo.ty.impl E) Demo.path = .ok p.index ∧
      (Demo.ty.impl E).hashTreeRoot Demo.val = .ok r ∧ p.verify E r = .ok () := by
  obtain ⟨u, p, h, hi, hu, _, h1, h2⟩ := C38_leaf_partial E Demo.ty Demo.val Demo.path
    (.bytes 2 [7, 0]) 322 Demo.ty_legal Demo.ty_bounded Demo.ty_shallow Demo.ty_std Demo.val_valid
    Demo.val_inMemory Demo.gindex_path (by decide) (by decide +kernel) rfl
  obtain ⟨leaf, branch, index⟩ := p
  subst hi
  subst h1
  subst h2
  refine ⟨rfl, .list rfl, rfl, rfl,
    ⟨u.root E.sha256, (tree Demo.ty Demo.val).branchAt E.sha256 322, 322⟩, _, ?_,
    htr_ok E _ _ Demo.ty_legal Demo.ty_bounded Demo.val_valid Demo.val_inMemory, ?_⟩
  · exact (C34_exact_std_partial E Demo.ty Demo.path 322 Demo.ty_std Demo.gindex_path).2
      (countable_of_shallow Demo.ty_shallow) (by decide) (by decide +kernel)
  · rw [tree_std _ _ Demo.ty_std]
    exact C40_complete E _ u _ (by decide) hu

/-- C74: a value with the leaf as its hash tree root is equal to the part, or there is a
collision. -/
theorem C74_claim_partial (E : Env) (t u : Ty) (v : t.Val) (x y : u.Val) (path : List PathElement) (p : Proof)
    (r : Node) (hl : Legal t) (hb : Bounded t) (hs : Shallow t) (hv : Valid t v) (hm : InMemory t v)
    (hp : LeadsTo u x t v path) (hy : Valid u y) (hmy : InMemory u y)
    (hfit : E.debug = false → ∀ i w, walkBy prims t path = some (i, w) → i < 2 ^ 64)
    (hg : generalizedIndex (t.impl E) path = .ok p.index) (hr : (t.impl E).hashTreeRoot v = .ok r)
    (h : p.verify E r = .ok ()) (hh : (u.impl E).hashTreeRoot y = .ok p.leaf) :
    u.eq y x = true ∨ CollideBranch E.sha256 (treeBy packs t v) p.index p.leaf p.branch ∨
      Collide E.sha256 (treeBy packs u y) (treeBy packs u x) := by
  rcases C74_single_partial E t v path p r hl hb hs hv hm hfit hg hr h with h1 | h1
  · obtain ⟨w, hw, _, _⟩ := index_exact (fun hE => ⟨countable_of_shallow hs, hfit hE⟩) hg
    obtain ⟨_, _, hF⟩ := leads_reached u x t v path ⟨hl, hb, hs, hv, hm⟩ hp _ _ hw
    rcases C28_binding_partial E u y x hF.legal hF.bounded hy hF.valid hmy hF.inMemory
      (hh.trans (h1.part u x hp).symm) with h2 | h2
    · exact Or.inl ((C73_equal u y x).2 h2)
    · exact Or.inr (Or.inr h2)
  · exact Or.inr (Or.inl h1)

/-- A proof for the list of lists of `Demo.val`, and that list as the claimed value. -/
example (E : Env) : ∃ (p : Proof) (r : Node),
    LeadsTo Demo.partTy Demo.partVal Demo.ty Demo.val [.field "e", .index 2] ∧
    Valid Demo.partTy Demo.partVal ∧ InMemory Demo.partTy Demo.partVal ∧
    generalizedIndex (Demo.ty.impl E) [.field "e", .index 2] = .ok p.index ∧
    (Demo.ty.impl E).hashTreeRoot Demo.val = .ok r ∧ p.verify E r = .ok () ∧
    (Demo.partTy.impl E).hashTreeRoot Demo.partVal = .ok p.leaf := by
  have hi : gindex Demo.ty [.field "e", .index 2] = some 40 := by rw [gindex]; decide +kernel
  have hg := (C34_exact_std_partial E Demo.ty [.field "e", .index 2] 40 Demo.ty_std hi).2
    (countable_of_shallow Demo.ty_shallow) (by decide) (by decide +kernel)
  obtain ⟨_, _, h1, _⟩ := gi_valid E hg
  have hF : Fair Demo.ty Demo.val :=
    ⟨Demo.ty_legal, Demo.ty_bounded, Demo.ty_shallow, Demo.val_valid, Demo.val_inMemory⟩
  have h2 := gindex_std Demo.ty_std h1
  rw [hi] at h2
  cases h2
  obtain ⟨_, h3, h4⟩ := leads_reached _ _ Demo.ty Demo.val _ hF Demo.leads _ _ h1
  exact ⟨⟨_, _, 40⟩, _, Demo.leads, h4.valid, h4.inMemory, hg, htr_ok E _ _ hF.legal hF.bounded hF.valid
    hF.inMemory, C40_complete E _ _ _ (by decide) h3, htr_ok E _ _ h4.legal h4.bounded h4.valid
    h4.inMemory⟩

/-- C74 for multiproofs: if a multiproof for distinct positions of nodes, none above another, verifies
against the hash tree root of a value, then the leaf for the index of a path says what the part at
the path is; or there is a collision. -/
theorem C74_multi_partial (E : Env) (t : Ty) (v : t.Val) (leaves proof : List Node) (is : List Nat) (r : Node)
    (hl : Legal t) (hb : Bounded t) (hs : Shallow t) (hv : Valid t v) (hm : InMemory t v)
    (ha : Antichain is) (hi : ∀ i ∈ is, ∃ s, (treeBy packs t v).sub i = some s)
    (hr : (t.impl E).hashTreeRoot v = .ok r)
    (h : verifyMerkleMultiproof E leaves proof is r = .ok ()) :
    (∀ (j g : Nat) (path : List PathElement), is[j]? = some g →
      (E.debug = false → ∀ i w, walkBy prims t path = some (i, w) → i < 2 ^ 64) →
      generalizedIndex (t.impl E) path = .ok g →
      ∃ n, leaves[j]? = some n ∧ Tells E t v path n) ∨
    ∃ s, Claims (claimed (is ++ getHelperIndices is) (leaves ++ proof)) 1 s ∧
      Collide E.sha256 (treeBy packs t v) s := by
  rw [htr_ok E t v hl hb hv hm, Res.ok.injEq] at hr
  subst hr
  rcases C46_sound_partial E _ leaves proof is ha hi h with ⟨h1, _⟩ | h1
  · refine Or.inl fun j g path hj hfit hg => ?_
    obtain ⟨w, hw, _, _⟩ := index_exact (fun hE => ⟨countable_of_shallow hs, hfit hE⟩) hg
    have h2 := congrArg (·[j]?) h1
    simp only [List.getElem?_map, hj, Option.map_some] at h2
    obtain ⟨n, h3, h4⟩ := Option.map_eq_some_iff.1 h2
    refine ⟨n, h3, tells_of_node E ⟨hl, hb, hs, hv, hm⟩ hw fun s hs => ?_⟩
    rw [MTree.nodeAt, hs, Option.map_some, Option.some.injEq] at h4
    exact h4
  · exact Or.inr h1

theorem antichain_pair {a b : Nat} (ha : 1 ≤ a) (hb : 1 ≤ b) (hab : a ≠ b)
    (hl : Nat.log2 a = Nat.log2 b) : Antichain [a, b] := by
  have h : ∀ a b : Nat, 1 ≤ a → 1 ≤ b → a ≠ b → Nat.log2 a = Nat.log2 b → ¬ AncestorEq a b := by
    rintro a b ha hb hab hl ⟨k, rfl⟩
    match k with
    | 0 => exact hab (by simp)
    | k + 1 =>
      have h1 := Nat.lt_log2_self (n := b)
      have h2 := Nat.log2_self_le (n := b / 2 ^ (k + 1)) (by omega)
      have h3 := Nat.div_mul_le_self b (2 ^ (k + 1))
      rw [hl] at h2
      have h4 : 2 ^ Nat.log2 b * 2 ^ (k + 1) ≤ b := Nat.le_trans (Nat.mul_le_mul_right _ h2) h3
      have h5 : 2 ≤ 2 ^ (k + 1) := by rw [Nat.pow_succ]; have : 0 < 2 ^ k := Nat.two_pow_pos k; omega
      have h6 := Nat.mul_le_mul_left (2 ^ Nat.log2 b) h5
      rw [Nat.pow_succ] at h1
      omega
  simp only [Antichain, List.pairwise_cons, List.mem_singleton, forall_eq, List.not_mem_nil,
    false_implies, implies_true, List.Pairwise.nil, and_true]
  exact ⟨h a b ha hb hab hl, h b a hb ha hab.symm hl.symm⟩

/-- A `List<u64, 4>` -/
def fewTy : Ty := .list (.uint .u64) 4

def fewVal : fewTy.Val := ([5, 6, 7] : List (BitVec 64))

/-- A multiproof for an element and the number of elements of a list. -/
example (E : Env) : Legal fewTy ∧ Bounded fewTy ∧ Shallow fewTy ∧ Valid fewTy fewVal ∧
    InMemory fewTy fewVal ∧ Antichain [2, 3] ∧
    (∀ i ∈ [2, 3], ∃ s, (treeBy packs fewTy fewVal).sub i = some s) ∧
    generalizedIndex (fewTy.impl E) [.index 2] = .ok 2 ∧
    generalizedIndex (fewTy.impl E) [.length] = .ok 3 ∧
    LeadsTo fewTy fewVal fewTy fewVal [] ∧ HasLength fewTy fewVal 3 ∧
    HasElement fewTy fewVal 2 (.uint .u64) (7 : BitVec 64) ∧
    ∃ leaves proof r, (fewTy.impl E).hashTreeRoot fewVal = .ok r ∧
      verifyMerkleMultiproof E leaves proof [2, 3] r = .ok () := by
  have hs : Shallow fewTy := by simp [fewTy, Shallow, itemCount, itemLen, prims, fixedLen, UintTy.bits]
  have hl : Legal fewTy := trivial
  have hb : Bounded fewTy := ⟨trivial, fun _ => by decide, by decide⟩
  have hv : Valid fewTy fewVal := ⟨by decide, fun _ _ => trivial⟩
  have hm : InMemory fewTy fewVal := ⟨⟨by decide, fun _ => by decide⟩, fun _ _ => trivial⟩
  have hi : ∀ i ∈ [2, 3], ∃ s, (treeBy packs fewTy fewVal).sub i = some s := by
    intro i h
    simp only [List.mem_cons, List.not_mem_nil, or_false] at h
    rcases h with rfl | rfl
    · exact ⟨_, node_sub_left⟩
    · exact ⟨_, node_sub_right⟩
  obtain ⟨leaves, proof, _, _, h⟩ := C45_complete E (treeBy packs fewTy fewVal) [2, 3] (by simp) hi
  have gi : ∀ (e : PathElement) (g : Nat), (walkBy prims fewTy [e]).map (·.1) = some g → g < 2 ^ 64 →
      lengthOfBits fewTy [e] = false → generalizedIndex (fewTy.impl E) [e] = .ok g := by
    intro e g h1 h2 h3
    obtain ⟨w, hw⟩ := walk_of_index h1
    exact (C34_exact_partial E _ _ _ _ hw).2 (countable_of_shallow hs) h2 h3
  refine ⟨hl, hb, hs, hv, hm, antichain_pair (by decide) (by decide) (by decide) (by decide), hi,
    gi _ _ (by decide +kernel) (by decide) (by decide +kernel),
    gi _ _ (by decide +kernel) (by decide) (by decide +kernel), rfl, .list, .list rfl, leaves, proof, _,
    htr_ok E _ _ hl hb hv hm, h⟩

/-- `Vector<[u8; 24], 4>` -/
def longWords : Ty := .vector (.array (.uint .u8) 24) 4

/-- 24 bytes, the first as given. -/
def longWord (b : BitVec 8) : (Ty.array (.uint .u8) 24).Val :=
  (⟨b :: List.replicate 23 0, rfl⟩ : { l : List (BitVec 8) // l.length = 24 })

/-- Four elements, element 1 with the given first byte. -/
def longWordsVal (b : BitVec 8) : longWords.Val :=
  ([longWord 0, longWord b, longWord 0, longWord 0] : List (Ty.array (.uint .u8) 24).Val)

theorem longWords_ok (b : BitVec 8) : Legal longWords ∧ Bounded longWords ∧ Shallow longWords ∧
    Valid longWords (longWordsVal b) ∧ InMemory longWords (longWordsVal b) := by
  refine ⟨⟨by decide, by decide, trivial⟩,
    ⟨⟨trivial, fun _ => by decide⟩, fun _ => by decide⟩, ⟨by decide, by decide, trivial⟩,
    ⟨rfl, fun _ _ _ _ => trivial⟩, ⟨⟨show 4 < 2 ^ 58 by decide, fun _ => show 4 * 24 < 2 ^ 63 by decide⟩,
      fun x hx => ⟨⟨by rw [x.2]; decide, fun _ => by rw [x.2]; decide⟩, fun _ _ => trivial⟩⟩⟩

/-- C74 is false for elements that are arrays of packed elements, whose generalized indices are wrong
(C32): the leaf of a proof that verifies for element 1 of a `Vector<[u8; 24], 4>` can be the same for
different elements. -/
theorem C74_arrays_refuted : ∃ (t s : Ty) (v w : t.Val) (x y : s.Val) (i : Nat), Legal t ∧ Bounded t ∧
    Shallow t ∧ Valid t v ∧ InMemory t v ∧ Valid t w ∧ InMemory t w ∧ HasElement t v i s x ∧
    HasElement t w i s y ∧ s.eq x y = false ∧
    ∀ E, ∃ (p q : Proof) (r r' : Node), generalizedIndex (t.impl E) [.index i] = .ok p.index ∧
      generalizedIndex (t.impl E) [.index i] = .ok q.index ∧ (t.impl E).hashTreeRoot v = .ok r ∧
      (t.impl E).hashTreeRoot w = .ok r' ∧ p.verify E r = .ok () ∧ q.verify E r' = .ok () ∧
      p.leaf = q.leaf := by
  obtain ⟨hl, hb, hs, hv, hm⟩ := longWords_ok 1
  obtain ⟨_, _, _, hv', hm'⟩ := longWords_ok 2
  refine ⟨longWords, .array (.uint .u8) 24, longWordsVal 1, longWordsVal 2, longWord 1, longWord 2, 1,
    hl, hb, hs, hv, hm, hv', hm', .vector rfl, .vector rfl, by decide, fun E => ?_⟩
  obtain ⟨z, hz⟩ := walk_of_index (pk := prims) (t := longWords) (path := [.index 1]) (g := 5)
    (by decide +kernel)
  have hg := (C34_exact_partial E _ _ _ _ hz).2 (countable_of_shallow hs) (by decide) (by decide +kernel)
  have hd : depthFor (chunkCountBy packs (.array (.uint .u8) 24) 4) = 2 := by decide +kernel
  have hc : ∀ b ∈ ([1, 2] : List (BitVec 8)), (chunkify (List.flatMap
      (enc (.array (.uint .u8) 24)) (longWordsVal b)))[1]? = some zeroNode := by decide +kernel
  have hsub : ∀ b ∈ ([1, 2] : List (BitVec 8)),
      (treeBy packs longWords (longWordsVal b)).sub 5 = some (.leaf zeroNode) := by
    intro b hb
    show (full (depthFor (chunkCountBy packs (.array (.uint .u8) 24) 4)) (leaves (List.flatMap
      (enc (.array (.uint .u8) 24)) (longWordsVal b)))).sub (2 ^ 2 + 1) = _
    rw [hd, full_sub (by decide), leaves, List.getElem?_map, hc b hb]
    rfl
  exact ⟨⟨_, _, 5⟩, ⟨_, _, 5⟩, _, _, hg, hg, htr_ok E _ _ hl hb hv hm, htr_ok E _ _ hl hb hv' hm',
    C40_complete E _ _ 5 (by decide) (hsub 1 (by simp)), C40_complete E _ _ 5 (by decide) (hsub 2 (by simp)), rfl⟩

end Ssz
