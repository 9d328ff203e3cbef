import Verif.Props.Prove
import Verif.Props.Verify
import Verif.Proofs.Compose

/-!
# Properties C64 and C65: proofs after a change of the proven part, and proofs in parts of a value

`SameBut t v w path`: the values `v` and `w` both have a part at the path and are equal except in it.
`LeadsTo u x t v path`: the part of `v` at the path is `x`, of type `u`, and has a node of its own.
-/

namespace Ssz

open Spec

/-! ## C64 -/

/-- C64, for all types and all paths that do not enter a collection of arrays of packed elements, and
indices that fit in 64 bits: when only the proven part of a value changes, the prover succeeds on the
changed value, with the same branch and the same index, its witness is the hash tree root of the
changed value, and the new leaf with the old branch verifies against it. -/
theorem C64_update_partial (E : Env) (t : Ty) (v w : t.Val) (path : List PathElement) (p : Proof)
    (r : Node) (hl : Legal t) (hb : Bounded t) (hs : Shallow t) (hv : Valid t v)
    (hm : InMemory t v) (hv' : Valid t w) (hm' : InMemory t w) (hf : FlatOn t path)
    (h0 : path = [] → SameDepth t) (hd : SameBut t v w path)
    (hfit : E.debug = false → ∀ i x, walkBy prims t path = some (i, x) → i < 2 ^ 64)
    (h : prove E (t.impl E) v path = .ok (p, r)) :
    ∃ leaf r', prove E (t.impl E) w path = .ok ({ p with leaf := leaf }, r') ∧
      Proof.verify E { p with leaf := leaf } r' = .ok () ∧ (t.impl E).hashTreeRoot w = .ok r' := by
  obtain ⟨g, pr, h1, _, _, _⟩ := prove_eq_ok.1 h
  obtain ⟨x, h2, _, hlt⟩ := index_exact (fun hE => ⟨countable_of_shallow hs, hfit hE⟩) h1
  obtain ⟨s, s', h3⟩ := same_holed t v w path hf hd g x h2
  obtain ⟨ha, ha'⟩ := same_active t v w path hd
  rcases prove_on E hl hb hs hv hm hf h0 ha hfit h1 with ⟨_, h4⟩ | ⟨_, _, h4⟩
  · rw [h] at h4; cases h4
  rcases prove_on E hl hb hs hv' hm' hf h0 ha' hfit h1 with ⟨h5, _⟩ | ⟨u', h5, h6⟩
  · rw [h3.sub.2] at h5; cases h5
  rw [h3.sub.2] at h5
  cases h5
  rw [h, Res.ok.injEq, Prod.mk.injEq] at h4
  refine ⟨s'.root E.sha256, (treeBy packs t w).root E.sha256, ?_, ?_, htr_ok E t w hl hb hv' hm'⟩
  · rw [h6, h4.1, h3.branch]
  · rw [h4.1]
    show Proof.verify E { leaf := _, branch := (treeBy packs t v).branchAt E.sha256 g, index := g } _ = _
    rw [h3.branch]
    exact C40_complete E _ s' g hlt h3.sub.2

/-- `Demo.val` with another number at the end of `Demo.path`. -/
def Demo.val' : Demo.ty.Val :=
  ((7 : BitVec 32),
   ([1, 2, 3] : List (BitVec 16)),
   (⟨[true, false, true], List.replicate 5 false⟩ : Bits),
   (some [true, false] : Option (List Bool)),
   (.inr (.inr (.inl ([[5], [6, 8]] : List (List (BitVec 16))))) : Demo.unionTy.Val),
   (⟨[9], rfl⟩ : { l : List (BitVec 256) // l.length = 1 }),
   true,
   (⟨List.replicate 11 true, List.replicate 5 false⟩ : Bits),
   zeroNode,
   ())

theorem Demo.same : SameBut Demo.ty Demo.val Demo.val' Demo.path := by
  show SameButF _ _ _ _ _
  simp only [SameButF, Demo.val, Demo.val', String.reduceEq, if_false, if_true]
  refine ⟨rfl, rfl, rfl, rfl, ?_, rfl⟩
  show 0 < 2 ∧ 0 < 2 - 1 ∧ 2 - 1 - 1 = 0 ∧ _
  refine ⟨by decide, by decide, rfl, ([[5]] : List (List (BitVec 16))), ([6, 7] : List (BitVec 16)),
    ([6, 8] : List (BitVec 16)), [], rfl, rfl, rfl, ?_⟩
  exact ⟨([6] : List (BitVec 16)), (7 : BitVec 16), (8 : BitVec 16), [], rfl, rfl, rfl, rfl⟩

theorem Demo.val'_valid : Valid Demo.ty Demo.val' := by
  refine ⟨trivial, ⟨by decide, fun _ _ => trivial⟩, ⟨by decide, by decide⟩, ?_, ?_, fun _ _ => trivial,
    trivial, rfl, trivial, trivial⟩
  · intro x hx
    cases hx
    exact ⟨rfl, fun _ _ => trivial⟩
  · refine ⟨by decide, fun x hx => ⟨?_, fun _ _ => trivial⟩⟩
    have h : ∀ x ∈ ([[5], [6, 8]] : List (List (BitVec 16))), x.length ≤ 3 := by decide
    exact h x hx

theorem Demo.val'_inMemory : InMemory Demo.ty Demo.val' := by
  refine ⟨trivial, ⟨⟨by decide, fun _ => by decide⟩, fun _ _ => trivial⟩,
    show 3 < 2 ^ 64 by decide, ?_, ?_,
    ⟨⟨by decide, fun _ => by decide⟩, fun _ _ => trivial⟩, trivial, show 11 < 2 ^ 64 by decide,
    trivial, trivial⟩
  · intro x hx
    cases hx
    exact ⟨⟨by decide, fun _ => by decide⟩, fun _ _ => trivial⟩
  · refine ⟨⟨by decide, fun h => by simp [packs] at h⟩, fun x hx => ⟨?_, fun _ _ => trivial⟩⟩
    have h : ∀ x ∈ ([[5], [6, 8]] : List (List (BitVec 16))), x.length ≤ 3 := by decide
    have h := h x hx
    refine ⟨Nat.lt_of_le_of_lt h (by decide), fun _ => ?_⟩
    exact Nat.lt_of_le_of_lt (Nat.mul_le_mul_right (fixedLen (.uint .u16)) h) (by decide)

theorem Demo.fit (i : Nat) (x : Ty) (h : walkBy prims Demo.ty Demo.path = some (i, x)) :
    i < 2 ^ 64 := by
  have h := gindex_std Demo.ty_std h
  rw [Demo.gindex_path] at h
  cases h; decide

/-- The two values differ, and the prover succeeds on the first. -/
example (E : Env) : Legal Demo.ty ∧ Bounded Demo.ty ∧ Shallow Demo.ty ∧
    FlatOn Demo.ty Demo.path ∧ (Demo.path = [] → SameDepth Demo.ty) ∧
    Valid Demo.ty Demo.val ∧ InMemory Demo.ty Demo.val ∧ Valid Demo.ty Demo.val' ∧
    InMemory Demo.ty Demo.val' ∧ SameBut Demo.ty Demo.val Demo.val' Demo.path ∧
    enc Demo.ty Demo.val ≠ enc Demo.ty Demo.val' ∧
    (∀ i x, walkBy prims Demo.ty Demo.path = some (i, x) → i < 2 ^ 64) ∧
    ∃ p r, prove E (Demo.ty.impl E) Demo.val Demo.path = .ok (p, r) := by
  obtain ⟨u, p, h, _⟩ := C38_leaf_partial E Demo.ty Demo.val Demo.path (.bytes 2 [7, 0]) 322
    Demo.ty_legal Demo.ty_bounded Demo.ty_shallow Demo.ty_std Demo.val_valid Demo.val_inMemory
    Demo.gindex_path (by decide) (by decide +kernel) rfl
  exact ⟨Demo.ty_legal, Demo.ty_bounded, Demo.ty_shallow, flat_on _ _ Demo.ty_flat,
    (fun h => nomatch h), Demo.val_valid,
    Demo.val_inMemory, Demo.val'_valid, Demo.val'_inMemory, Demo.same, by decide +kernel, Demo.fit,
    p, _, h⟩

/-- `[1, 2, 3, 4]` and `[5, 6, 7, 8]` -/
def word : (Ty.array (.uint .u8) 4).Val :=
  (⟨[1, 2, 3, 4], rfl⟩ : { l : List (BitVec 8) // l.length = 4 })

def word' : (Ty.array (.uint .u8) 4).Val :=
  (⟨[5, 6, 7, 8], rfl⟩ : { l : List (BitVec 8) // l.length = 4 })

/-- `vectorOfWordsVal` with another element at position 1. -/
def vectorOfWordsVal' : vectorOfWords.Val :=
  (word :: word' :: List.replicate 14 word : List (Ty.array (.uint .u8) 4).Val)

theorem words_gi (E : Env) : generalizedIndex (vectorOfWords.impl E) [.index 1] = .ok 17 := by
  obtain ⟨w, hw⟩ := walk_of_index (pk := prims) (t := vectorOfWords) (path := [.index 1]) (g := 17)
    (by decide +kernel)
  exact (C34_exact_partial E _ _ _ _ hw).2 (countable_of_shallow vectorOfWords_ok.2.2.2.1) (by decide) (by decide +kernel)

/-- C64 is false for paths into collections of arrays of packed elements: for element 1 of a
`Vector<[u8; 4], 16>` the proof has the chunk with elements 0 to 7 in its branch, which changes with
the element, and its witness is not the hash tree root. -/
theorem C64_update_refuted : ∃ (t : Ty) (v w : t.Val) (path : List PathElement), Legal t ∧ Bounded t ∧
    Shallow t ∧ Valid t v ∧ InMemory t v ∧ Valid t w ∧ InMemory t w ∧ SameBut t v w path ∧
    ∀ E : Env, E.sha256 = Sha256.sha256 → ∃ p r p' r', prove E (t.impl E) v path = .ok (p, r) ∧
      prove E (t.impl E) w path = .ok (p', r') ∧ p'.branch ≠ p.branch ∧
      (t.impl E).hashTreeRoot w ≠ .ok r' := by
  obtain ⟨hl, _, hb, hs, hv, hm⟩ := vectorOfWords_ok
  have hv' : Valid vectorOfWords vectorOfWordsVal' := ⟨rfl, fun _ _ _ _ => trivial⟩
  have hm' : InMemory vectorOfWords vectorOfWordsVal' :=
    ⟨⟨by decide, fun _ => by decide⟩, fun x hx =>
      ⟨⟨by rw [x.2]; decide, fun _ => by rw [x.2]; decide⟩, fun _ _ => trivial⟩⟩
  refine ⟨vectorOfWords, vectorOfWordsVal, vectorOfWordsVal', [.index 1], hl, hb, hs, hv, hm, hv', hm',
    ⟨[word], word, word', List.replicate 14 word, rfl, rfl, rfl, trivial⟩, fun E hE => ?_⟩
  have ha : ∃ a b, answer Sha256.sha256 vectorOfWords vectorOfWordsVal 17 = .ok a ∧
      answer Sha256.sha256 vectorOfWords vectorOfWordsVal' 17 = .ok b ∧ b.2 ≠ a.2 ∧
      (treeBy packs vectorOfWords vectorOfWordsVal').root Sha256.sha256 ≠
        (layer vectorOfWords vectorOfWordsVal').tree.root Sha256.sha256 := by
    refine ⟨_, _, rfl, rfl, ?_, ?_⟩ <;> decide +kernel
  obtain ⟨a, b, h1, h2, h3, h4⟩ := ha
  rw [← hE] at h1 h2 h4
  refine ⟨⟨a.1, a.2, 17⟩, (layer vectorOfWords vectorOfWordsVal).tree.root E.sha256,
    ⟨b.1, b.2, 17⟩, (layer vectorOfWords vectorOfWordsVal').tree.root E.sha256, ?_, ?_, h3, ?_⟩
  · rw [prove_answer E _ _ _ hl hb hs hv hm, words_gi, Res.ok_bind, h1]
    rfl
  · rw [prove_answer E _ _ _ hl hb hs hv' hm', words_gi, Res.ok_bind, h2]
    rfl
  · rw [htr_ok E _ _ hl hb hv' hm']
    exact fun h => h4 (Res.ok.inj h)

/-! ## C65 -/

/-- C65, for all types, and indices that fit in 64 bits: when `p` leads to a part that has a node of
its own, the proof for `p ++ q` is put together from the proof for `p` in the value and the proof for
`q` in the part. Its leaf is that of the inner proof, its branch the inner branch followed by the outer
one, its index their concatenation, its witness that of the outer proof. If `q` stays at the root of
the part, `chunk_count` of the type of the part must give the right depth; where it does, the leaf of
the outer proof is the witness of the inner one. -/
theorem C65_compose_partial (E : Env) (t u : Ty) (v : t.Val) (x : u.Val) (p q : List PathElement)
    (P Q : Proof) (r r' : Node) (hl : Legal t) (hb : Bounded t) (hs : Shallow t)
    (hv : Valid t v) (hm : InMemory t v) (hx : LeadsTo u x t v p)
    (hfit : ∀ i y, walkBy prims t (p ++ q) = some (i, y) → i < 2 ^ 64)
    (hp : prove E (t.impl E) v p = .ok (P, r)) (hq : prove E (u.impl E) x q = .ok (Q, r')) :
    (SameDepth u → P.leaf = r') ∧ (SameDepth u ∨ Q.index ≠ 1 → prove E (t.impl E) v (p ++ q) =
      .ok (⟨Q.leaf, Q.branch ++ P.branch, gcat P.index Q.index⟩, r)) := by
  have hFt : Fair t v := ⟨hl, hb, hs, hv, hm⟩
  have hreach := leads_reached u x t v p hFt hx
  rw [prove_answer E t v p hl hb hs hv hm] at hp
  obtain ⟨a, h1, hp⟩ := Res.bind_eq_ok.1 hp
  obtain ⟨A, h1', hp⟩ := Res.bind_eq_ok.1 hp
  obtain ⟨i, w, h4, _⟩ := gi_valid E h1
  obtain ⟨rfl, h5, hF⟩ := hreach _ _ h4
  rw [prove_answer E w x q hF.legal hF.bounded hF.shallow hF.valid hF.inMemory] at hq
  obtain ⟨b, h2, hq⟩ := Res.bind_eq_ok.1 hq
  obtain ⟨B, h2', hq⟩ := Res.bind_eq_ok.1 hq
  obtain ⟨j, y, h3, _⟩ := gi_valid E h2
  have h6 : walkBy prims t (p ++ q) = some (gcat i j, y) := walk_append.2 ⟨_, _, _, h4, h3, rfl⟩
  have hlt := hfit _ _ h6
  have hi : ∀ k z, walkBy prims t p = some (k, z) → k < 2 ^ 64 := by
    intro k z hk
    rw [h4] at hk
    cases hk
    exact Nat.lt_of_le_of_lt (le_gcat _ _) hlt
  have hj : ∀ k z, walkBy prims w q = some (k, z) → k < 2 ^ 64 := by
    intro k z hk
    rw [h3] at hk
    cases hk
    exact Nat.lt_of_le_of_lt (le_gcat_right (walk_pos h4) (walk_pos h3)) hlt
  obtain ⟨_, h7, h8, _⟩ := index_exact (fun _ => ⟨countable_of_shallow hs, hi⟩) h1
  obtain ⟨_, h9, h10, _⟩ := index_exact (fun _ => ⟨countable_of_shallow hF.shallow, hj⟩) h2
  rw [h4] at h7
  cases h7
  rw [h3] at h9
  cases h9
  have hg := (C34_exact_partial E t (p ++ q) (gcat a b) y h6).2 (countable_of_shallow hs) hlt
    (by rw [lengthOfBits_append h4, h8, h10]; rfl)
  cases hp
  cases hq
  obtain ⟨C, _, h11, h12⟩ := leads_composes E.sha256 w x t v p a w hFt hx h4
  obtain ⟨h13, h14⟩ := h11 A h1'
  have hleaf : SameDepth w → A.1 = (layer w x).tree.root E.sha256 := by
    intro hd
    rcases h14 with h | h
    · exact h
    · rw [h, layer_tree w x hd]
  refine ⟨hleaf, fun hd => ?_⟩
  rw [prove_answer E t v _ hl hb hs hv hm, hg, Res.ok_bind]
  rcases Nat.lt_or_eq_of_le (walk_pos h3) with hb1 | rfl
  · rw [h12 b hb1, h2', h13]
    rfl
  · obtain ⟨C', h15, h16, _⟩ := composes_nil (H := E.sha256) (t := w) (v := x)
    obtain ⟨h17, h18⟩ := h16 B h2'
    have hd : SameDepth w := by
      rcases hd with h | h
      · exact h
      · exact absurd rfl h
    have h19 : A.1 = B.1 := by
      rw [hleaf hd]
      rcases h18 with h | h
      · rw [h]
      · rw [h, layer_tree w x hd]
    rw [gcat_one, h1', h17, h15 rfl, ← h19]
    rfl

/-- The type of the inner list of lists of `Demo.val`. -/
def Demo.partTy : Ty := .list (.list (.uint .u16) 3) 2

/-- The inner list of lists of `Demo.val`. -/
def Demo.partVal : Demo.partTy.Val := ([[5], [6, 7]] : List (List (BitVec 16)))

theorem Demo.leads : LeadsTo Demo.partTy Demo.partVal Demo.ty Demo.val [.field "e", .index 2] := by
  show LeadsToF _ _ _ _ _ _
  simp only [LeadsToF, String.reduceEq, if_false, if_true]
  show 0 < 2 ∧ 0 < 2 - 1 ∧ 2 - 1 - 1 = 0 ∧ _
  exact ⟨by decide, by decide, rfl, rfl⟩

/-- The prover succeeds on both parts of `Demo.path`. -/
example (E : Env) : LeadsTo Demo.partTy Demo.partVal Demo.ty Demo.val [.field "e", .index 2] ∧
    (∀ i y, walkBy prims Demo.ty ([.field "e", .index 2] ++ [.index 1, .index 1]) = some (i, y) →
      i < 2 ^ 64) ∧
    (∃ P r, prove E (Demo.ty.impl E) Demo.val [.field "e", .index 2] = .ok (P, r)) ∧
    ∃ Q r', prove E (Demo.partTy.impl E) Demo.partVal [.index 1, .index 1] = .ok (Q, r') := by
  obtain ⟨_, p, h, _⟩ := C38_leaf_partial E Demo.ty Demo.val [.field "e", .index 2] _ 40
    Demo.ty_legal Demo.ty_bounded Demo.ty_shallow Demo.ty_std Demo.val_valid Demo.val_inMemory
    (by decide +kernel) (by decide) (by decide +kernel) rfl
  obtain ⟨_, _, h1, _⟩ := prove_eq_ok.1 h
  obtain ⟨_, _, h2, _⟩ := gi_valid E h1
  obtain ⟨_, _, hF⟩ := leads_reached _ _ Demo.ty Demo.val _ ⟨Demo.ty_legal, Demo.ty_bounded,
    Demo.ty_shallow, Demo.val_valid, Demo.val_inMemory⟩ Demo.leads _ _ h2
  obtain ⟨_, q, h3, _⟩ := C38_leaf_partial E Demo.partTy Demo.partVal [.index 1, .index 1]
    (.bytes 2 [7, 0]) 10 hF.legal hF.bounded hF.shallow ⟨rfl, rfl, trivial⟩ hF.valid hF.inMemory
    (by decide +kernel) (by decide) (by decide +kernel) rfl
  exact ⟨Demo.leads, Demo.fit, ⟨p, _, h⟩, q, _, h3⟩

/-- `struct { a: Vector<[u8; 4], 16> }` -/
def wordsTy : Ty := .container (.cons "a" vectorOfWords .nil)

def wordsVal : wordsTy.Val := (vectorOfWordsVal, ())

/-- C65 is false when the inner path is empty and the part is a collection of arrays of packed
elements: the proof for such a field of a struct has the hash tree root of the field as its leaf, the
proof in the field has another node. -/
theorem C65_compose_refuted : ∃ (t u : Ty) (v : t.Val) (x : u.Val) (p : List PathElement), Legal t ∧
    Bounded t ∧ Shallow t ∧ Valid t v ∧ InMemory t v ∧ LeadsTo u x t v p ∧
    ∀ E : Env, E.sha256 = Sha256.sha256 → ∃ P Q r r', prove E (t.impl E) v p = .ok (P, r) ∧
      prove E (u.impl E) x [] = .ok (Q, r') ∧ P.leaf ≠ Q.leaf ∧ P.leaf ≠ r' := by
  obtain ⟨hl, _, hb, hs, hv, hm⟩ := vectorOfWords_ok
  have hl' : Legal wordsTy := ⟨by decide, by decide, hl, trivial⟩
  have hb' : Bounded wordsTy := ⟨⟨hb, trivial⟩, by decide⟩
  have hs' : Shallow wordsTy := ⟨by decide, hs, trivial⟩
  have hv' : Valid wordsTy wordsVal := ⟨hv, trivial⟩
  have hm' : InMemory wordsTy wordsVal := ⟨hm, trivial⟩
  refine ⟨wordsTy, vectorOfWords, wordsVal, vectorOfWordsVal, [.field "a"], hl', hb', hs', hv', hm',
    rfl, fun E hE => ?_⟩
  have hg : generalizedIndex (wordsTy.impl E) [.field "a"] = .ok 1 := by
    obtain ⟨w, hw⟩ := walk_of_index (pk := prims) (t := wordsTy) (path := [.field "a"]) (g := 1)
      (by decide +kernel)
    exact (C34_exact_partial E _ _ _ _ hw).2 (countable_of_shallow hs') (by decide) (by decide +kernel)
  have ha : ∃ a b, answer Sha256.sha256 wordsTy wordsVal 1 = .ok a ∧
      answer Sha256.sha256 vectorOfWords vectorOfWordsVal 1 = .ok b ∧ a.1 ≠ b.1 ∧
      a.1 ≠ (layer vectorOfWords vectorOfWordsVal).tree.root Sha256.sha256 := by
    refine ⟨_, _, rfl, rfl, ?_, ?_⟩ <;> decide +kernel
  obtain ⟨a, b, h1, h2, h3, h4⟩ := ha
  rw [← hE] at h1 h2 h4
  refine ⟨⟨a.1, a.2, 1⟩, ⟨b.1, b.2, 1⟩, (layer wordsTy wordsVal).tree.root E.sha256, _, ?_, ?_, h3, h4⟩
  · rw [prove_answer E _ _ _ hl' hb' hs' hv' hm', hg, Res.ok_bind, h1]
    rfl
  · rw [prove_answer E _ _ _ hl hb hs hv hm]
    rw [show generalizedIndex (vectorOfWords.impl E) [] = .ok 1 from rfl, Res.ok_bind, h2]
    rfl

theorem climb_cat {H : Bytes → Node} {a : Nat} {cs : List Node} : ∀ (bs : List Node) {b : Nat} (n : Node),
    1 ≤ b → bs.length = Nat.log2 b →
    climb H (gcat a b) n (bs ++ cs) = climb H a (climb H b n bs) cs
  | [], b, n, hb, hl => by
    obtain rfl : b = 1 := by
      have := (Nat.log2_eq_iff (by omega)).1 hl.symm
      simp at this
      omega
    rw [gcat_one]
    rfl
  | c :: bs, b, n, hb, hl => by
    have hb' : 1 < b := by
      rcases Nat.lt_or_eq_of_le hb with h | h
      · exact h
      · subst h; cases hl
    obtain ⟨h1, h2⟩ := gcat_half (g := a) hb'
    rw [List.cons_append, climb, climb, h1, h2]
    refine climb_cat bs _ (by omega) ?_
    rw [log2_half hb'] at hl
    simpa using hl

theorem log2_gcat {a b : Nat} (ha : 1 ≤ a) (hb : 1 ≤ b) :
    Nat.log2 (gcat a b) = Nat.log2 a + Nat.log2 b := by
  obtain ⟨d, i, hi, rfl⟩ := exists_pow_add ha
  obtain ⟨e, j, hj, rfl⟩ := exists_pow_add hb
  rw [gcat_pow hj, log2_pow_add hi, log2_pow_add hj, Nat.add_mul, ← Nat.pow_add, Nat.add_assoc]
  refine log2_pow_add ?_
  rw [Nat.pow_add]
  have := Nat.mul_le_mul_right (2 ^ e) (show i + 1 ≤ 2 ^ d from hi)
  rw [Nat.add_mul] at this
  omega

/-- C65 for the verifier, with any nodes: if an outer proof verifies against a root and an inner proof
verifies against the leaf of the outer one, the two put together verify against the root. -/
theorem C65_verify (E : Env) (P Q : Proof) (r : Node)
    (hfit : gcat P.index Q.index < 2 ^ 64) (hP : P.verify E r = .ok ())
    (hQ : Q.verify E P.leaf = .ok ()) :
    Proof.verify E ⟨Q.leaf, Q.branch ++ P.branch, gcat P.index Q.index⟩ r = .ok () := by
  have h0 : P.index ≠ 0 ∧ Q.index ≠ 0 := by
    constructor <;> intro h
    · rw [verify_eq E P r (by omega), if_pos h] at hP; cases hP
    · rw [verify_eq E Q _ (by omega), if_pos h] at hQ; cases hQ
  have h1 := Nat.one_le_iff_ne_zero.2 h0.1
  have h2 := Nat.one_le_iff_ne_zero.2 h0.2
  rw [verify_eq E P r (Nat.lt_of_le_of_lt (le_gcat _ _) hfit), if_neg h0.1] at hP
  rw [verify_eq E Q _ (Nat.lt_of_le_of_lt (le_gcat_right h1 h2) hfit), if_neg h0.2] at hQ
  split at hP
  · rename_i h3
    split at hQ
    · rename_i h4
      rw [verify_eq E _ _ hfit, if_neg (show gcat P.index Q.index ≠ 0 by
        have := le_gcat P.index Q.index
        omega), if_pos]
      refine ⟨?_, ?_⟩
      · rw [List.length_append, h3.1, h4.1, log2_gcat h1 h2, Nat.add_comm]
      · rw [climb_cat _ _ h2 h4.1, h4.2, h3.2]
    · cases hQ
  · cases hP

end Ssz
