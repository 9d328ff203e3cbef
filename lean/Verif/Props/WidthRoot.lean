import Verif.Proofs.Std
import Verif.Proofs.WidthRoot
import Verif.Props.Demo
import Verif.Spec.Sha256

/-!
# Property C86: roots on targets with a smaller `usize`

`t.rootW b E v` is `hash_tree_root` where `usize` has `b` bits. `const` parameters are of type `usize`
there, so a list of the target has a limit below `2^b`.
-/

namespace Ssz

open Spec

/-- With 64 bits this is the function of the rest of the model. -/
theorem C86_same (E : Env) (t : Ty) (v : t.Val) : t.rootW 64 E v = (t.impl E).hashTreeRoot v :=
  rootW_64 E t v

/-- C86, exactly, for all limits of lists: on a target with 32 to 64 bits, a value without a list whose
limit is out of range for the target has a root, the one of its tree, in every build; with overflow
checks, any other value panics. -/
theorem C86_exact_partial (b : Nat) (h32 : 32 ≤ b) (h64 : b ≤ 64) (E : Env) (t : Ty) (v : t.Val)
    (hl : Legal t) (hr : RangedW b t) (hv : Valid t v) (hm : InMemoryW b t v) :
    (¬ OverflowsW b t v → t.rootW b E v = .ok ((treeBy packs t v).root E.sha256)) ∧
    (E.debug = true → (t.rootW b E v = .panic ↔ OverflowsW b t v)) := by
  have h := htrW_rooted h32 h64 E t v hl hr hv hm
  refine ⟨h.1, fun hE => ⟨fun hp => ?_, h.2 hE⟩⟩
  by_contra ho
  rw [h.1 ho] at hp
  cases hp

/-- C86 for the types of `C27_conforms_partial`: the root is that of the specification. -/
theorem C86_root_partial (b : Nat) (h32 : 32 ≤ b) (h64 : b ≤ 64) (E : Env) (t : Ty) (v : t.Val)
    (hl : Legal t) (hr : RangedW b t) (hs : Std t) (hv : Valid t v) (hm : InMemoryW b t v)
    (ho : ¬ OverflowsW b t v) : t.rootW b E v = .ok (htr E.sha256 t v) := by
  rw [(C86_exact_partial b h32 h64 E t v hl hr hv hm).1 ho, htr, tree, tree_std t v hs]

/-- `struct { a: u8, b: Option<List<u64, 2^29>> }` -/
def rarelyHuge32 : Ty :=
  .container (.cons "a" (.uint .u8) (.cons "b" (.option (.list (.uint .u64) (2 ^ 29))) .nil))

theorem rarelyHuge32_ok : Legal rarelyHuge32 ∧ RangedW 32 rarelyHuge32 ∧ Std rarelyHuge32 :=
  ⟨⟨by decide, by decide, trivial, trivial, trivial⟩,
    ⟨⟨trivial, ⟨trivial, fun h => (by cases h), fun _ => (by decide : (8 : Nat) < 2 ^ 32)⟩, trivial⟩,
      (by decide : (2 : Nat) ≤ 2 ^ 26)⟩,
    ⟨trivial, ⟨rfl, trivial⟩, trivial⟩⟩

/-- With 32 bits, the value without the list is covered and the one with the list overflows; with 64 bits
both are covered. -/
example : ¬ OverflowsW 32 rarelyHuge32 ((7 : BitVec 8), none, ()) ∧
    Valid rarelyHuge32 ((7 : BitVec 8), none, ()) ∧ InMemoryW 32 rarelyHuge32 ((7 : BitVec 8), none, ()) ∧
    OverflowsW 32 rarelyHuge32 ((7 : BitVec 8), some ([5] : List (BitVec 64)), ()) ∧
    Valid rarelyHuge32 ((7 : BitVec 8), some ([5] : List (BitVec 64)), ()) ∧
    InMemoryW 32 rarelyHuge32 ((7 : BitVec 8), some ([5] : List (BitVec 64)), ()) ∧
    ¬ OverflowsW 64 rarelyHuge32 ((7 : BitVec 8), some ([5] : List (BitVec 64)), ()) := by
  refine ⟨?_, ⟨trivial, (fun _ h => nomatch h), trivial⟩, ⟨trivial, (fun _ h => nomatch h), trivial⟩, ?_,
    ⟨trivial, ?_, trivial⟩, ⟨trivial, ?_, trivial⟩, ?_⟩
  · rintro (h | ⟨x, hx, _⟩ | h)
    · exact h
    · cases hx
    · exact h
  · exact .inr (.inl ⟨_, rfl, .inl (show 2 ^ 32 ≤ 2 ^ 29 * 8 by decide)⟩)
  · intro x hx
    cases hx
    exact ⟨(by decide : (1 : Nat) ≤ 2 ^ 29), fun _ _ => trivial⟩
  · intro x hx
    cases hx
    exact ⟨⟨(by decide : (1 : Nat) < 2 ^ 26), fun _ => (by decide : (1 * 8 : Nat) < 2 ^ 31)⟩,
      fun _ _ => trivial⟩
  · rintro (h | ⟨x, _, h | ⟨y, _, h⟩⟩ | h)
    · exact h
    · exact absurd (show 2 ^ 64 ≤ 2 ^ 29 * 8 from h) (by decide)
    · exact h
    · exact h

/-! ## Limits out of range -/

/-- Without overflow checks, the limit of a list of packed elements counts modulo `2^b` bytes: two list
types whose limits agree so far give the same list the same root, or the same error. -/
theorem C86_aliased (b : Nat) (E : Env) (hE : E.debug = false) (t : Ty) (n m : Nat) (vs : List t.Val)
    (hl : Legal t) (hp : packs t = true) (hs : fixedLen t < 2 ^ 32)
    (hnm : n * fixedLen t % 2 ^ b = m * fixedLen t % 2 ^ b) :
    (Ty.list t n).rootW b E vs = (Ty.list t m).rootW b E vs :=
  list_aliasedW E hE vs hl hp hs hnm

/-- With 32 bits, `List<u64, 2^29 + 4>` is merkleized as `List<u64, 4>`. -/
example : packs (.uint .u64) = true ∧ fixedLen (.uint .u64) = 8 ∧ 2 ^ 29 + 4 < 2 ^ 32 ∧
    (2 ^ 29 + 4) * 8 % 2 ^ 32 = 4 * 8 % 2 ^ 32 := by decide

/-- So `List<u64, 2^29>` gets the limit 0 with 32 bits: no list but the empty one has a root. -/
theorem C86_wrapped_refuted (E : Env) (hE : E.debug = false) (vs : List (BitVec 64)) (h0 : vs ≠ [])
    (hn : vs.length < 2 ^ 26) :
    Valid (.list (.uint .u64) (2 ^ 29)) vs ∧
    (Ty.list (.uint .u64) (2 ^ 29)).rootW 32 E vs = .err (.inputExceedsLimit 0) := by
  refine ⟨⟨Nat.le_of_lt (Nat.lt_of_lt_of_le hn (by decide)), fun _ _ => trivial⟩, ?_⟩
  have hheld : heldW 32 (.uint .u64) vs.length :=
    ⟨hn, fun _ => by simp only [fixedLen, UintTy.bits]; omega⟩
  have h1 := assembleChunksW_ok (b := 32) (by decide) E (t := .uint .u64) (vs := vs) trivial
    (fun _ => by decide) (fun _ _ => trivial) hheld
    fun v _ => htr_ok E (.uint .u64) v trivial trivial trivial trivial
  have h2 : (partsOf (.uint .u64) vs).length = (vs.length * 8 + 31) / 32 :=
    partsOf_length (t := .uint .u64) fun _ _ => trivial
  have hpos : 0 < vs.length := List.length_pos_iff.mpr h0
  have h3 : listChunkCountW 32 E ((Ty.uint .u64).impl E) (2 ^ 29) = .ok 0 := by
    rw [listChunkCountW_wraps E (t := .uint .u64) trivial rfl (by decide)
      (show 2 ^ 32 ≤ 2 ^ 29 * 8 by decide), hE]
    rfl
  refine (list_rootW' 32 E (.uint .u64) (2 ^ 29) vs).trans ?_
  rw [h1, Res.ok_bind, impl_isComposite]
  simp only [packs, Bool.not_true, Bool.false_eq_true, if_false, h3, Res.lift_ok, Res.ok_bind]
  rw [merkleizeW_exceeds (b := 32) (by decide) E _ (by rw [List.length_map, h2]; omega)
    (by rw [List.length_map, h2]; omega), Res.err_bind]

example : ([5] : List (BitVec 64)) ≠ [] ∧ ([5] : List (BitVec 64)).length < 2 ^ 26 := by decide

/-- A chunk and the root of zero chunks, both `d` levels up. -/
def risen (H : Bytes → Node) (c : Node) : Nat → Node × Node
  | 0 => (c, zeroNode)
  | d + 1 => let p := risen H c d; (H (p.1.1 ++ p.2.1), H (p.2.1 ++ p.2.1))

theorem risen_eq (H : Bytes → Node) (c : Node) (d : Nat) :
    risen H c d = (rootD H zeroNode d [c], rootD H zeroNode d []) := by
  induction d with
  | zero => rfl
  | succ d ih =>
    have h1 : [c].take (2 ^ d) = [c] := List.take_of_length_le Nat.one_le_two_pow
    have h2 : [c].drop (2 ^ d) = [] := List.drop_of_length_le Nat.one_le_two_pow
    rw [risen, ih, rootD, rootD, h1, h2, List.take_nil, List.drop_nil]

/-- C86 is false without overflow checks where a limit is out of range: with 32 bits the list `[5]` of type
`List<u64, 2^29 + 4>` gets a root that is not the one of the specification, namely the root that it has
as a `List<u64, 4>`. -/
theorem C86_root_refuted : ∃ (t : Ty) (v : t.Val) (r : Node), Legal t ∧ RangedW 32 t ∧ Std t ∧
    Valid t v ∧ InMemoryW 32 t v ∧ t.rootW 32 ⟨false, Sha256.sha256⟩ v = .ok r ∧
    r ≠ htr Sha256.sha256 t v := by
  let vs : List (BitVec 64) := [5]
  let E : Env := ⟨false, Sha256.sha256⟩
  have hv : ∀ n, 1 ≤ n → Valid (.list (.uint .u64) n) vs := fun n hn => ⟨hn, fun _ _ => trivial⟩
  have hr : ∀ n, RangedW 32 (.list (.uint .u64) n) := fun n =>
    ⟨trivial, fun h => (by cases h), fun _ => (by decide : (8 : Nat) < 2 ^ 32)⟩
  have hm : ∀ n, InMemoryW 32 (.list (.uint .u64) n) vs := fun n =>
    ⟨⟨(by decide : (1 : Nat) < 2 ^ 26), fun _ => (by decide : (1 * 8 : Nat) < 2 ^ 31)⟩, fun _ _ => trivial⟩
  have hs : ∀ n, Std (.list (.uint .u64) n) := fun n => ⟨rfl, trivial⟩
  have h1 : (Ty.list (.uint .u64) 4).rootW 32 E vs = .ok (htr Sha256.sha256 (.list (.uint .u64) 4) vs) :=
    C86_root_partial 32 (by decide) (by decide) E (.list (.uint .u64) 4) vs trivial (hr 4) (hs 4)
      (hv 4 (by decide)) (hm 4) (by
        rintro (h | ⟨_, _, h⟩)
        · exact absurd (show 2 ^ 32 ≤ 4 * 8 from h) (by decide)
        · exact h)
  have h2 : (Ty.list (.uint .u64) (2 ^ 29 + 4)).rootW 32 E vs = (Ty.list (.uint .u64) 4).rootW 32 E vs :=
    C86_aliased 32 E rfl (.uint .u64) (2 ^ 29 + 4) 4 vs trivial rfl (by decide) (by decide)
  refine ⟨.list (.uint .u64) (2 ^ 29 + 4), vs, htr Sha256.sha256 (.list (.uint .u64) 4) vs, trivial, hr _,
    hs _, hv _ (by decide), hm _, h2.trans h1, ?_⟩
  have key : ∀ n d, depthFor ((n * 8 + 31) / 32) = d → htr Sha256.sha256 (.list (.uint .u64) n) vs =
      Sha256.sha256 ((risen Sha256.sha256 (pad32 [5]) d).1.1 ++ (pad32 (leBytes 32 1)).1) := by
    rintro n d rfl
    have e2 := full_root Sha256.sha256 (depthFor ((n * 8 + 31) / 32)) (leaves (vs.flatMap (enc (.uint .u64))))
    rw [leaves_root, show chunkify (vs.flatMap (enc (.uint .u64))) = [pad32 [5]] by decide +kernel] at e2
    show (MTree.node (full (depthFor ((n * 8 + 31) / 32)) (leaves (vs.flatMap (enc (.uint .u64)))))
      (numLeaf vs.length)).root Sha256.sha256 = _
    rw [MTree.root, e2, risen_eq]
    rfl
  have d2 : depthFor (((2 ^ 29 + 4) * 8 + 31) / 32) = 28 := by
    refine Nat.le_antisymm (depthFor_le (by decide)) ?_
    exact (Nat.lt_clog_iff_pow_lt (by decide)).mpr (show 2 ^ 27 < ((2 ^ 29 + 4) * 8 + 31) / 32 by decide)
  rw [key 4 0 (by decide), key (2 ^ 29 + 4) 28 d2]
  decide +kernel

/-- Without overflow checks, a list with a limit above `2^(b-1)`, of elements that are not packed, has a
root that does not depend on the second half of its elements. -/
theorem C86_half_ignored (b : Nat) (h32 : 32 ≤ b) (h64 : b ≤ 64) (E : Env) (hE : E.debug = false) (t : Ty)
    (n : Nat) (vs ws : List t.Val) (hl : Legal t) (hr : RangedW b t) (hp : packs t = false)
    (hn : 2 ^ (b - 1) < n) (hv : Valid (.list t n) vs) (hw : Valid (.list t n) ws)
    (hmv : InMemoryW b (.list t n) vs) (hmw : InMemoryW b (.list t n) ws)
    (hov : ∀ v ∈ vs, ¬ OverflowsW b t v) (how : ∀ v ∈ ws, ¬ OverflowsW b t v) (h0 : vs ≠ [])
    (hlen : vs.length = ws.length)
    (hhalf : vs.take ((vs.length + 1) / 2) = ws.take ((vs.length + 1) / 2)) :
    ∃ r, (Ty.list t n).rootW b E vs = .ok r ∧ (Ty.list t n).rootW b E ws = .ok r := by
  have h1 := list_huge_releaseW h32 h64 E hE hl hp hv.2 hmv.1 h0 hn fun v hx =>
    (htrW_rooted h32 h64 E t v hl hr (hv.2 v hx) (hmv.2 v hx)).1 (hov v hx)
  have h2 := list_huge_releaseW h32 h64 E hE hl hp hw.2 hmw.1
    (fun h => h0 (List.length_eq_zero_iff.mp (by rw [hlen, h]; rfl))) hn fun v hx =>
    (htrW_rooted h32 h64 E t v hl hr (hw.2 v hx) (hmw.2 v hx)).1 (how v hx)
  refine ⟨_, h1, h2.trans ?_⟩
  rw [← hlen, ← hhalf]

/-- With 32 bits, `[[1], [2]]` and `[[1], [3]]` of type `List<List<u8, 1>, 2^31 + 1>` have the same root,
whatever the hash function. -/
theorem C86_binding_refuted : ∃ (t : Ty) (v w : t.Val), Legal t ∧ RangedW 32 t ∧ Valid t v ∧ Valid t w ∧
    InMemoryW 32 t v ∧ InMemoryW 32 t w ∧ norm t v ≠ norm t w ∧
    ∀ E, E.debug = false → ∃ r, t.rootW 32 E v = .ok r ∧ t.rootW 32 E w = .ok r := by
  have hlen : ∀ (x : BitVec 8) (l : List (BitVec 8)), l ∈ [[1], [x]] → l.length = 1 := by
    intro x l hl
    have : l = [1] ∨ l = [x] := by simpa using hl
    rcases this with rfl | rfl <;> rfl
  have hv : ∀ x : BitVec 8, Valid (.list (.list (.uint .u8) 1) (2 ^ 31 + 1))
      ([[1], [x]] : List (List (BitVec 8))) := fun x =>
    ⟨show (2 : Nat) ≤ 2 ^ 31 + 1 by decide, fun l hl =>
      ⟨Nat.le_of_eq (hlen x l hl), fun _ _ => trivial⟩⟩
  have hm : ∀ x : BitVec 8, InMemoryW 32 (.list (.list (.uint .u8) 1) (2 ^ 31 + 1))
      ([[1], [x]] : List (List (BitVec 8))) := fun x =>
    ⟨⟨show (2 : Nat) < 2 ^ 26 by decide, fun h => nomatch h⟩, fun l hl =>
      ⟨⟨Nat.lt_of_le_of_lt (Nat.le_of_eq (hlen x l hl)) (by decide), fun _ =>
        Nat.lt_of_le_of_lt (Nat.le_of_eq (congrArg (· * 1) (hlen x l hl))) (by decide)⟩,
        fun _ _ => trivial⟩⟩
  have hr : RangedW 32 (.list (.uint .u8) 1) :=
    ⟨trivial, fun h => (by cases h), fun _ => (by decide : (1 : Nat) < 2 ^ 32)⟩
  have ho : ∀ (x : BitVec 8) (l : List (BitVec 8)), l ∈ [[1], [x]] →
      ¬ OverflowsW 32 (.list (.uint .u8) 1) l := by
    rintro x l - (h | ⟨_, _, h⟩)
    · exact absurd (show 2 ^ 32 ≤ 1 * 1 from h) (by decide)
    · exact h
  refine ⟨.list (.list (.uint .u8) 1) (2 ^ 31 + 1), ([[1], [2]] : List (List (BitVec 8))),
    ([[1], [3]] : List (List (BitVec 8))),
    trivial, ⟨hr, fun h => (by cases h), fun h => (by cases h)⟩, hv 2, hv 3, hm 2, hm 3, ?_, fun E hE => ?_⟩
  · show ([[1], [2]] : List (List (BitVec 8))) ≠ [[1], [3]]
    decide
  · exact C86_half_ignored 32 (by decide) (by decide) E hE (.list (.uint .u8) 1) (2 ^ 31 + 1)
      ([[1], [2]] : List (List (BitVec 8))) ([[1], [3]] : List (List (BitVec 8))) trivial hr rfl
      (by decide) (hv 2) (hv 3) (hm 2) (hm 3) (ho 2) (ho 3) (List.cons_ne_nil _ _) rfl rfl

end Ssz
