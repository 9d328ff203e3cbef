import Verif.Proofs.Overflow
import Verif.Props.Merkle

/-!
# Properties C27, C28 and C31 for types with bounds of any size

`Overflows t v` says that `v` contains a list whose limit is out of the range of 64-bit arithmetic.
-/

namespace Ssz

open Spec

/-! ## C31 -/

/-- C31, exactly, for all limits of lists: a value without overflowing lists has a root, the one of
its tree, in every build; with overflow checks, any other value panics. -/
theorem C31_exact_partial (E : Env) (t : Ty) (v : t.Val) (hl : Legal t) (hr : Ranged t)
    (hv : Valid t v) (hm : InMemory t v) :
    (¬ Overflows t v → (t.impl E).hashTreeRoot v = .ok ((treeBy packs t v).root E.sha256)) ∧
    (E.debug = true → ((t.impl E).hashTreeRoot v = .panic ↔ Overflows t v)) := by
  have h := htr_rooted E t v hl hr hv hm
  refine ⟨h.1, fun hE => ⟨fun hp => ?_, h.2 hE⟩⟩
  by_contra ho
  rw [h.1 ho] at hp
  cases hp

/-- The hypotheses are weaker than those of C27 and of `C31_no_panic_partial`. -/
theorem C31_bounded (t : Ty) (h : Bounded t) : Ranged t ∧ ∀ v : t.Val, ¬ Overflows t v :=
  bounded_ranged t h

/-- `struct { a: u8, b: Option<List<u64, 2^61>> }` -/
def rarelyHuge : Ty :=
  .container (.cons "a" (.uint .u8) (.cons "b" (.option (.list (.uint .u64) (2 ^ 61))) .nil))

/-- Without the list there is a root, with it there is none in debug builds. -/
example : Legal rarelyHuge ∧ Ranged rarelyHuge ∧ ¬ Bounded rarelyHuge ∧
    ¬ Overflows rarelyHuge ((7 : BitVec 8), none, ()) ∧
    Overflows rarelyHuge ((7 : BitVec 8), some ([5] : List (BitVec 64)), ()) := by
  have hb : ¬ Bounded rarelyHuge := fun h => by
    have h : (if packs (.uint .u64) then 2 ^ 61 * fixedLen (.uint .u64) < 2 ^ 64 else 2 ^ 61 ≤ 2 ^ 63) :=
      h.1.2.1.2.2
    exact absurd h (by decide)
  refine ⟨⟨by decide, by decide, trivial, trivial, trivial⟩,
    ⟨⟨trivial, ⟨trivial, fun _ => by decide⟩, trivial⟩, by decide⟩, hb, ?_, ?_⟩
  · rintro (h | ⟨x, hx, _⟩ | h)
    · exact h
    · cases hx
    · exact h
  · exact .inr (.inl ⟨_, rfl, .inl (show 2 ^ 64 ≤ 2 ^ 61 * 8 by decide)⟩)

/-- Without overflow checks, the empty list still panics for every limit above `2^63`. -/
theorem C31_empty_panics (E : Env) (t : Ty) (n : Nat) (hp : packs t = false) (hn : 2 ^ 63 < n) :
    ((Ty.list t n).impl E).hashTreeRoot ([] : List t.Val) = .panic := by
  have h1 : assembleChunks E (t.impl E) [] = .ok [] := by
    have : E.mul 0 32 = .ok 0 := Env.mul_eq_ok (by decide)
    simp only [assembleChunks, impl_isComposite, hp, Bool.not_false, if_true, elementsToChunks,
      List.length_nil, this]
    rfl
  show (SimpleSerialize.list E (t.impl E) n).hashTreeRoot [] = _
  simp only [SimpleSerialize.list, h1, Res.ok_bind, impl_isComposite, hp, Bool.not_false, if_true,
    merkleize_huge_nil E hn, Res.panic_bind]

example : packs (.bitlist 4) = false ∧ 2 ^ 63 < 2 ^ 64 - 1 := by decide

/-! ## C28 -/

/-- Without overflow checks, a list with a limit above `2^63` has a root that does not depend on the
second half of its elements. -/
theorem C28_half_ignored (E : Env) (hE : E.debug = false) (t : Ty) (n : Nat) (vs ws : List t.Val)
    (hl : Legal t) (hb : Bounded t) (hp : packs t = false) (hn : 2 ^ 63 < n)
    (hv : Valid (.list t n) vs) (hw : Valid (.list t n) ws)
    (hmv : InMemory (.list t n) vs) (hmw : InMemory (.list t n) ws) (h0 : vs ≠ [])
    (hlen : vs.length = ws.length)
    (hhalf : vs.take ((vs.length + 1) / 2) = ws.take ((vs.length + 1) / 2)) :
    ∃ r, ((Ty.list t n).impl E).hashTreeRoot vs = .ok r ∧
      ((Ty.list t n).impl E).hashTreeRoot ws = .ok r := by
  have h1 := list_huge_release E hE hl hp hv.2 hmv.1 h0 hn fun v hx =>
    htr_ok E t v hl hb (hv.2 v hx) (hmv.2 v hx)
  have h2 := list_huge_release E hE hl hp hw.2 hmw.1
    (fun h => h0 (List.length_eq_zero_iff.mp (by rw [hlen, h]; rfl))) hn fun v hx =>
    htr_ok E t v hl hb (hw.2 v hx) (hmw.2 v hx)
  refine ⟨_, h1, h2.trans ?_⟩
  rw [← hlen, ← hhalf]

/-- C28 is false without overflow checks for a limit above `2^63`: different lists have the same
root, whatever the hash function. -/
theorem C28_binding_refuted : ∃ (t : Ty) (v w : t.Val), Legal t ∧ Fits t ∧ Valid t v ∧ Valid t w ∧
    InMemory t v ∧ InMemory t w ∧ norm t v ≠ norm t w ∧
    ∀ E, E.debug = false → ∃ r, (t.impl E).hashTreeRoot v = .ok r ∧ (t.impl E).hashTreeRoot w = .ok r := by
  have hlen : ∀ (x : BitVec 8) (l : List (BitVec 8)), l ∈ [[1], [x]] → l.length = 1 := by
    intro x l hl
    have : l = [1] ∨ l = [x] := by simpa using hl
    rcases this with rfl | rfl <;> rfl
  have hv : ∀ x : BitVec 8, Valid hugeList ([[1], [x]] : List (List (BitVec 8))) := fun x =>
    ⟨show (2 : Nat) ≤ 2 ^ 63 + 1 by decide, fun l hl =>
      ⟨Nat.le_of_eq (hlen x l hl), fun _ _ => trivial⟩⟩
  have hm : ∀ x : BitVec 8, InMemory hugeList ([[1], [x]] : List (List (BitVec 8))) := fun x =>
    ⟨⟨show (2 : Nat) < 2 ^ 58 by decide, fun h => nomatch h⟩, fun l hl =>
      ⟨⟨Nat.lt_of_le_of_lt (Nat.le_of_eq (hlen x l hl)) (by decide), fun _ =>
        Nat.lt_of_le_of_lt (Nat.le_of_eq (congrArg (· * 1) (hlen x l hl))) (by decide)⟩,
        fun _ _ => trivial⟩⟩
  refine ⟨hugeList, ([[1], [2]] : List (List (BitVec 8))), ([[1], [3]] : List (List (BitVec 8))),
    trivial, trivial, hv 2, hv 3, hm 2, hm 3, ?_, fun E hE => ?_⟩
  · show ([[1], [2]] : List (List (BitVec 8))) ≠ [[1], [3]]
    decide
  · exact C28_half_ignored E hE (.list (.uint .u8) 1) (2 ^ 63 + 1) ([[1], [2]] : List (List (BitVec 8)))
      ([[1], [3]] : List (List (BitVec 8))) trivial ⟨trivial, fun _ => by decide, by decide⟩ rfl
      (by decide) (hv 2) (hv 3) (hm 2) (hm 3) (List.cons_ne_nil _ _) rfl rfl

/-- C28 with overflow checks, for list limits of any size: two values with the same root are equal, or
there is a collision. -/
theorem C28_checked_partial (E : Env) (hE : E.debug = true) (t : Ty) (v w : t.Val) (r : Node)
    (hl : Legal t) (hr : Ranged t) (hv : Valid t v) (hw : Valid t w) (hmv : InMemory t v)
    (hmw : InMemory t w) (h1 : (t.impl E).hashTreeRoot v = .ok r)
    (h2 : (t.impl E).hashTreeRoot w = .ok r) :
    norm t v = norm t w ∨ Collide E.sha256 (treeBy packs t v) (treeBy packs t w) := by
  have key : ∀ x : t.Val, Valid t x → InMemory t x → (t.impl E).hashTreeRoot x = .ok r →
      (treeBy packs t x).root E.sha256 = r := fun x hx hm h => by
    have h' := htr_rooted E t x hl hr hx hm
    by_cases ho : Overflows t x
    · rw [h'.2 hE ho] at h
      cases h
    · rw [h'.1 ho] at h
      injection h
  exact bind_ok E.sha256 t v w hl hr hv hw hmv hmw ((key v hv hmv h1).trans (key w hw hmw h2).symm)

/-- The type of the example for C31 has values with a root although it has a list that overflows. -/
example (E : Env) : ¬ Bounded rarelyHuge ∧
    ∃ r, (rarelyHuge.impl E).hashTreeRoot ((7 : BitVec 8), none, ()) = .ok r := by
  refine ⟨fun h => ?_, _, (C31_exact_partial E rarelyHuge ((7 : BitVec 8), none, ())
    ⟨by decide, by decide, trivial, trivial, trivial⟩
    ⟨⟨trivial, ⟨trivial, fun _ => by decide⟩, trivial⟩, by decide⟩
    ⟨trivial, ⟨(fun _ h => nomatch h), trivial⟩⟩ ⟨trivial, ⟨(fun _ h => nomatch h), trivial⟩⟩).1 ?_⟩
  · have h : (if packs (.uint .u64) then 2 ^ 61 * fixedLen (.uint .u64) < 2 ^ 64 else 2 ^ 61 ≤ 2 ^ 63) :=
      h.1.2.1.2.2
    exact absurd h (by decide)
  · rintro (h | ⟨x, hx, _⟩ | h)
    · exact h
    · cases hx
    · exact h

/-! ## C27 -/

/-- `List<u64, 2^61>` -/
def wrappedList : Ty := .list (.uint .u64) (2 ^ 61)

/-- Without overflow checks, the limit of `List<u64, 2^61>` wraps to zero chunks, so no list but the
empty one has a root. -/
theorem C27_wrapped_refuted (E : Env) (hE : E.debug = false) (vs : List (BitVec 64)) (h0 : vs ≠ [])
    (hn : vs.length < 2 ^ 58) :
    Valid wrappedList vs ∧
    (wrappedList.impl E).hashTreeRoot vs = .err (.inputExceedsLimit 0) := by
  refine ⟨⟨Nat.le_of_lt (Nat.lt_of_lt_of_le hn (by decide)), fun _ _ => trivial⟩, ?_⟩
  have hheld : held (.uint .u64) vs.length :=
    ⟨hn, fun _ => by simp only [fixedLen, UintTy.bits]; omega⟩
  have h1 := assembleChunks_ok E (t := .uint .u64) (vs := vs) trivial (fun _ => by decide)
    (fun _ _ => trivial) hheld fun v _ => htr_ok E (.uint .u64) v trivial trivial trivial trivial
  have h2 : (partsOf (.uint .u64) vs).length = (vs.length * 8 + 31) / 32 :=
    partsOf_length (t := .uint .u64) fun _ _ => trivial
  have hpos : 0 < vs.length := List.length_pos_iff.mpr h0
  have h3 : listChunkCount E ((Ty.uint .u64).impl E) (2 ^ 61) = .ok 0 := by
    have : E.mul (2 ^ 61) 8 = .ok 0 := by simp [Env.mul, hE, usizeMod]
    unfold listChunkCount
    rw [impl_sizeHint E (.uint .u64) trivial, Res.ok_bind]
    show (E.mul (2 ^ 61) 8 >>= fun a => Res.ok ((a + 31) / 32)) = _
    rw [this]
    rfl
  show (SimpleSerialize.list E ((Ty.uint .u64).impl E) (2 ^ 61)).hashTreeRoot vs = _
  simp only [SimpleSerialize.list]
  rw [h1, Res.ok_bind, impl_isComposite]
  simp only [packs, Bool.not_true, Bool.false_eq_true, if_false, h3, Res.lift_ok, Res.ok_bind]
  rw [merkleize_exceeds E _ (by rw [List.length_map, h2]; omega) (by rw [List.length_map, h2]; omega),
    Res.err_bind]

example : ([5] : List (BitVec 64)) ≠ [] ∧ ([5] : List (BitVec 64)).length < 2 ^ 58 := by decide

end Ssz
