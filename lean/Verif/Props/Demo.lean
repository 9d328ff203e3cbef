import Verif.Spec.Merkle

/-!
# A type and a value that meet the hypotheses of the theorems

Used in the `example`s next to the theorems.
-/

namespace Ssz.Demo

open Spec

/-- `enum { None, A(u8), B(List<List<u16, 3>, 2>) }` -/
def unionTy : Ty :=
  .union (.unit (.data (.uint .u8) (.data (.list (.list (.uint .u16) 3) 2) .nil)))

/-- A struct that uses every kind of type. -/
def ty : Ty :=
  .container
    (.cons "a" (.uint .u32)
    (.cons "b" (.list (.uint .u16) 4)
    (.cons "c" (.bitlist 10)
    (.cons "d" (.option (.vector .bool 2))
    (.cons "e" unionTy
    (.cons "f" (.array .u256 1)
    (.cons "g" (.newtype .bool)
    (.cons "h" (.bitvector 11)
    (.cons "i" .node .nil)))))))))

def val : ty.Val :=
  ((7 : BitVec 32),
   ([1, 2, 3] : List (BitVec 16)),
   (⟨[true, false, true], List.replicate 5 false⟩ : Bits),
   (some [true, false] : Option (List Bool)),
   (.inr (.inr (.inl ([[5], [6, 7]] : List (List (BitVec 16))))) : unionTy.Val),
   (⟨[9], rfl⟩ : { l : List (BitVec 256) // l.length = 1 }),
   true,
   (⟨List.replicate 11 true, List.replicate 5 false⟩ : Bits),
   zeroNode,
   ())

theorem ty_legal : Legal ty := by
  refine ⟨by decide, by decide, ?_⟩
  simp [LegalF, Legal, LegalV, unionTy, unionShape, noUnitV, countV]

theorem ty_fits : Fits ty := by
  refine ⟨?_, ?_⟩
  · simp [FitsF, Fits, FitsV, unionTy, fixedLen]
  · simp [fixedLenF, unionTy, isVar, fixedLen, UintTy.bits]

theorem val_valid : Valid ty val := by
  refine ⟨trivial, ⟨by decide, fun _ _ => trivial⟩, ⟨by decide, by decide⟩, ?_, ?_, fun _ _ => trivial,
    trivial, rfl, trivial, trivial⟩
  · intro x hx
    cases hx
    exact ⟨rfl, fun _ _ => trivial⟩
  · refine ⟨by decide, fun x hx => ⟨?_, fun _ _ => trivial⟩⟩
    have h : ∀ x ∈ ([[5], [6, 7]] : List (List (BitVec 16))), x.length ≤ 3 := by decide
    exact h x hx

theorem val_length : (enc ty val).length < 2 ^ 32 := by
  have : (enc ty val).length < 200 := by decide +kernel
  omega

theorem ty_bounded : Bounded ty := by
  refine ⟨?_, by decide⟩
  simp [BoundedF, Bounded, BoundedV, unionTy, packs, fixedLen, UintTy.bits]

theorem ty_std : Std ty := by
  simp [ty, Std, StdF, StdV, unionTy, elemStd, packs, isBasic]

theorem val_inMemory : InMemory ty val := by
  refine ⟨trivial, ⟨⟨by decide, fun _ => by decide⟩, fun _ _ => trivial⟩,
    show 3 < 2 ^ 64 by decide, ?_, ?_,
    ⟨⟨by decide, fun _ => by decide⟩, fun _ _ => trivial⟩, trivial, show 11 < 2 ^ 64 by decide,
    trivial, trivial⟩
  · intro x hx
    cases hx
    exact ⟨⟨by decide, fun _ => by decide⟩, fun _ _ => trivial⟩
  · refine ⟨⟨by decide, fun h => by simp [packs] at h⟩, fun x hx => ⟨?_, fun _ _ => trivial⟩⟩
    have h : ∀ x ∈ ([[5], [6, 7]] : List (List (BitVec 16))), x.length ≤ 3 := by decide
    have h := h x hx
    refine ⟨Nat.lt_of_le_of_lt h (by decide), fun _ => ?_⟩
    exact Nat.lt_of_le_of_lt (Nat.mul_le_mul_right (fixedLen (.uint .u16)) h) (by decide)

theorem val_stored : Stored ty val := by
  refine ⟨trivial, fun _ _ => trivial, show 5 = _ by decide, ?_, ?_, fun _ _ => trivial, trivial, trivial,
    trivial, trivial⟩
  · intro x hx
    cases hx
    exact fun _ _ => trivial
  · exact fun x hx _ _ => trivial

theorem val_clean : Clean ty val := by
  refine ⟨trivial, fun _ _ => trivial, show List.replicate 5 false = _ by decide, ?_, ?_, fun _ _ => trivial, trivial, trivial,
    trivial, trivial⟩
  · intro x hx
    cases hx
    exact fun _ _ => trivial
  · exact fun x hx _ _ => trivial

end Ssz.Demo
