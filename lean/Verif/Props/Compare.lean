import Verif.Proofs.Compare
import Verif.Props.Encoding

/-!
# Property C73: comparisons of values
-/

namespace Ssz

open Spec

/-- C73: `==` holds exactly for values that differ in unused storage bits at most. -/
theorem C73_equal (t : Ty) (v w : t.Val) : t.eq v w = true ↔ norm t v = norm t w :=
  eq_norm t v w

/-- C73: `==` holds exactly for values that are written as the same bytes. -/
theorem C73_equal_bytes (E : Env) (t : Ty) (v w : t.Val) (b b' : Bytes) (hl : Legal t) (hf : Fits t)
    (hv : Valid t v) (hw : Valid t w) (h : serialize (t.impl E).toSerializable v = .ok b)
    (h' : serialize (t.impl E).toSerializable w = .ok b') : t.eq v w = true ↔ b = b' := by
  rw [eq_norm t v w]
  constructor
  · intro hn
    obtain ⟨rfl, s⟩ := serialize_ok_enc E t v hl hf hv h
    obtain ⟨rfl, s'⟩ := serialize_ok_enc E t w hl hf hw h'
    rw [← enc_norm t v, ← enc_norm t w, hn]
  · rintro rfl
    exact C08_injective E t v w b hl hf hv hw h h'

/-- C73: what is read back from the bytes of a value is `==` to it. -/
theorem C73_round_trip (E : Env) (t : Ty) (v : t.Val) (b : Bytes) (hl : Legal t) (hf : Fits t)
    (hv : Valid t v) (h : serialize (t.impl E).toSerializable v = .ok b) :
    ∃ w, deserialize (t.impl E).toSerializable b = .ok w ∧ t.eq w v = true ∧ t.cmp w v = .eq := by
  obtain ⟨w, hd, hn⟩ := C01_written E t v b hl hf hv h
  exact ⟨w, hd, (eq_norm t w v).2 hn, (cmp_eq t w v).2 ((eq_norm t w v).2 hn)⟩

/-- C73: `cmp` answers `Equal` exactly if `==` holds. -/
theorem C73_cmp_equal (t : Ty) (v w : t.Val) : t.cmp v w = .eq ↔ t.eq v w = true :=
  cmp_eq t v w

/-- C73: `cmp` compares the numbers of `Spec.sortKey` from the left: integers by size, collections by
their first difference and then by length, structs field by field, enums by the position of the
variant and then by the payload. -/
theorem C73_order (t : Ty) (v w : t.Val) : t.cmp v w = compare (sortKey t v) (sortKey t w) :=
  cmp_key t v w

/-- C73: swapping the values swaps the answer. -/
theorem C73_swap (t : Ty) (v w : t.Val) : t.cmp w v = (t.cmp v w).swap := by
  rw [cmp_key, cmp_key]
  exact Std.OrientedCmp.eq_swap

/-- C73: the order is transitive. -/
theorem C73_trans (t : Ty) (u v w : t.Val) (h : t.cmp u v ≠ .gt) (h' : t.cmp v w ≠ .gt) :
    t.cmp u w ≠ .gt := by
  rw [cmp_key] at *
  exact Ordering.isLE_iff_ne_gt.mp
    (Std.TransCmp.isLE_trans (Ordering.isLE_iff_ne_gt.mpr h) (Ordering.isLE_iff_ne_gt.mpr h'))

/-- C73: unused storage bits play no part, neither for `==` nor for `cmp`. -/
theorem C73_unused (t : Ty) (v w : t.Val) :
    t.eq (norm t v) (norm t w) = t.eq v w ∧ t.cmp (norm t v) (norm t w) = t.cmp v w := by
  have hk : ∀ v : t.Val, sortKey t (norm t v) = sortKey t v := by
    intro v
    have h := (cmp_eq t (norm t v) v).2 ((eq_norm t (norm t v) v).2 (norm_norm t v))
    rw [cmp_key] at h
    exact Std.LawfulEqCmp.eq_of_compare h
  constructor
  · rw [Bool.eq_iff_iff, eq_norm, eq_norm, norm_norm, norm_norm]
  · rw [cmp_key, cmp_key, hk, hk]

namespace Compared

/-- An enum of nothing, a `u16` and a `List<u8, 9>`. -/
abbrev shape : Ty := .union (.unit (.data (.uint .u16) (.data (.list (.uint .u8) 9) .nil)))

/-- A list of such enums and a `Bitlist<9>`. -/
abbrev ty : Ty := .container (.cons "a" (.list shape 4) (.cons "b" (.bitlist 9) .nil))

/-- `[1, 2]` -/
def short : shape.Val := .inr (.inr (.inl ([1, 2] : List (BitVec 8))))

/-- `[1, 2, 0]` -/
def long : shape.Val := .inr (.inr (.inl ([1, 2, 0] : List (BitVec 8))))

/-- 300 -/
def number : shape.Val := .inr (.inl (300 : BitVec 16))

example : shape.cmp short long = .lt ∧ shape.cmp number short = .lt ∧ shape.eq short short = true ∧
    shape.eq short long = false ∧ sortKey shape number = [1, 300] ∧
    sortKey shape short = [2, 1, 1, 1, 2, 0] := by decide +kernel

example : Legal shape ∧ Fits shape ∧ Valid shape short ∧ Valid shape long :=
  ⟨⟨⟨rfl, by decide, by decide⟩, trivial, trivial, trivial⟩, ⟨trivial, trivial, trivial⟩,
    ⟨by decide, fun _ _ => trivial⟩, ⟨by decide, fun _ _ => trivial⟩⟩

/-- Equal values with different unused storage bits. -/
example : ty.eq ([short], ⟨[true], [false, false, false, false, false, false, false]⟩, ())
      ([short], ⟨[true], [true, false, false, false, false, false, false]⟩, ()) = true ∧
    ty.cmp ([short], ⟨[true], [false, false, false, false, false, false, false]⟩, ())
      ([short], ⟨[true, false], [false, false, false, false, false, false]⟩, ()) = .lt := by
  decide +kernel

end Compared

end Ssz
