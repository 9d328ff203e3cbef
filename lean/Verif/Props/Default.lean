import Verif.Proofs.Accept
import Verif.Model.Default

/-!
# Property C55: default values
-/

namespace Ssz

open Spec

mutual

/-- Building the default needs a `Vector` or `Bitvector` of length zero. (An enum without variants has
no default.) -/
def ZeroLength : Ty → Prop
  | .array t n => n ≠ 0 ∧ ZeroLength t
  | .vector t n => n = 0 ∨ ZeroLength t
  | .bitvector n => n = 0
  | .newtype t => ZeroLength t
  | .container fs => ZeroLengthF fs
  | .union .nil => True
  | .union (.data t _) => ZeroLength t
  | _ => False

/-- `ZeroLength` for a field of a struct. -/
def ZeroLengthF : Fields → Prop
  | .nil => False
  | .cons _ t rest => ZeroLength t ∨ ZeroLengthF rest

end

theorem vector_default {α : Type} {n : Nat} (hn : n ≠ 0) (d : α) :
    SszVector.default n d = .ok (List.replicate n d) := by
  simp [SszVector.default, SszVector.tryFromVec, hn]

theorem calc_cases {α : Type} (r : Calc α) : r = .panic ∨ ∃ x, r = .ok x :=
  match r with
  | .ok x => .inr ⟨x, rfl⟩
  | .panic => .inl rfl

theorem calc_bind_panic {α β : Type} {r : Calc α} {f : α → Calc β} :
    (r >>= f) = .panic ↔ r = .panic ∨ ∃ x, r = .ok x ∧ f x = .panic := by
  rcases calc_cases r with rfl | ⟨x, rfl⟩
  · simp
  · simp

mutual

/-- C55: `default()` panics exactly if it needs a `Vector` or `Bitvector` of length zero. -/
theorem C55_panics_iff : ∀ t : Ty, t.default = .panic ↔ ZeroLength t
  | .uint _ => ⟨fun h => (nomatch h), False.elim⟩
  | .u256 => ⟨fun h => (nomatch h), False.elim⟩
  | .bool => ⟨fun h => (nomatch h), False.elim⟩
  | .node => ⟨fun h => (nomatch h), False.elim⟩
  | .array t n => by
    unfold Ty.default ZeroLength
    by_cases h : n = 0
    · simp [h]
    · simp [h, calc_bind_panic, C55_panics_iff t]
  | .vector t n => by
    unfold Ty.default ZeroLength
    by_cases h : n = 0
    · simp [h]
    · rw [if_neg h, ← C55_panics_iff t]
      refine Iff.trans (calc_bind_panic (α := t.Val) (β := List t.Val)) ?_
      simp [h, vector_default h]
  | .list _ _ => ⟨fun h => (nomatch h), False.elim⟩
  | .bitvector n => by
    show (if n = 0 then Res.panic else Res.ok (Bits.repeatFalse n) : Calc Bits) = .panic ↔ n = 0
    split <;> simp [*]
  | .bitlist _ => ⟨fun h => (nomatch h), False.elim⟩
  | .option _ => ⟨fun h => (nomatch h), False.elim⟩
  | .newtype t => C55_panics_iff t
  | .container fs => default_panics_iff fs
  | .union .nil => ⟨fun _ => trivial, fun _ => rfl⟩
  | .union (.unit _) => ⟨fun h => (nomatch h), False.elim⟩
  | .union (.data t rest) => by
    unfold ZeroLength
    rw [← C55_panics_iff t]
    refine Iff.trans (calc_bind_panic (α := t.Val) (β := t.Val ⊕ rest.Val)) ?_
    simp

theorem default_panics_iff : ∀ fs : Fields, fs.default = .panic ↔ ZeroLengthF fs
  | .nil => ⟨fun h => (nomatch h), False.elim⟩
  | .cons _ t rest => by
    unfold Fields.default ZeroLengthF
    rw [calc_bind_panic, C55_panics_iff t]
    rcases calc_cases t.default with h | ⟨x, h⟩
    · rw [C55_panics_iff] at h
      simp [h]
    · have hz : ¬ ZeroLength t := by rw [← C55_panics_iff, h]; simp
      simp [h, hz, calc_bind_panic, default_panics_iff rest]

end

/-- All bytes are zero. -/
def Zeros (b : Bytes) : Prop := ∀ x ∈ b, x = 0

theorem zeros_leBytes (n : Nat) : Zeros (leBytes n 0) := by
  intro x hx
  obtain ⟨i, _, rfl⟩ := List.mem_map.1 hx
  simp

theorem zeros_packBits (n : Nat) : Zeros (Spec.packBits (List.replicate n false)) := by
  intro x hx
  obtain ⟨i, _, rfl⟩ := List.mem_map.1 hx
  have : ∀ k, (List.replicate n false).getD k false = false := by
    intro k
    rw [List.getD_eq_getElem?_getD, List.getElem?_replicate]
    split <;> rfl
  simp only [this]
  decide

theorem zeros_elements {t : Ty} {d : t.Val} {n : Nat} (hv : isVar t = false) (h : Zeros (enc t d)) :
    Zeros (assemble ((List.replicate n d).map fun x => (isVar t, enc t x))) := by
  rw [hv, assemble_fixed _ (by simp), List.flatMap_map]
  intro x hx
  obtain ⟨y, hy, hx⟩ := List.mem_flatMap.1 hx
  rw [List.eq_of_mem_replicate hy] at hx
  exact h x hx

theorem pieces_fixed : ∀ (fs : Fields) (v : fs.Val), isVarF fs = false → ∀ p ∈ piecesF fs v, p.1 = false
  | .nil, _, _, _, hp => nomatch hp
  | .cons _ t rest, v, hv, p, hp => by
    simp only [isVarF, Bool.or_eq_false_iff] at hv
    rcases List.mem_cons.1 hp with rfl | hp
    · exact hv.1
    · exact pieces_fixed rest v.2 hv.2 p hp

/-- What is claimed of a default value. -/
structure GoodDefault (t : Ty) (v : t.Val) : Prop where
  valid : Valid t v
  clean : norm t v = v
  zeros : isVar t = false → Zeros (enc t v)

mutual

theorem default_good : ∀ t : Ty, Legal t → ∃ v, t.default = .ok v ∧ GoodDefault t v
  | .uint u, _ => ⟨(0 : BitVec u.bits), rfl, trivial, rfl, fun _ => zeros_leBytes _⟩
  | .u256, _ => ⟨(0 : BitVec 256), rfl, trivial, rfl, fun _ => zeros_leBytes _⟩
  | .bool, _ => ⟨false, rfl, trivial, rfl, fun _ => by simp [Zeros, enc]⟩
  | .node, _ => ⟨zeroNode, rfl, trivial, rfl, fun _ => by simp [Zeros, enc, zeroNode]⟩
  | .array t n, hl => by
    obtain ⟨d, hd, h⟩ := default_good t hl.2
    refine ⟨⟨List.replicate n d, List.length_replicate⟩, ?_, ?_, ?_, fun hv => zeros_elements hv (h.zeros hv)⟩
    · unfold Ty.default
      rw [dif_neg (Nat.ne_of_gt hl.1), hd, Res.ok_bind]
    · intro x hx
      rw [List.eq_of_mem_replicate hx]
      exact h.valid
    · apply Subtype.ext
      show (List.replicate n d).map (norm t) = _
      rw [List.map_replicate, h.clean]
  | .vector t n, hl => by
    obtain ⟨d, hd, h⟩ := default_good t hl.2
    refine ⟨(List.replicate n d : List t.Val), ?_, ⟨List.length_replicate, ?_⟩, ?_,
      fun hv => zeros_elements hv (h.zeros hv)⟩
    · unfold Ty.default
      rw [if_neg (Nat.ne_of_gt hl.1), hd]
      exact vector_default (Nat.ne_of_gt hl.1) d
    · intro x hx
      rw [List.eq_of_mem_replicate hx]
      exact h.valid
    · show (List.replicate n d).map (norm t) = _
      rw [List.map_replicate, h.clean]
  | .list t n, _ =>
    ⟨([] : List t.Val), rfl, ⟨Nat.zero_le _, fun _ h => nomatch h⟩, rfl, fun h => nomatch h⟩
  | .bitvector n, hl =>
    ⟨Bits.repeatFalse n, if_neg (Nat.ne_of_gt hl), List.length_replicate,
      show (⟨_, padBits (List.replicate n false).length⟩ : Bits) = ⟨_, _⟩ by
        rw [List.length_replicate]; rfl,
      fun _ => zeros_packBits n⟩
  | .bitlist n, _ => ⟨Bits.new, rfl, ⟨Nat.zero_le _, rfl⟩, rfl, fun h => nomatch h⟩
  | .option t, _ => ⟨(none : Option t.Val), rfl, fun _ h => (nomatch h), rfl, fun h => (nomatch h)⟩
  | .newtype t, hl => by
    obtain ⟨d, hd, h⟩ := default_good t hl
    exact ⟨d, hd, h.valid, h.clean, h.zeros⟩
  | .container fs, hl => by
    obtain ⟨v, h1, h2, h3, h4⟩ := default_goodF fs hl.2.2
    exact ⟨v, h1, h2, h3, h4⟩
  | .union (.unit _), _ => ⟨.inl (), rfl, trivial, rfl, fun h => nomatch h⟩
  | .union (.data t rest), hl => by
    obtain ⟨d, hd, h⟩ := default_good t hl.2.1
    refine ⟨.inl d, ?_, h.valid, ?_, fun h => nomatch h⟩
    · unfold Ty.default Variants.default
      rw [hd]
      rfl
    · exact congrArg Sum.inl h.clean
  | .union .nil, hl => hl.1.elim

theorem default_goodF : ∀ fs : Fields, LegalF fs → ∃ v, fs.default = .ok v ∧ ValidF fs v ∧
    normF fs v = v ∧ (isVarF fs = false → Zeros (assemble (piecesF fs v)))
  | .nil, _ => ⟨(), rfl, trivial, rfl, fun _ x hx => nomatch hx⟩
  | .cons _ t rest, hl => by
    obtain ⟨d, hd, h⟩ := default_good t hl.1
    obtain ⟨v, h1, h2, h3, h4⟩ := default_goodF rest hl.2
    refine ⟨(d, v), ?_, ⟨h.valid, h2⟩, ?_, fun hv => ?_⟩
    · unfold Fields.default
      rw [hd, Res.ok_bind, h1, Res.ok_bind]
    · show (norm t d, normF rest v) = (d, v)
      rw [h.clean, h3]
    · simp only [isVarF, Bool.or_eq_false_iff] at hv
      have hf : ∀ p ∈ piecesF rest v, p.1 = false := pieces_fixed rest v hv.2
      show Zeros (assemble ((isVar t, enc t d) :: piecesF rest v))
      rw [hv.1, assemble_fixed _ (by simpa using hf), List.flatMap_cons, ← assemble_fixed _ hf]
      intro x hx
      rcases List.mem_append.1 hx with hx | hx
      · exact h.zeros hv.1 x hx
      · exact h4 hv.2 x hx

end

/-- C55: every legal type has a default; it is within bounds and has no unused bits set. -/
theorem C55_valid (t : Ty) (hl : Legal t) : ∃ v, t.default = .ok v ∧ Valid t v ∧ norm t v = v := by
  obtain ⟨v, h, g⟩ := default_good t hl
  exact ⟨v, h, g.valid, g.clean⟩

/-- C55: the default of a fixed-size type is the value encoded by zeros, and the only one. -/
theorem C55_zeros (E : Env) (t : Ty) (hl : Legal t) (hf : Fits t) (hv : isVar t = false)
    (hs : fixedLen t < 2 ^ 32) : ∃ v, t.default = .ok v ∧
      serialize (t.impl E).toSerializable v = .ok (List.replicate (fixedLen t) 0) ∧
      deserialize (t.impl E).toSerializable (List.replicate (fixedLen t) 0) = .ok v := by
  obtain ⟨v, h, g⟩ := default_good t hl
  have hlen := enc_length t v hv g.valid
  have henc : enc t v = List.replicate (fixedLen t) 0 :=
    List.eq_replicate_iff.2 ⟨hlen, g.zeros hv⟩
  have hsm : Small t v := small_of_length t v (by rw [hlen]; exact hs)
  refine ⟨v, h, ?_, ?_⟩
  · rw [← henc]
    exact serialize_enc E t v hl hf g.valid hsm
  · rw [← henc]
    exact (de_enc E t v hl hf g.valid hsm).trans (by rw [g.clean])

/-- `Vector<(u16, [bool; 2]), 3>`, and `Vector<u8, 0>` inside a struct. -/
example : Legal (.vector (.container (.cons "a" (.uint .u16) (.cons "b" (.array .bool 2) .nil))) 3) ∧
    ZeroLength (.container (.cons "a" (.uint .u16) (.cons "b" (.vector (.uint .u8) 0) .nil))) :=
  ⟨⟨by decide, by simp [namesF], by simp [namesF], trivial, ⟨by decide, trivial⟩, trivial⟩,
    .inr (.inl (.inl rfl))⟩

end Ssz
