import Verif.Proofs.Size
import Verif.Spec.SizeRange

/-!
# The range of lengths of encodings
-/

namespace Ssz

open Spec

theorem slot_mono {t : Ty} {m n : Nat} (h : m ≤ n) : slot t m ≤ slot t n := by
  unfold slot
  split <;> omega

theorem assemble_cons_slot (t : Ty) (p : Bytes) (ps : List Piece) :
    (assemble ((isVar t, p) :: ps)).length = slot t p.length + (assemble ps).length := by
  rw [assemble_cons_length, slot]
  split <;> omega

theorem assemble_range {t : Ty} {a b : Nat} : ∀ {vs : List t.Val},
    (∀ x ∈ vs, a ≤ (enc t x).length ∧ (enc t x).length ≤ b) →
    vs.length * slot t a ≤ (assemble (vs.map fun x => (isVar t, enc t x))).length ∧
      (assemble (vs.map fun x => (isVar t, enc t x))).length ≤ vs.length * slot t b
  | [], _ => by simp [assemble_nil_length]
  | x :: vs, h => by
    obtain ⟨h1, h2⟩ := assemble_range (vs := vs) (fun y hy => h y (List.mem_cons_of_mem _ hy))
    obtain ⟨h3, h4⟩ := h x (List.mem_cons_self ..)
    rw [List.map_cons, assemble_cons_slot, List.length_cons, Nat.succ_mul, Nat.succ_mul]
    have := slot_mono (t := t) h3
    have := slot_mono (t := t) h4
    omega

mutual

theorem enc_range : ∀ (t : Ty) (v : t.Val), Valid t v →
    minSize t ≤ (enc t v).length ∧ (enc t v).length ≤ maxSize t
  | .uint _, v, _ => by simp [enc, minSize, maxSize]
  | .u256, v, _ => by simp [enc, minSize, maxSize]
  | .bool, v, _ => by simp [enc, minSize, maxSize]
  | .node, v, _ => by simp [enc, minSize, maxSize, v.2]
  | .array t n, v, h => by
    have := assemble_range (fun x hx => enc_range t x (h x hx))
    rw [v.2] at this
    exact this
  | .vector t n, v, h => by
    obtain ⟨h1, h2⟩ := h
    have := assemble_range (fun x hx => enc_range t x (h2 x hx))
    rw [h1] at this
    exact this
  | .list t n, v, h => by
    obtain ⟨h1, h2⟩ := h
    have := assemble_range (fun x hx => enc_range t x (h2 x hx))
    exact ⟨Nat.zero_le _, Nat.le_trans this.2 (Nat.mul_le_mul_right _ h1)⟩
  | .bitvector n, v, h => by
    have h : v.live.length = n := h
    simp only [enc, minSize, maxSize, packBits_length, h, Nat.le_refl, and_self]
  | .bitlist n, v, h => by
    have h : v.live.length ≤ n := h.1
    simp only [enc, minSize, maxSize, packBits_length, List.length_append, List.length_singleton]
    omega
  | .option t, v, h => by
    match v, h with
    | none, _ => simp [enc, minSize, maxSize]
    | some x, h =>
      have := enc_range t x (h x rfl)
      simp only [enc, minSize, maxSize, List.length_cons]
      omega
  | .newtype t, v, h => enc_range t v h
  | .container fs, v, h => piecesF_range fs v h
  | .union vs, v, h => by
    obtain ⟨m, hm, h1, M, hM, h2⟩ := encV_range vs 0 v h
    simp only [enc, minSize, maxSize]
    constructor
    · cases hx : (minSizesV vs).min? with
      | none => exact Nat.zero_le _
      | some k => exact Nat.le_trans ((List.min?_eq_some_iff.1 hx).2 m hm) h1
    · cases hx : (maxSizesV vs).max? with
      | none =>
        rw [List.max?_eq_none_iff] at hx
        rw [hx] at hM
        cases hM
      | some k => exact Nat.le_trans h2 ((List.max?_eq_some_iff.1 hx).2 M hM)

theorem piecesF_range : ∀ (fs : Fields) (v : fs.Val), ValidF fs v →
    minSizeF fs ≤ (assemble (piecesF fs v)).length ∧ (assemble (piecesF fs v)).length ≤ maxSizeF fs
  | .nil, _, _ => ⟨Nat.le_refl _, Nat.le_refl _⟩
  | .cons _ t rest, v, h => by
    obtain ⟨h1, h2⟩ := piecesF_range rest v.2 h.2
    obtain ⟨h3, h4⟩ := enc_range t v.1 h.1
    simp only [piecesF, minSizeF, maxSizeF]
    rw [assemble_cons_slot]
    have := slot_mono (t := t) h3
    have := slot_mono (t := t) h4
    omega

theorem encV_range : ∀ (vs : Variants) (i : Nat) (v : vs.Val), ValidV vs v →
    ∃ m ∈ minSizesV vs, m ≤ (encV vs i v).length ∧
      ∃ M ∈ maxSizesV vs, (encV vs i v).length ≤ M
  | .nil, _, v, _ => Empty.elim v
  | .unit _, i, .inl _, _ => ⟨1, List.mem_cons_self .., Nat.le_refl _, 1, List.mem_cons_self ..,
      Nat.le_refl _⟩
  | .unit rest, i, .inr v, h => by
    obtain ⟨m, hm, h1, M, hM, h2⟩ := encV_range rest (i + 1) v h
    exact ⟨m, List.mem_cons_of_mem _ hm, h1, M, List.mem_cons_of_mem _ hM, h2⟩
  | .data t _, i, .inl v, h => by
    obtain ⟨h1, h2⟩ := enc_range t v h
    refine ⟨1 + minSize t, List.mem_cons_self .., ?_, 1 + maxSize t, List.mem_cons_self .., ?_⟩
    · simp only [encV, List.length_cons]; omega
    · simp only [encV, List.length_cons]; omega
  | .data _ rest, i, .inr v, h => by
    obtain ⟨m, hm, h1, M, hM, h2⟩ := encV_range rest (i + 1) v h
    exact ⟨m, List.mem_cons_of_mem _ hm, h1, M, List.mem_cons_of_mem _ hM, h2⟩

end

theorem assemble_replicate {t : Ty} {a : Nat} {x : t.Val} (h : (enc t x).length = a) : ∀ n : Nat,
    (assemble ((List.replicate n x).map fun x => (isVar t, enc t x))).length = n * slot t a
  | 0 => by simp [assemble_nil_length]
  | n + 1 => by
    rw [List.replicate_succ, List.map_cons, assemble_cons_slot, assemble_replicate h n, h,
      Nat.succ_mul]
    omega

/-- Clear bits. -/
def zeroBits (n : Nat) : Bits := ⟨List.replicate n false, padBits n⟩

theorem min_of_mem {l : List Nat} (h : l ≠ []) : l.min?.getD 0 ∈ l := by
  cases hx : l.min? with
  | none => exact absurd (List.min?_eq_none_iff.1 hx) h
  | some k => exact (List.min?_eq_some_iff.1 hx).1

theorem max_of_mem {l : List Nat} (h : l ≠ []) : l.max?.getD 0 ∈ l := by
  cases hx : l.max? with
  | none => exact absurd (List.max?_eq_none_iff.1 hx) h
  | some k => exact (List.max?_eq_some_iff.1 hx).1

theorem sizes_ne_nil {vs : Variants} (h : unionShape vs) :
    minSizesV vs ≠ [] ∧ maxSizesV vs ≠ [] := by
  cases vs with
  | nil => exact h.elim
  | unit _ => simp [minSizesV, maxSizesV]
  | data _ _ => simp [minSizesV, maxSizesV]

mutual

theorem min_attained : ∀ t : Ty, Legal t → ∃ v : t.Val, Valid t v ∧ (enc t v).length = minSize t
  | .uint u, _ => ⟨(0 : BitVec u.bits), trivial, by simp [enc, minSize]⟩
  | .u256, _ => ⟨(0 : BitVec 256), trivial, by simp [enc, minSize]⟩
  | .bool, _ => ⟨false, trivial, by simp [enc, minSize]⟩
  | .node, _ => ⟨zeroNode, trivial, by simp [enc, minSize, zeroNode.2]⟩
  | .array t n, hl => by
    obtain ⟨x, hx, he⟩ := min_attained t hl.2
    exact ⟨⟨List.replicate n x, List.length_replicate⟩, fun y hy => by
      rw [List.eq_of_mem_replicate hy]; exact hx, assemble_replicate he n⟩
  | .vector t n, hl => by
    obtain ⟨x, hx, he⟩ := min_attained t hl.2
    exact ⟨List.replicate n x, ⟨List.length_replicate, fun y hy => by
      rw [List.eq_of_mem_replicate hy]; exact hx⟩, assemble_replicate he n⟩
  | .list t n, _ => ⟨([] : List t.Val), ⟨Nat.zero_le _, fun _ h => nomatch h⟩, rfl⟩
  | .bitvector n, _ => ⟨zeroBits n, List.length_replicate, by
      simp [enc, minSize, packBits_length, zeroBits]⟩
  | .bitlist n, _ => ⟨zeroBits 0, ⟨Nat.zero_le _, rfl⟩, by
      simp [enc, minSize, packBits_length, zeroBits]⟩
  | .option t, _ => ⟨(none : Option t.Val), (fun _ h => nomatch h), by simp [enc, minSize]⟩
  | .newtype t, hl => min_attained t hl
  | .container fs, hl => min_attainedF fs hl.2.2
  | .union vs, hl => min_attainedV vs 0 hl.2 _ (min_of_mem (sizes_ne_nil hl.1).1)

theorem min_attainedF : ∀ fs : Fields, LegalF fs → ∃ v : fs.Val, ValidF fs v ∧
    (assemble (piecesF fs v)).length = minSizeF fs
  | .nil, _ => ⟨(), trivial, rfl⟩
  | .cons _ t rest, hl => by
    obtain ⟨x, hx, he⟩ := min_attained t hl.1
    obtain ⟨y, hy, he'⟩ := min_attainedF rest hl.2
    refine ⟨(x, y), ⟨hx, hy⟩, ?_⟩
    simp only [piecesF, minSizeF]
    rw [assemble_cons_slot, he, he']

theorem min_attainedV : ∀ (vs : Variants) (i : Nat), LegalV vs → ∀ n ∈ minSizesV vs,
    ∃ v : vs.Val, ValidV vs v ∧ (encV vs i v).length = n
  | .nil, _, _, n, h => nomatch h
  | .unit rest, i, hl, n, h => by
    rcases List.mem_cons.1 h with rfl | h
    · exact ⟨.inl (), trivial, rfl⟩
    · obtain ⟨v, hv, he⟩ := min_attainedV rest (i + 1) hl n h
      exact ⟨.inr v, hv, he⟩
  | .data t rest, i, hl, n, h => by
    rcases List.mem_cons.1 h with rfl | h
    · obtain ⟨x, hx, he⟩ := min_attained t hl.1
      exact ⟨.inl x, hx, by simp only [encV, List.length_cons]; omega⟩
    · obtain ⟨v, hv, he⟩ := min_attainedV rest (i + 1) hl.2 n h
      exact ⟨.inr v, hv, he⟩

end

mutual

theorem max_attained : ∀ t : Ty, Legal t → ∃ v : t.Val, Valid t v ∧ (enc t v).length = maxSize t
  | .uint u, _ => ⟨(0 : BitVec u.bits), trivial, by simp [enc, maxSize]⟩
  | .u256, _ => ⟨(0 : BitVec 256), trivial, by simp [enc, maxSize]⟩
  | .bool, _ => ⟨false, trivial, by simp [enc, maxSize]⟩
  | .node, _ => ⟨zeroNode, trivial, by simp [enc, maxSize, zeroNode.2]⟩
  | .array t n, hl => by
    obtain ⟨x, hx, he⟩ := max_attained t hl.2
    exact ⟨⟨List.replicate n x, List.length_replicate⟩, fun y hy => by
      rw [List.eq_of_mem_replicate hy]; exact hx, assemble_replicate he n⟩
  | .vector t n, hl => by
    obtain ⟨x, hx, he⟩ := max_attained t hl.2
    exact ⟨List.replicate n x, ⟨List.length_replicate, fun y hy => by
      rw [List.eq_of_mem_replicate hy]; exact hx⟩, assemble_replicate he n⟩
  | .list t n, hl => by
    obtain ⟨x, hx, he⟩ := max_attained t hl
    exact ⟨List.replicate n x, ⟨Nat.le_of_eq List.length_replicate, fun y hy => by
      rw [List.eq_of_mem_replicate hy]; exact hx⟩, assemble_replicate he n⟩
  | .bitvector n, _ => ⟨zeroBits n, List.length_replicate, by
      simp [enc, maxSize, packBits_length, zeroBits]⟩
  | .bitlist n, _ => ⟨zeroBits n, ⟨Nat.le_of_eq List.length_replicate, by simp [zeroBits]⟩, by
      simp only [enc, maxSize, packBits_length, zeroBits, List.length_append, List.length_replicate,
        List.length_singleton]
      omega⟩
  | .option t, hl => by
    obtain ⟨x, hx, he⟩ := max_attained t hl
    refine ⟨(some x : Option t.Val), fun y hy => by cases hy; exact hx, ?_⟩
    simp only [enc, maxSize, List.length_cons]
    omega
  | .newtype t, hl => max_attained t hl
  | .container fs, hl => max_attainedF fs hl.2.2
  | .union vs, hl => max_attainedV vs 0 hl.2 _ (max_of_mem (sizes_ne_nil hl.1).2)

theorem max_attainedF : ∀ fs : Fields, LegalF fs → ∃ v : fs.Val, ValidF fs v ∧
    (assemble (piecesF fs v)).length = maxSizeF fs
  | .nil, _ => ⟨(), trivial, rfl⟩
  | .cons _ t rest, hl => by
    obtain ⟨x, hx, he⟩ := max_attained t hl.1
    obtain ⟨y, hy, he'⟩ := max_attainedF rest hl.2
    refine ⟨(x, y), ⟨hx, hy⟩, ?_⟩
    simp only [piecesF, maxSizeF]
    rw [assemble_cons_slot, he, he']

theorem max_attainedV : ∀ (vs : Variants) (i : Nat), LegalV vs → ∀ n ∈ maxSizesV vs,
    ∃ v : vs.Val, ValidV vs v ∧ (encV vs i v).length = n
  | .nil, _, _, n, h => nomatch h
  | .unit rest, i, hl, n, h => by
    rcases List.mem_cons.1 h with rfl | h
    · exact ⟨.inl (), trivial, rfl⟩
    · obtain ⟨v, hv, he⟩ := max_attainedV rest (i + 1) hl n h
      exact ⟨.inr v, hv, he⟩
  | .data t rest, i, hl, n, h => by
    rcases List.mem_cons.1 h with rfl | h
    · obtain ⟨x, hx, he⟩ := max_attained t hl.1
      exact ⟨.inl x, hx, by simp only [encV, List.length_cons]; omega⟩
    · obtain ⟨v, hv, he⟩ := max_attainedV rest (i + 1) hl.2 n h
      exact ⟨.inr v, hv, he⟩

end

end Ssz
