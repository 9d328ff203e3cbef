import Verif.Model.Debug
import Mathlib.Tactic.Common

/-!
# Property C56: the `Debug` text of bit sequences
-/

namespace Ssz

/-- The digit for a bit. -/
def bitChar (b : Bool) : Char := if b then '1' else '0'

/-- Bits in groups of four, with an underscore between groups. -/
def grouped : List Bool → List Char
  | a :: b :: c :: d :: e :: rest =>
    [bitChar a, bitChar b, bitChar c, bitChar d, '_'] ++ grouped (e :: rest)
  | bits => bits.map bitChar

theorem debugBit_eq (b : Bool) : debugBit b = [bitChar b] := by cases b <;> rfl

theorem debugLoop_plain {len i w : Nat} {f : List Char} {b : Bool} {rest : List Bool}
    (h : ¬ ((w + 1) % 4 = 0 ∧ i ≠ len - 1)) :
    debugLoop len i w f (b :: rest) = debugLoop len (i + 1) (w + 1) (f ++ [bitChar b]) rest := by
  rw [debugLoop, debugBit_eq]
  rw [if_neg h]

theorem debugLoop_sep {len i w : Nat} {f : List Char} {b : Bool} {rest : List Bool}
    (h : (w + 1) % 4 = 0 ∧ i ≠ len - 1) :
    debugLoop len i w f (b :: rest) = debugLoop len (i + 1) (w + 1) (f ++ [bitChar b] ++ ['_']) rest := by
  rw [debugLoop, debugBit_eq]
  rw [if_pos h]

theorem debugLoop_grouped (len : Nat) : ∀ (bits : List Bool) (i : Nat) (f : List Char), i % 4 = 0 →
    i + bits.length = len → debugLoop len i i f bits = f ++ grouped bits
  | [], i, f, _, _ => by simp [debugLoop, grouped]
  | [a], i, f, h, hl => by
    rw [debugLoop_plain (by omega)]
    simp [debugLoop, grouped]
  | [a, b], i, f, h, hl => by
    rw [debugLoop_plain (by omega), debugLoop_plain (by omega)]
    simp [debugLoop, grouped]
  | [a, b, c], i, f, h, hl => by
    rw [debugLoop_plain (by omega), debugLoop_plain (by omega), debugLoop_plain (by omega)]
    simp [debugLoop, grouped]
  | [a, b, c, d], i, f, h, hl => by
    simp only [List.length_cons, List.length_nil] at hl
    rw [debugLoop_plain (by omega), debugLoop_plain (by omega), debugLoop_plain (by omega),
      debugLoop_plain (by omega)]
    simp [debugLoop, grouped]
  | a :: b :: c :: d :: e :: rest, i, f, h, hl => by
    simp only [List.length_cons] at hl
    rw [debugLoop_plain (by omega), debugLoop_plain (by omega), debugLoop_plain (by omega),
      debugLoop_sep (by omega), debugLoop_grouped len (e :: rest) _ _ (by omega)
        (by simp only [List.length_cons]; omega)]
    simp [grouped]

/-- The bits read back from the text: underscores are skipped. -/
def ungroup (cs : List Char) : List Bool := (cs.filter (· ≠ '_')).map (· == '1')

theorem ungroup_map (bits : List Bool) : ungroup (bits.map bitChar) = bits := by
  induction bits with
  | nil => rfl
  | cons a bits ih => 
    have : ungroup (bitChar a :: bits.map bitChar) = a :: ungroup (bits.map bitChar) := by
      cases a <;> rfl
    rw [List.map_cons, this, ih]

theorem ungroup_grouped (bits : List Bool) : ungroup (grouped bits) = bits := by
  fun_induction grouped bits with
  | case1 a b c d e rest ih =>
    have : ungroup ([bitChar a, bitChar b, bitChar c, bitChar d, '_'] ++ grouped (e :: rest)) =
        a :: b :: c :: d :: ungroup (grouped (e :: rest)) := by
      cases a <;> cases b <;> cases c <;> cases d <;> rfl
    rw [this, ih]
  | case2 bits h => exact ungroup_map bits

/-- C56: the `Debug` text shows the length, the capacity, and the bits in groups of four. -/
theorem C56_text (n : Nat) (b : Bits) :
    Bitlist.debug n b = "Bitlist<len=".toList ++ (toString b.live.length).toList ++ ", cap=".toList ++
      (toString n).toList ++ ">[".toList ++ grouped b.live ++ "]".toList ∧
    Bitvector.debug n b = "Bitvector<".toList ++ (toString n).toList ++ ">[".toList ++ grouped b.live ++
      "]".toList := by
  unfold Bitlist.debug Bitvector.debug
  simp only
  rw [debugLoop_grouped _ _ 0 _ rfl (Nat.zero_add _), debugLoop_grouped _ _ 0 _ rfl (Nat.zero_add _)]
  exact ⟨rfl, rfl⟩

theorem grouped_no_bracket (bits : List Bool) : ∀ c ∈ grouped bits, c ≠ '[' := by
  have hb : ∀ b, bitChar b ≠ '[' := by decide
  fun_induction grouped bits with
  | case1 a b c d e rest ih =>
    intro x hx
    simp only [List.mem_append, List.mem_cons, List.not_mem_nil, or_false] at hx
    rcases hx with (rfl | rfl | rfl | rfl | rfl) | hx
    · exact hb _
    · exact hb _
    · exact hb _
    · exact hb _
    · decide
    · exact ih x hx
  | case2 bits h =>
    intro x hx
    obtain ⟨b, _, rfl⟩ := List.mem_map.1 hx
    exact hb b

/-- The bits read back from the whole text: what stands between the last `[` and the end. -/
def readBits (cs : List Char) : List Bool :=
  ungroup ((cs.reverse.drop 1).takeWhile (· ≠ '[')).reverse

theorem readBits_eq (pre : List Char) (bits : List Bool) :
    readBits (pre ++ ">[".toList ++ grouped bits ++ "]".toList) = bits := by
  have h : (pre ++ ">[".toList ++ grouped bits ++ "]".toList).reverse.drop 1 =
      (grouped bits).reverse ++ ('[' :: ('>' :: pre.reverse)) := by simp
  unfold readBits
  rw [h, List.takeWhile_append_of_pos, List.takeWhile_cons_of_neg (by simp), List.append_nil,
    List.reverse_reverse, ungroup_grouped]
  intro c hc
  simpa using grouped_no_bracket bits c (by simpa using hc)

/-- C56: the text determines the bits. -/
theorem C56_injective (n : Nat) (b c : Bits) :
    (Bitlist.debug n b = Bitlist.debug n c ↔ b.live = c.live) ∧
    (Bitvector.debug n b = Bitvector.debug n c ↔ b.live = c.live) := by
  rw [(C56_text n b).1, (C56_text n b).2, (C56_text n c).1, (C56_text n c).2]
  refine ⟨⟨fun h => ?_, fun h => by rw [h]⟩, ⟨fun h => ?_, fun h => by rw [h]⟩⟩
  · simpa only [readBits_eq] using congrArg readBits h
  · simpa only [readBits_eq] using congrArg readBits h

/-- Nine bits make three groups. -/
example : Bitlist.debug 12 ⟨[true, false, true, true, false, false, false, true, true], []⟩ =
    "Bitlist<len=9, cap=12>[1011_0001_1]".toList := by decide

end Ssz
