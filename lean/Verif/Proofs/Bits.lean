import Verif.Proofs.Basics
import Mathlib.Data.List.Induction

/-!
# Lemmas on bit packing, `Bitvector` and `Bitlist`
-/

namespace Ssz

theorem bool_toNat_add_mod (b : Bool) (n : Nat) : (b.toNat + 2 * n) % 2 = b.toNat := by
  cases b <;> simp

theorem bool_toNat_add_div (b : Bool) (n : Nat) : (b.toNat + 2 * n) / 2 = n := by
  cases b
  · simp
  · simp; omega

theorem natOfBits_testBit (l : List Bool) (i : Nat) :
    (natOfBits l).testBit i = l.getD i false := by
  induction l generalizing i with
  | nil => simp [natOfBits]
  | cons b bs ih =>
    cases i with
    | zero => simp only [natOfBits, Nat.testBit_zero, bool_toNat_add_mod]; cases b <;> simp
    | succ i => simp only [natOfBits, Nat.testBit_add_one, bool_toNat_add_div, ih]; simp

theorem byteOfBits_getLsbD (l : List Bool) (i : Nat) (h : i < 8) :
    (byteOfBits l).getLsbD i = l.getD i false := by
  rw [byteOfBits, BitVec.getLsbD_ofNat, natOfBits_testBit]
  simp [h]

@[simp] theorem bitsOfByte_length (b : Byte) : (bitsOfByte b).length = 8 := by simp [bitsOfByte]

theorem bitsOfByte_getD (b : Byte) (i : Nat) : (bitsOfByte b).getD i false = b.getLsbD i := by
  by_cases h : i < 8
  · simp [bitsOfByte, List.getD, h]
  · simp only [bitsOfByte, List.getD]
    rw [List.getElem?_eq_none (by simp; omega), BitVec.getLsbD_of_ge _ _ (by omega)]
    rfl

theorem byteOfBits_bitsOfByte (b : Byte) : byteOfBits (bitsOfByte b) = b := by
  apply BitVec.eq_of_getLsbD_eq
  intro i hi
  rw [byteOfBits_getLsbD _ _ hi, bitsOfByte_getD]

theorem bitsOfByte_byteOfBits (l : List Bool) (h : l.length ≤ 8) :
    bitsOfByte (byteOfBits l) = l ++ List.replicate (8 - l.length) false := by
  apply List.ext_getElem
  · simp; omega
  · intro i h1 h2
    simp only [bitsOfByte_length] at h1
    simp only [bitsOfByte, List.getElem_map, List.getElem_range]
    rw [byteOfBits_getLsbD _ _ h1]
    by_cases hi : i < l.length
    · simp [List.getElem_append_left hi, List.getD, hi]
    · rw [List.getElem_append_right (by omega)]
      simp [List.getD, hi]

theorem natOfBits_append_false (l : List Bool) (k : Nat) :
    natOfBits (l ++ List.replicate k false) = natOfBits l := by
  induction l with
  | nil =>
    induction k with
    | zero => rfl
    | succ k ih => simp only [List.nil_append, natOfBits] at ih ⊢; simp [List.replicate_succ, natOfBits, ih]
  | cons b l ih => simp only [List.cons_append, natOfBits, ih]

theorem byteOfBits_append_false (l : List Bool) (k : Nat) :
    byteOfBits (l ++ List.replicate k false) = byteOfBits l := by
  simp [byteOfBits, natOfBits_append_false]

theorem sum_map_mul_two (f : Nat → Nat) (l : List Nat) :
    (l.map fun i => 2 * f i).sum = 2 * (l.map f).sum := by
  induction l with
  | nil => rfl
  | cons a l ih => simp only [List.map_cons, List.sum_cons, ih]; omega

theorem natOfBits_eq_sum (k : Nat) (l : List Bool) :
    natOfBits (l.take k) =
      ((List.range k).map fun i => if l.getD i false then 2 ^ i else 0).sum := by
  induction k generalizing l with
  | zero => simp [natOfBits]
  | succ k ih =>
    rw [List.range_succ_eq_map]
    simp only [List.map_cons, List.map_map, List.sum_cons]
    cases l with
    | nil =>
      have := ih []
      simp [natOfBits] at this ⊢
      induction k <;> simp_all [Function.comp_def]
    | cons b l =>
      simp only [List.take_succ_cons, natOfBits, ih l]
      rw [← sum_map_mul_two]
      have : ((fun i => if (b :: l).getD i false = true then 2 ^ i else 0) ∘ Nat.succ) =
          fun i => 2 * (if l.getD i false = true then 2 ^ i else 0) := by
        funext i
        simp only [Function.comp, Nat.succ_eq_add_one, List.getD_cons_succ]
        split <;> simp [Nat.pow_succ]; omega
      rw [this]
      cases b <;> simp

theorem packBits_nil : Spec.packBits [] = [] := rfl

theorem packBits_cons (l : List Bool) (h : l ≠ []) :
    Spec.packBits l = byteOfBits (l.take 8) :: Spec.packBits (l.drop 8) := by
  have hl : 0 < l.length := List.length_pos_iff.mpr h
  have hc : (l.length + 7) / 8 = ((l.drop 8).length + 7) / 8 + 1 := by
    simp only [List.length_drop]; omega
  rw [Spec.packBits, Spec.packBits, hc,
    List.range_succ_eq_map (n := ((l.drop 8).length + 7) / 8), List.map_cons, List.map_map]
  congr 1
  · rw [byteOfBits, natOfBits_eq_sum]; simp
  · apply List.map_congr_left
    intro j _
    simp only [Function.comp]
    congr 2
    apply List.map_congr_left
    intro i _
    have : 8 * (j + 1) + i = 8 + (8 * j + i) := by omega
    simp only [List.getD, Nat.succ_eq_add_one, List.getElem?_drop, this]

theorem chunks8_map (l : List Bool) : (chunks8 l).map byteOfBits = Spec.packBits l := by
  induction h : l.length using Nat.strongRecOn generalizing l with
  | ind n ih =>
    rw [chunks8]
    split
    · rename_i h0; subst h0; rfl
    · rename_i h0
      have : 0 < l.length := List.length_pos_iff.mpr h0
      rw [List.map_cons, packBits_cons l h0, ih (l.drop 8).length (by simp; omega) _ rfl]

theorem packBits_append_pad (l : List Bool) :
    Spec.packBits (l ++ Spec.padBits l.length) = Spec.packBits l := by
  induction h : l.length using Nat.strongRecOn generalizing l with
  | ind n ih =>
    subst h
    by_cases h0 : l = []
    · subst h0; rfl
    · have h1 : 0 < l.length := List.length_pos_iff.mpr h0
      rw [packBits_cons _ (by simp [h0]), packBits_cons l h0]
      by_cases h8 : 8 ≤ l.length
      · have h2 := ih (l.drop 8).length (by simp; omega) _ rfl
        have h3 : Spec.padBits (l.drop 8).length = Spec.padBits l.length := by
          simp only [Spec.padBits, List.length_drop]; congr 2; omega
        rw [h3] at h2
        rw [List.take_append_of_le_length h8, List.drop_append_of_le_length h8, h2]
      · have h2 : (l ++ Spec.padBits l.length).length = 8 := by
          simp [Spec.padBits]; omega
        rw [List.take_of_length_le (by omega), List.drop_eq_nil_of_le (by omega),
          List.take_of_length_le (by omega), List.drop_eq_nil_of_le (by omega)]
        rw [Spec.padBits, byteOfBits_append_false]

theorem packBits_flatMap (bs : Bytes) (rest : List Bool) :
    Spec.packBits (bs.flatMap bitsOfByte ++ rest) = bs ++ Spec.packBits rest := by
  induction bs with
  | nil => rfl
  | cons b bs ih =>
    rw [packBits_cons _ (by
      intro h
      have := congrArg List.length h
      simp at this)]
    simp only [List.flatMap_cons, List.append_assoc, List.cons_append]
    rw [List.take_left' (by simp), List.drop_left' (by simp), byteOfBits_bitsOfByte, ih]

theorem packBits_length (l : List Bool) : (Spec.packBits l).length = (l.length + 7) / 8 := by
  simp [Spec.packBits]

theorem packBits_single (l : List Bool) (h0 : l ≠ []) (h : l.length ≤ 8) :
    Spec.packBits l = [byteOfBits l] := by
  rw [packBits_cons l h0, List.take_of_length_le h, List.drop_eq_nil_of_le h, packBits_nil]

theorem packBits_append8 (a b : List Bool) (h : a.length % 8 = 0) :
    Spec.packBits (a ++ b) = Spec.packBits a ++ Spec.packBits b := by
  induction hn : a.length using Nat.strongRecOn generalizing a with
  | ind n ih =>
    subst hn
    by_cases h0 : a = []
    · subst h0; rfl
    · have h1 : 0 < a.length := List.length_pos_iff.mpr h0
      rw [packBits_cons _ (by simp [h0]), packBits_cons a h0,
        List.take_append_of_le_length (by omega), List.drop_append_of_le_length (by omega),
        ih (a.drop 8).length (by simp; omega) _ (by simp; omega) rfl]
      rfl

/-! ## `Bits` operations -/

/-- The unused storage bits are clear. -/
def Bits.Clean (b : Bits) : Prop := b.dead = Spec.padBits b.live.length

theorem Bits.clean_new : Bits.new.Clean := rfl

theorem Bits.clean_repeatFalse (n : Nat) : (Bits.repeatFalse n).Clean := by
  simp [Bits.Clean, Bits.repeatFalse, Spec.padBits]

theorem Bits.push_clean {b : Bits} (h : b.Clean) (x : Bool) :
    b.push x = ⟨b.live ++ [x], Spec.padBits (b.live.length + 1)⟩ := by
  obtain ⟨live, dead⟩ := b
  simp only [Bits.Clean] at h
  subst h
  simp only [Bits.push, Spec.padBits]
  rcases Nat.lt_or_ge (live.length % 8) 1 with h | h
  · have h1 : (8 - live.length % 8) % 8 = 0 := by omega
    have h2 : (8 - (live.length + 1) % 8) % 8 = 7 := by omega
    rw [h1, h2]; rfl
  · have h1 : (8 - live.length % 8) % 8 = (8 - (live.length + 1) % 8) % 8 + 1 := by omega
    rw [h1]; rfl

theorem Bits.extend_clean {b : Bits} (h : b.Clean) (xs : List Bool) :
    b.extend xs = ⟨b.live ++ xs, Spec.padBits (b.live.length + xs.length)⟩ := by
  induction xs generalizing b with
  | nil =>
    simp only [Bits.extend, List.foldl_nil, List.append_nil, List.length_nil, Nat.add_zero]
    cases b; simp only [Bits.Clean] at h; simp [h]
  | cons x xs ih =>
    simp only [Bits.extend, List.foldl_cons] at ih ⊢
    rw [Bits.push_clean h, ih (by simp [Bits.Clean])]
    simp only [List.append_assoc, List.length_append, List.length_cons, List.length_nil,
      List.singleton_append, Bits.mk.injEq, true_and]
    congr 1; omega

theorem Bits.rawSlice_clean {b : Bits} (h : b.Clean) : b.rawSlice = Spec.packBits b.live := by
  rw [Bits.rawSlice, chunks8_map]
  simp only [Bits.Clean] at h
  rw [h, packBits_append_pad]

/-! ## Serialization of `Bitvector` -/

theorem Bitvector.serialize_eq {n : Nat} (hn : 0 < n) {v : Bits} (h : v.live.length = n)
    (buf : Bytes) :
    Bitvector.serialize n v buf =
      (buf ++ Spec.packBits v.live, .ok (Spec.packBits v.live).length) := by
  have h0 : n ≠ 0 := by omega
  simp only [Bitvector.serialize, h0, if_false]
  rw [BufM.bind_ok (BufM.append_apply _ _), chunks8_map, packBits_length, h]
  rfl

theorem chunks8_length_pos {l : List Bool} : ∀ c ∈ chunks8 l, 0 < c.length ∧ c.length ≤ 8 := by
  induction h : l.length using Nat.strongRecOn generalizing l with
  | ind n ih =>
    subst h
    rw [chunks8]
    split
    · simp
    · rename_i h0
      have : 0 < l.length := List.length_pos_iff.mpr h0
      intro c hc
      rcases List.mem_cons.mp hc with h | h
      · subst h; simp; omega
      · exact ih (l.drop 8).length (by simp; omega) rfl c h

theorem storeBytes_packBits (n : Nat) (l : List Bool) (h : l.length = n) :
    storeBytes (chunks8 (List.replicate n false)) (Spec.packBits l) = l := by
  induction n using Nat.strongRecOn generalizing l with
  | ind n ih =>
    by_cases h0 : l = []
    · subst h0; simp at h; subst h
      simp [chunks8, packBits_nil, storeBytes]
    · have h1 : 0 < l.length := List.length_pos_iff.mpr h0
      rw [chunks8, dif_neg (by simp; omega), packBits_cons l h0, storeBytes, List.drop_replicate,
        ih (n - 8) (by omega) _ (by simp; omega)]
      rw [bitsOfByte_byteOfBits _ (by simp; omega)]
      rw [List.take_replicate, List.length_replicate]
      rw [List.take_append_of_le_length (by simp; omega), List.take_take]
      have : min (min 8 n) 8 = min 8 n := by omega
      rw [this]
      by_cases h8 : 8 ≤ n
      · rw [Nat.min_eq_left h8, List.take_append_drop]
      · rw [Nat.min_eq_right (by omega), List.take_of_length_le (by omega),
          List.drop_eq_nil_of_le (by omega), List.append_nil]

theorem byte_shiftRight_eq_zero (b : Byte) (k : Nat) :
    b >>> k = 0 ↔ ∀ i, k ≤ i → i < 8 → b.getLsbD i = false := by
  constructor
  · intro h i hk hi
    have := congrArg (fun x => x.getLsbD (i - k)) h
    simp only [BitVec.getLsbD_ushiftRight] at this
    have h2 : k + (i - k) = i := by omega
    rw [h2] at this
    simpa using this
  · intro h
    apply BitVec.eq_of_getLsbD_eq
    intro i hi
    simp only [BitVec.getLsbD_ushiftRight]
    by_cases h8 : k + i < 8
    · rw [h (k + i) (by omega) h8]; simp
    · rw [BitVec.getLsbD_of_ge _ _ (by omega)]; simp

theorem packBits_getLast? (l : List Bool) (h : l.length % 8 ≠ 0) :
    (Spec.packBits l).getLast? = some (byteOfBits (l.drop (l.length / 8 * 8))) := by
  have h1 : l = l.take (l.length / 8 * 8) ++ l.drop (l.length / 8 * 8) := by
    rw [List.take_append_drop]
  conv => lhs; rw [h1]
  rw [packBits_append8 _ _ (by simp; omega), packBits_single (l.drop (l.length / 8 * 8)) (by
      intro h0
      have := congrArg List.length h0
      simp at this; omega) (by simp; omega)]
  simp

theorem Bitvector.deserialize_packBits {n : Nat} (hn : 0 < n) {l : List Bool} (h : l.length = n) :
    Bitvector.deserialize n (Spec.packBits l) = .ok ⟨l, Spec.padBits n⟩ := by
  have h0 : n ≠ 0 := by omega
  simp only [Bitvector.deserialize, h0, if_false, packBits_length, h, bitvectorByteLength,
    Nat.lt_irrefl, gt_iff_lt, Bitvector.default, Res.ok_bind, Bits.repeatFalse]
  rw [storeBytes_packBits n l h]
  by_cases hr : n % 8 = 0
  · simp [hr, Spec.padBits]
  · rw [if_pos hr, packBits_getLast? l (by rw [h]; exact hr)]
    simp only
    rw [if_neg]
    · simp [Spec.padBits]
    · simp only [ne_eq, Decidable.not_not]
      rw [byte_shiftRight_eq_zero]
      intro i hi h8
      rw [byteOfBits_getLsbD _ _ h8, List.getD, List.getElem?_eq_none (by simp; omega)]
      rfl

theorem storeBytes_length (n : Nat) (bs : Bytes) (h : bs.length = (n + 7) / 8) :
    (storeBytes (chunks8 (List.replicate n false)) bs).length = n := by
  induction n using Nat.strongRecOn generalizing bs with
  | ind n ih =>
    rw [chunks8]
    split
    · rename_i h0
      simp at h0; subst h0; simp at h; subst h; rfl
    · rename_i h0
      simp at h0
      cases bs with
      | nil => simp at h; omega
      | cons b bs =>
        simp only [List.length_cons] at h
        rw [storeBytes, List.length_append, List.drop_replicate, ih (n - 8) (by omega) _ (by omega)]
        simp; omega

/-- The bits stored are the low bits of the bytes. -/
theorem storeBytes_eq_take (n : Nat) (bs : Bytes) (h : bs.length = (n + 7) / 8) :
    storeBytes (chunks8 (List.replicate n false)) bs = (bs.flatMap bitsOfByte).take n := by
  induction n using Nat.strongRecOn generalizing bs with
  | ind n ih =>
    rw [chunks8]
    split
    · rename_i h0
      simp at h0; subst h0; simp at h; subst h; rfl
    · rename_i h0
      simp at h0
      cases bs with
      | nil => simp at h; omega
      | cons b bs =>
        simp only [List.length_cons] at h
        rw [storeBytes, List.drop_replicate, ih (n - 8) (by omega) _ (by omega)]
        simp only [List.take_replicate, List.length_replicate, List.flatMap_cons]
        by_cases h8 : 8 ≤ n
        · rw [Nat.min_eq_left h8, List.take_of_length_le (by simp),
            List.take_append, List.take_of_length_le (i := n) (by simp; omega), bitsOfByte_length]
        · have : bs = [] := by
            apply List.eq_nil_of_length_eq_zero; omega
          subst this
          rw [Nat.min_eq_right (by omega)]
          simp

theorem Bitvector.deserialize_sound {n : Nat} {b : Bytes} {v : Bits}
    (h : Bitvector.deserialize n b = .ok v) :
    0 < n ∧ v.live.length = n ∧ v.dead = Spec.padBits n ∧ Spec.packBits v.live = b := by
  unfold Bitvector.deserialize at h
  by_cases h0 : n = 0
  · simp [h0] at h
  · simp only [h0, if_false, bitvectorByteLength, Bitvector.default, Res.ok_bind,
      Bits.repeatFalse] at h
    split at h
    · cases h
    · split at h
      · cases h
      · rename_i h1 h2
        have hlen : b.length = (n + 7) / 8 := by omega
        have key : ∀ l, l = storeBytes (chunks8 (List.replicate n false)) b →
            (n % 8 ≠ 0 → ∀ x, b.getLast? = some x → x >>> (n % 8) = 0) → Spec.packBits l = b := by
          intro l hl hz
          have hl2 : l.length = n := by rw [hl]; exact storeBytes_length n b hlen
          rw [storeBytes_eq_take n b hlen] at hl
          -- compare after padding
          rw [← packBits_append_pad l]
          suffices hs : l ++ Spec.padBits l.length = b.flatMap bitsOfByte by
            rw [hs]
            have := packBits_flatMap b []
            simpa [packBits_nil] using this
          have hfl : (b.flatMap bitsOfByte).length = 8 * b.length := by
            clear * -
            induction b with
            | nil => rfl
            | cons x xs ih => simp [ih]; omega
          rw [hl2, hl]
          by_cases hr : n % 8 = 0
          · have : Spec.padBits n = [] := by
              have h3 : (8 - n % 8) % 8 = 0 := by omega
              rw [Spec.padBits, h3]; rfl
            rw [this, List.append_nil, List.take_of_length_le (by omega)]
          · have hb : b ≠ [] := by intro hb; subst hb; simp at hlen; omega
            obtain ⟨bs, x, rfl⟩ : ∃ bs x, b = bs ++ [x] :=
              ⟨b.dropLast, b.getLast hb, (List.dropLast_concat_getLast hb).symm⟩
            have hz' := hz hr x (by simp)
            rw [byte_shiftRight_eq_zero] at hz'
            simp only [List.length_append, List.length_singleton] at hlen hfl
            apply List.ext_getElem
            · simp [Spec.padBits, List.length_append] at hfl ⊢; omega
            · intro i hi1 hi2
              by_cases hin : i < n
              · rw [List.getElem_append_left (by simp at hfl ⊢; omega), List.getElem_take]
              · rw [List.getElem_append_right (by simp at hfl ⊢; omega)]
                have hfb : (bs.flatMap bitsOfByte).length = 8 * bs.length := by
                  clear * -
                  induction bs with
                  | nil => rfl
                  | cons x xs ih => simp [ih]; omega
                simp only [List.flatMap_append, List.flatMap_cons, List.flatMap_nil,
                  List.append_nil] at hi2 ⊢
                rw [List.getElem_append_right (by omega)]
                simp only [Spec.padBits, List.getElem_replicate]
                simp only [List.length_append, bitsOfByte_length, hfb] at hi2
                have := hz' (i - 8 * bs.length) (by omega) (by omega)
                rw [← bitsOfByte_getD, List.getD, List.getElem?_eq_getElem (by simp; omega)] at this
                simp only [Option.getD_some] at this
                simp only [hfb, this]
        split at h
        · rename_i hr
          split at h
          · cases h
          · rename_i x hx
            split at h
            · cases h
            · rename_i hz
              injection h with h
              subst h
              refine ⟨by omega, storeBytes_length n b hlen, by simp [Spec.padBits], ?_⟩
              apply key _ rfl
              intro _ y hy
              rw [hx] at hy
              injection hy with hy
              subst hy
              simpa using hz
        · rename_i hr
          injection h with h
          subst h
          refine ⟨by omega, storeBytes_length n b hlen, by simp [Spec.padBits], ?_⟩
          apply key _ rfl
          intro hr2; exact absurd hr2 hr

/-! ## Serialization of `Bitlist` -/

theorem orLast_concat (m : Byte) (bs : Bytes) (x : Byte) :
    orLast m (bs ++ [x]) = some (bs ++ [x ||| m]) := by
  induction bs with
  | nil => rfl
  | cons b bs ih =>
    cases bs with
    | nil => simp [orLast]
    | cons c cs => simp only [List.cons_append, orLast] at ih ⊢; rw [ih]; rfl

theorem byteOfBits_concat_true (l : List Bool) :
    byteOfBits (l ++ [true]) = byteOfBits l ||| (1 : Byte) <<< l.length := by
  apply BitVec.eq_of_getLsbD_eq
  intro i hi
  rw [byteOfBits_getLsbD _ _ hi, BitVec.getLsbD_or, byteOfBits_getLsbD _ _ hi,
    BitVec.getLsbD_shiftLeft]
  have h1 : (1 : Byte).getLsbD (i - l.length) = decide (i - l.length = 0) := by
    have := BitVec.getLsbD_one (w := 8) (i := i - l.length)
    simp
  rw [h1]
  rcases Nat.lt_trichotomy i l.length with h2 | h2 | h2
  · simp [List.getD, List.getElem?_append_left h2, h2]
  · subst h2; simp [List.getD, hi]
  · simp only [List.getD]
    rw [List.getElem?_eq_none (by simp; omega), List.getElem?_eq_none (by omega)]
    simp; omega

theorem Bitlist.serialize_eq {n : Nat} {v : Bits} (h : v.live.length ≤ n) (hc : v.Clean)
    (buf : Bytes) :
    Bitlist.serializeWithLength n v true buf =
      (buf ++ Spec.packBits (v.live ++ [true]), .ok (Spec.packBits (v.live ++ [true])).length) := by
  have h1 : ¬ v.len > n := by simp only [Bits.len]; omega
  simp only [Bitlist.serializeWithLength, h1, if_false, if_true, Bits.rawSlice_clean hc]
  by_cases hm : v.len % 8 = 0
  · rw [if_pos hm, packBits_append8 _ _ hm]
    have : Spec.packBits [true] = [1] := by decide
    rw [this]
    simp
  · rw [if_neg hm]
    have hm' : v.live.length % 8 ≠ 0 := hm
    have e : v.live = v.live.take (v.live.length / 8 * 8) ++ v.live.drop (v.live.length / 8 * 8) := by
      rw [List.take_append_drop]
    have hne : v.live.drop (v.live.length / 8 * 8) ≠ [] := by
      intro h0
      have := congrArg List.length h0
      simp at this; omega
    have hl8 : (v.live.drop (v.live.length / 8 * 8)).length = v.live.length % 8 := by
      simp; omega
    have e1 : Spec.packBits v.live = Spec.packBits (v.live.take (v.live.length / 8 * 8)) ++
        [byteOfBits (v.live.drop (v.live.length / 8 * 8))] := by
      conv => lhs; rw [e]
      rw [packBits_append8 _ _ (by simp; omega), packBits_single _ hne (by omega)]
    have e2 : Spec.packBits (v.live ++ [true]) =
        Spec.packBits (v.live.take (v.live.length / 8 * 8)) ++
        [byteOfBits (v.live.drop (v.live.length / 8 * 8)) ||| (1 : Byte) <<< (v.live.length % 8)] := by
      conv => lhs; rw [e, List.append_assoc]
      rw [packBits_append8 _ _ (by simp; omega),
        packBits_single (v.live.drop (v.live.length / 8 * 8) ++ [true]) (by simp)
        (by rw [List.length_append]; simp only [List.length_singleton]; omega),
        byteOfBits_concat_true, hl8]
    rw [e1, ← List.append_assoc, show v.len = v.live.length from rfl, orLast_concat, e2]
    simp

theorem bits_split_last (l : List Bool) (h : ∃ x ∈ l, x = true) :
    ∃ a k, l = a ++ [true] ++ List.replicate k false ∧
      (l.reverse.takeWhile (fun x => !x)).length = k := by
  induction l using List.reverseRecOn with
  | nil => simp at h
  | append_singleton l x ih =>
    cases x with
    | true => exact ⟨l, 0, by simp, by simp⟩
    | false =>
      obtain ⟨a, k, h1, h2⟩ := ih (by simpa using h)
      refine ⟨a, k + 1, ?_, ?_⟩
      · rw [List.replicate_succ', h1]; simp
      · simp [h2]

theorem byteOfBits_inj8 {a : List Bool} (b : Byte)
    (hb : bitsOfByte b = a ++ List.replicate (8 - a.length) false) : byteOfBits a = b := by
  rw [← byteOfBits_bitsOfByte b, hb, byteOfBits_append_false]

theorem byte_ne_zero_bit (b : Byte) (h : b ≠ 0) : ∃ x ∈ bitsOfByte b, x = true := by
  by_contra hc
  apply h
  apply BitVec.eq_of_getLsbD_eq
  intro i hi
  have : ∀ x ∈ bitsOfByte b, x = false := by
    intro x hx
    cases x with
    | false => rfl
    | true => exact absurd ⟨true, hx, rfl⟩ hc
  rw [← bitsOfByte_getD, List.getD, List.getElem?_eq_getElem (by simp; exact hi)]
  simp only [Option.getD_some]
  rw [this _ (List.getElem_mem _)]
  simp

theorem flatMap_bits_length (bs : Bytes) : (bs.flatMap bitsOfByte).length = 8 * bs.length := by
  induction bs with
  | nil => rfl
  | cons x xs ih => simp [ih]; omega

/-- Normal form of the decoding of a `Bitlist`: the last byte holds `a`, the delimiting bit and
zeros. -/
theorem Bitlist.deserialize_concat {E : Env} {n : Nat} (hn : n + 8 < usizeMod) (bs : Bytes)
    (x : Byte) (a : List Bool) (k : Nat)
    (hx : bitsOfByte x = a ++ [true] ++ List.replicate k false) :
    Bitlist.deserialize E n (bs ++ [x]) =
      if bs.length + 1 > (n + 8) / 8 then .err (.additionalInput (bs.length + 1) ((n + 8) / 8))
      else if 8 * bs.length + a.length > n then
        .err (.invalidInstance (.bounded n (8 * bs.length + a.length)))
      else .ok ⟨bs.flatMap bitsOfByte ++ a, Spec.padBits (8 * bs.length + a.length)⟩ := by
  have hlen : a.length + 1 + k = 8 := by
    have := congrArg List.length hx
    simp at this; omega
  have hx0 : x ≠ 0 := by
    rintro rfl
    have := congrArg (fun l => l.getD a.length false) hx
    simp only [bitsOfByte_getD] at this
    simp [List.getD] at this
  have htz : (Bits.fromBytes [x]).trailingZeros = k := by
    simp only [Bits.trailingZeros, Bits.fromBytes, List.flatMap_cons, List.flatMap_nil,
      List.append_nil, hx]
    simp
  have hbl : bitlistByteLength E n = .ok ((n + 8) / 8) := by
    simp only [bitlistByteLength]
    rw [Env.add_eq_ok hn]
    simp only [Res.ok_bind]
    rw [Env.sub_eq_ok (by omega)]
    simp only [Res.ok_bind]
    rw [Env.add_eq_ok (by omega)]
    simp only [Res.ok_bind]
    congr 2
  simp only [Bitlist.deserialize, List.getLast?_concat, hbl, Res.lift_ok, Res.ok_bind,
    List.length_append, List.length_singleton, List.dropLast_concat, htz, hx0, if_false]
  rw [Env.sub_eq_ok (by omega)]
  simp only [Res.lift_ok, Res.ok_bind]
  rw [Env.sub_eq_ok (by omega)]
  simp only [Res.lift_ok, Res.ok_bind]
  have hadd : 8 - k - 1 = a.length := by omega
  have hrl : (Bits.fromBytes bs).len = 8 * bs.length := by
    simp only [Bits.len, Bits.fromBytes, flatMap_bits_length]
  rw [hadd, hrl]
  split
  · rfl
  · split
    · rfl
    · have hl : (Bits.fromBytes [x]).live = bitsOfByte x := by simp [Bits.fromBytes]
      rw [hl, hx, List.append_assoc, slice_ok (by omega) (by simp)]
      simp only [Res.ok_bind, List.drop_zero, Nat.sub_zero, List.take_left']
      rw [Bits.extend_clean (by
        simp only [Bits.Clean, Bits.fromBytes, Spec.padBits]
        rw [flatMap_bits_length]
        have : (8 - 8 * bs.length % 8) % 8 = 0 := by omega
        rw [this]; rfl)]
      simp only [Bits.fromBytes, flatMap_bits_length]

/-- Every nonempty byte string ending in a nonzero byte has the shape of `deserialize_concat`. -/
theorem byte_split (x : Byte) (h : x ≠ 0) :
    ∃ a k, bitsOfByte x = a ++ [true] ++ List.replicate k false ∧ a.length + 1 + k = 8 := by
  obtain ⟨a, k, h1, _⟩ := bits_split_last _ (byte_ne_zero_bit x h)
  refine ⟨a, k, h1, ?_⟩
  have := congrArg List.length h1
  simp at this; omega

theorem Bitlist.deserialize_packBits {E : Env} {n : Nat} (hn : n + 8 < usizeMod) {l : List Bool}
    (h : l.length ≤ n) :
    Bitlist.deserialize E n (Spec.packBits (l ++ [true])) = .ok ⟨l, Spec.padBits l.length⟩ := by
  let p := l.length / 8 * 8
  have e : l = l.take p ++ l.drop p := by rw [List.take_append_drop]
  have hl8 : (l.drop p).length = l.length % 8 := by simp [p]; omega
  have htl : (l.take p).length = p := by simp [p]; omega
  have e2 : Spec.packBits (l ++ [true]) = Spec.packBits (l.take p) ++
      [byteOfBits (l.drop p ++ [true])] := by
    conv => lhs; rw [e, List.append_assoc]
    rw [packBits_append8 _ _ (by rw [htl]; simp [p]), packBits_single (l.drop p ++ [true]) (by simp)
      (by rw [List.length_append]; simp only [List.length_singleton]; omega)]
  have hx : bitsOfByte (byteOfBits (l.drop p ++ [true])) =
      l.drop p ++ [true] ++ List.replicate (8 - (l.drop p ++ [true]).length) false :=
    bitsOfByte_byteOfBits _ (by rw [List.length_append]; simp only [List.length_singleton]; omega)
  rw [e2, Bitlist.deserialize_concat hn _ _ _ _ hx]
  have hpl : (Spec.packBits (l.take p)).length = l.length / 8 := by
    rw [packBits_length, htl]; simp only [p]; omega
  have hfm : (Spec.packBits (l.take p)).flatMap bitsOfByte = l.take p := by
    have key : ∀ m (q : List Bool), q.length = 8 * m →
        (Spec.packBits q).flatMap bitsOfByte = q := by
      intro m
      induction m with
      | zero => intro q hq; have : q = [] := List.eq_nil_of_length_eq_zero (by omega); subst this; rfl
      | succ m ih =>
        intro q hq
        rw [packBits_cons q (by intro h0; subst h0; simp at hq), List.flatMap_cons,
          ih _ (by simp; omega), bitsOfByte_byteOfBits _ (by simp; omega)]
        have : 8 - (q.take 8).length = 0 := by simp; omega
        rw [this]; simp
    exact key (l.length / 8) _ (by rw [htl]; simp only [p]; omega)
  rw [hpl, hl8, if_neg (by omega), if_neg (by omega), hfm, ← e]
  congr 3; omega

theorem Bitlist.deserialize_sound {E : Env} {n : Nat} (hn : n + 8 < usizeMod) {b : Bytes}
    {v : Bits} (h : Bitlist.deserialize E n b = .ok v) :
    v.live.length ≤ n ∧ v.Clean ∧ Spec.packBits (v.live ++ [true]) = b := by
  by_cases hb : b = []
  · subst hb; simp [Bitlist.deserialize] at h
  · obtain ⟨bs, x, rfl⟩ : ∃ bs x, b = bs ++ [x] :=
      ⟨b.dropLast, b.getLast hb, (List.dropLast_concat_getLast hb).symm⟩
    by_cases hx : x = 0
    · subst hx
      simp only [Bitlist.deserialize, List.getLast?_concat, Res.bind_eq_ok] at h
      obtain ⟨m, _, h⟩ := h
      split at h
      · cases h
      · simp at h
    · obtain ⟨a, k, h1, h2⟩ := byte_split x hx
      rw [Bitlist.deserialize_concat hn _ _ _ _ h1] at h
      split at h
      · cases h
      · split at h
        · cases h
        · injection h with h
          subst h
          refine ⟨by rw [List.length_append, flatMap_bits_length]; omega, ?_, ?_⟩
          · simp only [Bits.Clean, List.length_append, flatMap_bits_length]
          · simp only
            rw [List.append_assoc, packBits_flatMap, packBits_single _ (by simp) (by simp; omega)]
            congr 2
            apply byteOfBits_inj8
            rw [h1]
            congr 2
            simp; omega

theorem Bitlist.deserialize_ne_panic {E : Env} {n : Nat} (hn : n + 8 < usizeMod) (b : Bytes) :
    Bitlist.deserialize E n b ≠ .panic := by
  by_cases hb : b = []
  · subst hb; simp [Bitlist.deserialize]
  · obtain ⟨bs, x, rfl⟩ : ∃ bs x, b = bs ++ [x] :=
      ⟨b.dropLast, b.getLast hb, (List.dropLast_concat_getLast hb).symm⟩
    by_cases hx : x = 0
    · subst hx
      have hbl : bitlistByteLength E n = .ok ((n + 8) / 8) := by
        simp only [bitlistByteLength]
        rw [Env.add_eq_ok hn]
        simp only [Res.ok_bind]
        rw [Env.sub_eq_ok (by omega)]
        simp only [Res.ok_bind]
        rw [Env.add_eq_ok (by omega)]
        simp only [Res.ok_bind]
        congr 2
      simp only [Bitlist.deserialize, List.getLast?_concat, hbl, Res.lift_ok, Res.ok_bind]
      split <;> simp
    · obtain ⟨a, k, h1, h2⟩ := byte_split x hx
      rw [Bitlist.deserialize_concat hn _ _ _ _ h1]
      split
      · simp
      · split <;> simp

end Ssz
