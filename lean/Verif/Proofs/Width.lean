import Verif.Model.Width
import Verif.Spec.Width
import Verif.Proofs.GenIndex
import Verif.Proofs.Verify

/-!
# Targets with a smaller `usize`: lemmas
-/

namespace Ssz

open Spec

/-! ## With 64 bits it is the same -/

theorem add_64 (E : Env) (a b : Nat) : Target.add ⟨64, E.debug⟩ a b = E.add a b := rfl
theorem mul_64 (E : Env) (a b : Nat) : Target.mul ⟨64, E.debug⟩ a b = E.mul a b := rfl
theorem pow2_64 (E : Env) (a : Nat) : Target.pow2 ⟨64, E.debug⟩ a = E.pow2 a := rfl
theorem next_64 (E : Env) (a : Nat) : Target.nextPowerOfTwo ⟨64, E.debug⟩ a = E.nextPowerOfTwo a := rfl

theorem itemLengthW_64 (d : Bool) (t : Ty) : t.itemLengthW ⟨64, d⟩ = itemLen prims t := by
  cases t with
  | uint u => cases u <;> rfl
  | _ => rfl

theorem vectorIndexW_64 (E : Env) (t : Ty) (n : Nat)
    (ht : ∀ p q, t.indexW ⟨64, E.debug⟩ p q = (t.impl E).computeGeneralizedIndex p q) (p : Nat)
    (path : List PathElement) :
    vectorIndexW ⟨64, E.debug⟩ (t.itemLengthW ⟨64, E.debug⟩) n (fun p q => t.indexW ⟨64, E.debug⟩ p q) p
      path = vectorGeneralizedIndex E (t.impl E) n p path := by
  unfold vectorIndexW vectorGeneralizedIndex itemChunkCountW itemChunkCount
  simp only [itemLength_ok, itemLengthW_64, ht]
  rfl

theorem countW_fields (E : Env) : ∀ fs : Fields, fs.countW = (fs.impls E).count
  | .nil => by rw [Fields.countW, Fields.impls]; rfl
  | .cons _ _ rest => by rw [Fields.countW, Fields.impls, countW_fields E rest]; exact Nat.add_comm _ _

theorem countW_variants (E : Env) : ∀ vs : Variants, vs.countW = (vs.impls E).count
  | .nil => by rw [Variants.countW, Variants.impls]; rfl
  | .unit rest => by rw [Variants.countW, Variants.impls, countW_variants E rest]; exact Nat.add_comm _ _
  | .data _ rest => by rw [Variants.countW, Variants.impls, countW_variants E rest]; exact Nat.add_comm _ _

mutual

theorem indexW_64 (E : Env) : ∀ (t : Ty) (p : Nat) (path : List PathElement),
    t.indexW ⟨64, E.debug⟩ p path = (t.impl E).computeGeneralizedIndex p path
  | .uint _, _, _ => by rw [Ty.indexW, Ty.impl]; rfl
  | .u256, _, _ => by rw [Ty.indexW, Ty.impl]; rfl
  | .bool, _, _ => by rw [Ty.indexW, Ty.impl]; rfl
  | .node, _, _ => by rw [Ty.indexW, Ty.impl]; rfl
  | .array t n, p, path => by
    rw [Ty.indexW, vectorIndexW_64 E t n (indexW_64 E t), Ty.impl]; rfl
  | .vector t n, p, path => by
    rw [Ty.indexW, vectorIndexW_64 E t n (indexW_64 E t), Ty.impl]; rfl
  | .list t n, p, path => by
    rw [Ty.impl]
    show _ = listGeneralizedIndex E (t.impl E) n p path
    unfold Ty.indexW listGeneralizedIndex itemChunkCountW itemChunkCount
    simp only [itemLength_ok, itemLengthW_64, indexW_64 E t]
    rfl
  | .bitvector n, p, path => by unfold Ty.indexW; rw [Ty.impl]; rfl
  | .bitlist n, p, path => by unfold Ty.indexW; rw [Ty.impl]; rfl
  | .option t, p, path => by
    unfold Ty.indexW; rw [Ty.impl]; simp only [indexW_64 E t]; rfl
  | .newtype t, p, path => by rw [Ty.indexW, indexW_64 E t, Ty.impl]; rfl
  | .container fs, p, path => by
    unfold Ty.indexW; rw [Ty.impl]; simp only [indexF_64 E fs, countW_fields E]; rfl
  | .union vs, p, path => by
    unfold Ty.indexW; rw [Ty.impl]; simp only [indexV_64 E vs, countW_variants E]; rfl

theorem indexF_64 (E : Env) : ∀ (fs : Fields) (total p : Nat) (path : List PathElement) (name : String)
    (i : Nat), fs.indexW ⟨64, E.debug⟩ total p path name i =
      (fs.impls E).generalizedIndexByField E total p path name i
  | .nil, _, _, _, _, _ => by rw [Fields.indexW, Fields.impls]; rfl
  | .cons _ t rest, total, p, path, name, i => by
    unfold Fields.indexW; rw [Fields.impls]; simp only [indexW_64 E t, indexF_64 E rest]; rfl

theorem indexV_64 (E : Env) : ∀ (vs : Variants) (p : Nat) (path : List PathElement) (i : Nat),
    vs.indexW ⟨64, E.debug⟩ p path i = (vs.impls E).generalizedIndex p path i
  | .nil, _, _, _ => by rw [Variants.indexW, Variants.impls]; rfl
  | .unit _, _, _, 0 => by rw [Variants.indexW, Variants.impls]; rfl
  | .unit rest, p, path, i + 1 => by rw [Variants.indexW, indexV_64 E rest, Variants.impls]; rfl
  | .data t _, p, path, 0 => by rw [Variants.indexW, indexW_64 E t, Variants.impls]; rfl
  | .data _ rest, p, path, i + 1 => by rw [Variants.indexW, indexV_64 E rest, Variants.impls]; rfl

end

/-! ## Without overflow checks: the same modulo a power of two -/

theorem nextPow_eq (x : Nat) : (if x ≤ 1 then 1 else 2 ^ (Nat.log2 (x - 1) + 1)) = 2 ^ depthFor x := by
  unfold depthFor
  split
  · rw [Nat.clog_of_right_le_one (by assumption)]
  · rw [clog_eq_log2 (by omega)]

theorem pow_mod_pow {k b : Nat} (h : ¬ 2 ^ k < 2 ^ b) : 2 ^ k % 2 ^ b = 0 := by
  refine Nat.mod_eq_zero_of_dvd (Nat.pow_dvd_pow 2 ?_)
  exact (Nat.pow_le_pow_iff_right (by decide)).1 (Nat.le_of_not_lt h)

theorem add_R (b x y : Nat) : Target.add ⟨b, false⟩ x y = .ok ((x + y) % 2 ^ b) := by
  unfold Target.add
  simp only [Bool.false_eq_true, if_false]
  split
  · rw [Nat.mod_eq_of_lt ‹_›]
  · rfl

theorem mul_R (b x y : Nat) : Target.mul ⟨b, false⟩ x y = .ok (x * y % 2 ^ b) := by
  unfold Target.mul
  simp only [Bool.false_eq_true, if_false]
  split
  · rw [Nat.mod_eq_of_lt ‹_›]
  · rfl

theorem next_R (b x : Nat) : Target.nextPowerOfTwo ⟨b, false⟩ x = .ok (2 ^ depthFor x % 2 ^ b) := by
  unfold Target.nextPowerOfTwo
  simp only [nextPow_eq, Bool.false_eq_true, if_false]
  split
  · rw [Nat.mod_eq_of_lt ‹_›]
  · rw [pow_mod_pow ‹_›]

theorem itemLengthW_eq {t : Ty} (h : t ≠ .uint .usize) (W : Target) : t.itemLengthW W = itemLen prims t := by
  cases t with
  | uint u => cases u <;> first | rfl | exact absurd rfl h
  | _ => rfl

theorem mul_fits {W : Target} {x y : Nat} (h : x * y < 2 ^ W.bits) : W.mul x y = .ok (x * y) := if_pos h

theorem add_fits {W : Target} {x y : Nat} (h : x + y < 2 ^ W.bits) : W.add x y = .ok (x + y) := if_pos h

theorem countW_ok {W : Target} {len n : Nat} (h : n * len + 31 < 2 ^ W.bits) :
    itemChunkCountW W len n = .ok ((n * len + 31) / 32) := by
  unfold itemChunkCountW
  rw [mul_fits (by omega), Res.ok_bind, add_fits h, Res.ok_bind]

/-- The child at a position, in both widths. -/
theorem slot_mod {b c : Nat} (h : b ≤ c) (p k x : Nat) :
    (p % 2 ^ b * (2 ^ k % 2 ^ b) % 2 ^ b + x) % 2 ^ b = (p * (2 ^ k % 2 ^ c) % 2 ^ c + x) % 2 ^ c % 2 ^ b := by
  have hd : 2 ^ b ∣ 2 ^ c := Nat.pow_dvd_pow 2 h
  rw [Nat.mod_mod_of_dvd _ hd, Nat.add_mod, Nat.mod_mod, ← Nat.mul_mod, Nat.add_mod (_ % 2 ^ c),
    Nat.mod_mod_of_dvd _ hd, Nat.mul_mod p (2 ^ k % 2 ^ c), Nat.mod_mod_of_dvd _ hd, ← Nat.mul_mod]

theorem twice_mod {b c : Nat} (h : b ≤ c) (p : Nat) :
    p % 2 ^ b * 2 % 2 ^ b = p * 2 % 2 ^ c % 2 ^ b := by
  have hd : 2 ^ b ∣ 2 ^ c := Nat.pow_dvd_pow 2 h
  rw [Nat.mod_mod_of_dvd _ hd, Nat.mod_mul_mod]

theorem right_mod {b c : Nat} (h : b ≤ c) (p : Nat) :
    (p % 2 ^ b * 2 % 2 ^ b + 1) % 2 ^ b = (p * 2 % 2 ^ c + 1) % 2 ^ c % 2 ^ b := by
  have hd : 2 ^ b ∣ 2 ^ c := Nat.pow_dvd_pow 2 h
  rw [Nat.mod_mod_of_dvd _ hd, Nat.add_mod (p * 2 % 2 ^ c), Nat.mod_mod_of_dvd _ hd, ← Nat.add_mod,
    Nat.mod_mul_mod, Nat.mod_add_mod]

theorem default_mod (b p : Nat) (path : List PathElement) :
    defaultComputeGeneralizedIndex (p % 2 ^ b) path =
      (defaultComputeGeneralizedIndex p path).map (· % 2 ^ b) := by
  unfold defaultComputeGeneralizedIndex
  split <;> rfl

/-- What a target with fewer bits computes. -/
def Rounds (b c : Nat) (f : Target → Nat → List PathElement → Res MerkError Nat) : Prop :=
  ∀ p path, f ⟨b, false⟩ (p % 2 ^ b) path = (f ⟨c, false⟩ p path).map (· % 2 ^ b)

theorem vectorIndexW_R {b c : Nat} (h : b ≤ c) {t : Ty} {n : Nat} (hn : widthItems b t n)
    (ht : Rounds b c fun W p q => t.indexW W p q) (p : Nat) (path : List PathElement) :
    vectorIndexW ⟨b, false⟩ (t.itemLengthW ⟨b, false⟩) n (fun p q => t.indexW ⟨b, false⟩ p q) (p % 2 ^ b)
      path = (vectorIndexW ⟨c, false⟩ (t.itemLengthW ⟨c, false⟩) n (fun p q => t.indexW ⟨c, false⟩ p q) p
        path).map (· % 2 ^ b) := by
  have hc : n * itemLen prims t + 31 < 2 ^ c :=
    Nat.lt_of_lt_of_le hn.2 (Nat.pow_le_pow_right (by decide) h)
  unfold vectorIndexW
  rw [itemLengthW_eq hn.1, itemLengthW_eq hn.1]
  split
  · rfl
  · rename_i i rest
    split
    · rfl
    · have hi : i * itemLen prims t ≤ n * itemLen prims t := Nat.mul_le_mul_right _ (by omega)
      have hb := hn.2
      rw [mul_fits (W := ⟨b, false⟩) (by show _ < 2 ^ b; omega), countW_ok (W := ⟨b, false⟩) hb,
        mul_fits (W := ⟨c, false⟩) (by show _ < 2 ^ c; omega), countW_ok (W := ⟨c, false⟩) hc]
      simp only [Res.lift_ok, Res.ok_bind, next_R, mul_R, add_R]
      rw [slot_mod h]
      exact ht _ rest
  · rfl

mutual

theorem indexW_R {b c : Nat} (h : b ≤ c) : ∀ (t : Ty), FitsWidth b t → Rounds b c fun W p q => t.indexW W p q
  | .uint _, _ => fun p path => by simp only [Ty.indexW]; exact default_mod b p path
  | .u256, _ => fun p path => by simp only [Ty.indexW]; exact default_mod b p path
  | .bool, _ => fun p path => by simp only [Ty.indexW]; exact default_mod b p path
  | .node, _ => fun p path => by simp only [Ty.indexW]; exact default_mod b p path
  | .array t n, hn => fun p path => by
    rw [FitsWidth] at hn
    simp only [Ty.indexW]
    exact vectorIndexW_R h hn.1 (indexW_R h t hn.2) p path
  | .vector t n, hn => fun p path => by
    rw [FitsWidth] at hn
    simp only [Ty.indexW]
    exact vectorIndexW_R h hn.1 (indexW_R h t hn.2) p path
  | .list t n, hn => fun p path => by
    rw [FitsWidth] at hn
    have ht := indexW_R h t hn.2
    have hb := hn.1.2
    have hc : n * itemLen prims t + 31 < 2 ^ c :=
      Nat.lt_of_lt_of_le hb (Nat.pow_le_pow_right (by decide) h)
    unfold Ty.indexW
    beta_reduce
    rw [itemLengthW_eq hn.1.1, itemLengthW_eq hn.1.1]
    split
    · rfl
    · rename_i i rest
      split
      · rfl
      · have hi : i * itemLen prims t ≤ n * itemLen prims t := Nat.mul_le_mul_right _ (by omega)
        rw [mul_fits (W := ⟨b, false⟩) (by show _ < 2 ^ b; omega), countW_ok (W := ⟨b, false⟩) hb,
          mul_fits (W := ⟨c, false⟩) (by show _ < 2 ^ c; omega), countW_ok (W := ⟨c, false⟩) hc]
        simp only [Res.lift_ok, Res.ok_bind, next_R, mul_R, add_R]
        rw [twice_mod h, slot_mod h]
        exact ht _ rest
    · split
      · simp only [Res.lift_ok, Res.ok_bind, mul_R, add_R, Res.map]
        rw [right_mod h]
      · rfl
    · rfl
  | .bitvector n, _ => fun p path => by
    unfold Ty.indexW
    beta_reduce
    split
    · rfl
    · split
      · rfl
      · simp only [Res.lift_ok, Res.ok_bind, next_R, mul_R, add_R]
        rw [slot_mod h]
        exact default_mod _ _ _
    · rfl
  | .bitlist n, _ => fun p path => by
    unfold Ty.indexW
    beta_reduce
    split
    · rfl
    · split
      · rfl
      · simp only [Res.lift_ok, Res.ok_bind, next_R, mul_R, add_R]
        rw [twice_mod h, slot_mod h]
        exact default_mod _ _ _
    · rfl
  | .option t, hn => fun p path => by
    rw [FitsWidth] at hn
    have ht := indexW_R h t hn
    unfold Ty.indexW
    beta_reduce
    split
    · rfl
    · split
      · rfl
      · simp only [Res.lift_ok, Res.ok_bind, mul_R]
        rw [twice_mod h]
        split
        · split <;> rfl
        · exact ht _ _
    · split
      · simp only [Res.lift_ok, Res.ok_bind, mul_R, add_R, Res.map]
        rw [right_mod h]
      · rfl
    · rfl
  | .newtype t, hn => fun p path => by
    rw [FitsWidth] at hn
    simp only [Ty.indexW]
    exact indexW_R h t hn p path
  | .container fs, hn => fun p path => by
    rw [FitsWidth] at hn
    unfold Ty.indexW
    beta_reduce
    split
    · rfl
    · exact indexF_R h fs hn _ _ _ _ _
    · rfl
  | .union vs, hn => fun p path => by
    rw [FitsWidth] at hn
    unfold Ty.indexW
    beta_reduce
    split
    · rfl
    · split
      · rfl
      · simp only [Res.lift_ok, Res.ok_bind, mul_R]
        rw [twice_mod h]
        exact indexV_R h vs hn _ _ _
    · split
      · simp only [Res.lift_ok, Res.ok_bind, mul_R, add_R, Res.map]
        rw [right_mod h]
      · rfl
    · rfl

theorem indexF_R {b c : Nat} (h : b ≤ c) : ∀ (fs : Fields), FitsWidthF b fs →
    ∀ (total : Nat) (p : Nat) (path : List PathElement) (name : String) (i : Nat),
      fs.indexW ⟨b, false⟩ total (p % 2 ^ b) path name i =
        (fs.indexW ⟨c, false⟩ total p path name i).map (· % 2 ^ b)
  | .nil, _, _, _, _, _, _ => by simp only [Fields.indexW]; rfl
  | .cons _ t rest, hn, total, p, path, name, i => by
    rw [FitsWidthF] at hn
    unfold Fields.indexW
    split
    · simp only [Res.lift_ok, Res.ok_bind, next_R, mul_R, add_R]
      rw [slot_mod h]
      exact indexW_R h t hn.1 _ _
    · exact indexF_R h rest hn.2 _ _ _ _ _

theorem indexV_R {b c : Nat} (h : b ≤ c) : ∀ (vs : Variants), FitsWidthV b vs →
    ∀ (p : Nat) (path : List PathElement) (i : Nat),
      vs.indexW ⟨b, false⟩ (p % 2 ^ b) path i = (vs.indexW ⟨c, false⟩ p path i).map (· % 2 ^ b)
  | .nil, _, _, _, _ => by simp only [Variants.indexW]; rfl
  | .unit _, _, _, path, 0 => by simp only [Variants.indexW]; split <;> rfl
  | .unit rest, hn, p, path, i + 1 => by
    rw [FitsWidthV] at hn
    simp only [Variants.indexW]
    exact indexV_R h rest hn _ _ _
  | .data t _, hn, p, path, 0 => by
    rw [FitsWidthV] at hn
    simp only [Variants.indexW]
    exact indexW_R h t hn.1 _ _
  | .data _ rest, hn, p, path, i + 1 => by
    rw [FitsWidthV] at hn
    simp only [Variants.indexW]
    exact indexV_R h rest hn.2 _ _ _

end

/-! ## With overflow checks: the same, or a panic -/

/-- A target with `b` bits panics or computes the same as one with more, and it does not panic if the
index fits. The index is at least `m`. -/
def Link (b m : Nat) (x y : Res MerkError Nat) : Prop :=
  (x = .panic ∨ x = y) ∧ ∀ g, 1 ≤ m → y = .ok g → m ≤ g ∧ (g < 2 ^ b → x = .ok g)

theorem Link.mono {b m k : Nat} {x y : Res MerkError Nat} (h : Link b m x y) (hk : 1 ≤ k → k ≤ m) :
    Link b k x y :=
  ⟨h.1, fun g h1 h2 => have h3 := h.2 g (Nat.le_trans h1 (hk h1)) h2
    ⟨Nat.le_trans (hk h1) h3.1, h3.2⟩⟩

theorem Link.ok (b m : Nat) : Link b m (.ok m) (.ok m) :=
  ⟨.inr rfl, fun g _ h => by cases h; exact ⟨Nat.le_refl _, fun _ => rfl⟩⟩

theorem Link.err (b m : Nat) (e : MerkError) : Link b m (.err e) (.err e) :=
  ⟨.inr rfl, fun g _ h => by cases h⟩

theorem Link.panic (b m : Nat) : Link b m .panic .panic := ⟨.inr rfl, fun g _ h => by cases h⟩

theorem Link.stop {b m : Nat} {x y : Res MerkError Nat} (h : Link b m x y) (hm : 2 ^ b ≤ m) :
    Link b m .panic y :=
  ⟨.inl rfl, fun g h1 h2 => have h3 := (h.2 g h1 h2).1
    ⟨h3, fun h4 => absurd (Nat.lt_of_lt_of_le h4 (Nat.le_trans hm h3)) (Nat.lt_irrefl _)⟩⟩

theorem add_D (b x y : Nat) :
    Target.add ⟨b, true⟩ x y = if x + y < 2 ^ b then .ok (x + y) else .panic := by
  simp [Target.add]

theorem mul_D (b x y : Nat) :
    Target.mul ⟨b, true⟩ x y = if x * y < 2 ^ b then .ok (x * y) else .panic := by
  simp [Target.mul]

theorem next_D (b x : Nat) :
    Target.nextPowerOfTwo ⟨b, true⟩ x = if 2 ^ depthFor x < 2 ^ b then .ok (2 ^ depthFor x) else .panic := by
  simp [Target.nextPowerOfTwo, nextPow_eq]

/-- A number that is checked on both targets. -/
theorem Link.check {b c m v : Nat} (h : b ≤ c) (hv : 1 ≤ m → v ≤ m)
    {f k : Nat → Res MerkError Nat} (hf : Link b m (f v) (k v)) :
    Link b m ((if v < 2 ^ b then .ok v else .panic : Calc Nat).lift >>= f)
      ((if v < 2 ^ c then .ok v else .panic : Calc Nat).lift >>= k) := by
  by_cases h1 : v < 2 ^ b
  · have h2 : v < 2 ^ c := Nat.lt_of_lt_of_le h1 (Nat.pow_le_pow_right (by decide) h)
    rw [if_pos h1, if_pos h2]
    exact hf
  · rw [if_neg h1]
    refine ⟨.inl rfl, fun g h2 h3 => ?_⟩
    have h4 := hv h2
    split at h3
    · exact (hf.stop (by omega)).2 g h2 h3
    · cases h3

theorem Link.next {b c p : Nat} (h : b ≤ c) (x : Nat) {f k : Nat → Res MerkError Nat}
    (hf : Link b (p * 2 ^ depthFor x) (f (2 ^ depthFor x)) (k (2 ^ depthFor x))) :
    Link b (p * 2 ^ depthFor x) ((Target.nextPowerOfTwo ⟨b, true⟩ x).lift >>= f)
      ((Target.nextPowerOfTwo ⟨c, true⟩ x).lift >>= k) := by
  rw [next_D, next_D]
  refine Link.check h (fun h1 => ?_) hf
  rcases Nat.eq_zero_or_pos p with rfl | hp
  · omega
  · exact Nat.le_mul_of_pos_left _ hp

theorem Link.mul {b c p y m : Nat} (h : b ≤ c) (hm : 1 ≤ m → p * y ≤ m) {f k : Nat → Res MerkError Nat}
    (hf : Link b m (f (p * y)) (k (p * y))) :
    Link b m ((Target.mul ⟨b, true⟩ p y).lift >>= f) ((Target.mul ⟨c, true⟩ p y).lift >>= k) := by
  rw [mul_D, mul_D]
  exact Link.check h hm hf

theorem Link.add {b c p y m : Nat} (h : b ≤ c) (hm : 1 ≤ m → p + y ≤ m) {f k : Nat → Res MerkError Nat}
    (hf : Link b m (f (p + y)) (k (p + y))) :
    Link b m ((Target.add ⟨b, true⟩ p y).lift >>= f) ((Target.add ⟨c, true⟩ p y).lift >>= k) := by
  rw [add_D, add_D]
  exact Link.check h hm hf

/-- The child at a position, and what comes next. -/
theorem Link.slot {b c : Nat} (h : b ≤ c) (p x pos : Nat) {f k : Nat → Res MerkError Nat}
    (hf : ∀ q, Link b q (f q) (k q)) :
    Link b p
      ((Target.nextPowerOfTwo ⟨b, true⟩ x).lift >>= fun y =>
        (Target.mul ⟨b, true⟩ p y).lift >>= fun z => (Target.add ⟨b, true⟩ z pos).lift >>= f)
      ((Target.nextPowerOfTwo ⟨c, true⟩ x).lift >>= fun y =>
        (Target.mul ⟨c, true⟩ p y).lift >>= fun z => (Target.add ⟨c, true⟩ z pos).lift >>= k) := by
  have h0 : p ≤ p * 2 ^ depthFor x := Nat.le_mul_of_pos_right _ (Nat.two_pow_pos _)
  refine (Link.next h x ?_).mono (fun _ => h0)
  refine Link.mul h (fun _ => Nat.le_refl _) ?_
  refine Link.mono (m := p * 2 ^ depthFor x + pos) ?_ (fun _ => Nat.le_add_right _ _)
  exact Link.add h (fun _ => Nat.le_refl _) (hf _)

theorem Link.right {b c : Nat} (h : b ≤ c) (p : Nat) :
    Link b p ((Target.mul ⟨b, true⟩ p 2).lift >>= fun y => (Target.add ⟨b, true⟩ y 1).lift)
      ((Target.mul ⟨c, true⟩ p 2).lift >>= fun y => (Target.add ⟨c, true⟩ y 1).lift) := by
  have h1 : ∀ x : Calc Nat, (x.lift : Res MerkError Nat) = x.lift >>= fun y => .ok y := by
    intro x; cases x <;> first | rfl | (rename_i e; exact e.elim)
  have h2 : ∀ W : Target, ((W.mul p 2).lift >>= fun y => (W.add y 1).lift : Res MerkError Nat) =
      (W.mul p 2).lift >>= fun y => (W.add y 1).lift >>= fun z => .ok z :=
    fun W => congrArg _ (funext fun y => h1 _)
  rw [h2, h2]
  refine Link.mono (m := p * 2) ?_ (fun _ => by omega)
  refine Link.mul h (fun _ => Nat.le_refl _) ?_
  refine Link.mono (m := p * 2 + 1) ?_ (fun _ => by omega)
  exact Link.add h (fun _ => Nat.le_refl _) (Link.ok b _)

theorem Link.left {b c : Nat} (h : b ≤ c) (p : Nat) {f k : Nat → Res MerkError Nat}
    (hf : ∀ q, Link b q (f q) (k q)) :
    Link b p ((Target.mul ⟨b, true⟩ p 2).lift >>= f) ((Target.mul ⟨c, true⟩ p 2).lift >>= k) :=
  (Link.mul h (fun _ => Nat.le_refl _) (hf (p * 2))).mono (fun _ => by omega)

theorem Link.default (b p : Nat) (path : List PathElement) :
    Link b p (defaultComputeGeneralizedIndex p path) (defaultComputeGeneralizedIndex p path) := by
  unfold defaultComputeGeneralizedIndex
  split
  · exact Link.ok b p
  · exact Link.err b p _

theorem vectorIndexW_D {b c : Nat} (h : b ≤ c) {t : Ty} {n : Nat} (hn : widthItems b t n)
    (ht : ∀ p path, Link b p (t.indexW ⟨b, true⟩ p path) (t.indexW ⟨c, true⟩ p path)) (p : Nat)
    (path : List PathElement) :
    Link b p (vectorIndexW ⟨b, true⟩ (t.itemLengthW ⟨b, true⟩) n (fun p q => t.indexW ⟨b, true⟩ p q) p path)
      (vectorIndexW ⟨c, true⟩ (t.itemLengthW ⟨c, true⟩) n (fun p q => t.indexW ⟨c, true⟩ p q) p path) := by
  have hc : n * itemLen prims t + 31 < 2 ^ c :=
    Nat.lt_of_lt_of_le hn.2 (Nat.pow_le_pow_right (by decide) h)
  unfold vectorIndexW
  rw [itemLengthW_eq hn.1, itemLengthW_eq hn.1]
  split
  · exact Link.ok b p
  · rename_i i rest
    split
    · exact Link.err b p _
    · have hi : i * itemLen prims t ≤ n * itemLen prims t := Nat.mul_le_mul_right _ (by omega)
      have hb := hn.2
      rw [mul_fits (W := ⟨b, true⟩) (by show _ < 2 ^ b; omega), countW_ok (W := ⟨b, true⟩) hb,
        mul_fits (W := ⟨c, true⟩) (by show _ < 2 ^ c; omega), countW_ok (W := ⟨c, true⟩) hc]
      simp only [Res.lift_ok, Res.ok_bind]
      exact Link.slot h _ _ _ fun q => ht q rest
  · exact Link.err b p _

mutual

theorem indexW_D {b c : Nat} (h : b ≤ c) : ∀ (t : Ty), FitsWidth b t → ∀ (p : Nat) (path : List PathElement),
    Link b p (t.indexW ⟨b, true⟩ p path) (t.indexW ⟨c, true⟩ p path)
  | .uint _, _, p, path => by simp only [Ty.indexW]; exact Link.default b p path
  | .u256, _, p, path => by simp only [Ty.indexW]; exact Link.default b p path
  | .bool, _, p, path => by simp only [Ty.indexW]; exact Link.default b p path
  | .node, _, p, path => by simp only [Ty.indexW]; exact Link.default b p path
  | .array t n, hn, p, path => by
    rw [FitsWidth] at hn
    simp only [Ty.indexW]
    exact vectorIndexW_D h hn.1 (indexW_D h t hn.2) p path
  | .vector t n, hn, p, path => by
    rw [FitsWidth] at hn
    simp only [Ty.indexW]
    exact vectorIndexW_D h hn.1 (indexW_D h t hn.2) p path
  | .list t n, hn, p, path => by
    rw [FitsWidth] at hn
    have ht := indexW_D h t hn.2
    have hb := hn.1.2
    have hc : n * itemLen prims t + 31 < 2 ^ c :=
      Nat.lt_of_lt_of_le hb (Nat.pow_le_pow_right (by decide) h)
    unfold Ty.indexW
    rw [itemLengthW_eq hn.1.1, itemLengthW_eq hn.1.1]
    split
    · exact Link.ok b p
    · rename_i i rest
      split
      · exact Link.err b p _
      · have hi : i * itemLen prims t ≤ n * itemLen prims t := Nat.mul_le_mul_right _ (by omega)
        rw [mul_fits (W := ⟨b, true⟩) (by show _ < 2 ^ b; omega), countW_ok (W := ⟨b, true⟩) hb,
          mul_fits (W := ⟨c, true⟩) (by show _ < 2 ^ c; omega), countW_ok (W := ⟨c, true⟩) hc]
        simp only [Res.lift_ok, Res.ok_bind]
        exact Link.left h _ fun q => Link.slot h _ _ _ fun q => ht q rest
    · split
      · exact Link.right h p
      · exact Link.err b p _
    · exact Link.err b p _
  | .bitvector n, _, p, path => by
    unfold Ty.indexW
    split
    · exact Link.ok b p
    · split
      · exact Link.err b p _
      · exact Link.slot h _ _ _ fun q => Link.default b q _
    · exact Link.err b p _
  | .bitlist n, _, p, path => by
    unfold Ty.indexW
    split
    · exact Link.ok b p
    · split
      · exact Link.err b p _
      · exact Link.left h _ fun q => Link.slot h _ _ _ fun q => Link.default b q _
    · exact Link.err b p _
  | .option t, hn, p, path => by
    rw [FitsWidth] at hn
    have ht := indexW_D h t hn
    unfold Ty.indexW
    split
    · exact Link.ok b p
    · split
      · exact Link.err b p _
      · refine Link.left h _ fun q => ?_
        split
        · split
          · exact Link.ok b q
          · exact Link.err b q _
        · exact ht _ _
    · split
      · exact Link.right h p
      · exact Link.err b p _
    · exact Link.err b p _
  | .newtype t, hn, p, path => by
    rw [FitsWidth] at hn
    simp only [Ty.indexW]
    exact indexW_D h t hn p path
  | .container fs, hn, p, path => by
    rw [FitsWidth] at hn
    unfold Ty.indexW
    split
    · exact Link.ok b p
    · exact indexF_D h fs hn _ _ _ _ _
    · exact Link.err b p _
  | .union vs, hn, p, path => by
    rw [FitsWidth] at hn
    unfold Ty.indexW
    split
    · exact Link.ok b p
    · split
      · exact Link.err b p _
      · exact Link.left h _ fun q => indexV_D h vs hn _ _ _
    · split
      · exact Link.right h p
      · exact Link.err b p _
    · exact Link.err b p _

theorem indexF_D {b c : Nat} (h : b ≤ c) : ∀ (fs : Fields), FitsWidthF b fs →
    ∀ (total p : Nat) (path : List PathElement) (name : String) (i : Nat),
      Link b p (fs.indexW ⟨b, true⟩ total p path name i) (fs.indexW ⟨c, true⟩ total p path name i)
  | .nil, _, _, p, _, _, _ => by simp only [Fields.indexW]; exact Link.err b p _
  | .cons _ t rest, hn, total, p, path, name, i => by
    rw [FitsWidthF] at hn
    unfold Fields.indexW
    split
    · exact Link.slot h _ _ _ fun q => indexW_D h t hn.1 _ _
    · exact indexF_D h rest hn.2 _ _ _ _ _

theorem indexV_D {b c : Nat} (h : b ≤ c) : ∀ (vs : Variants), FitsWidthV b vs →
    ∀ (p : Nat) (path : List PathElement) (i : Nat),
      Link b p (vs.indexW ⟨b, true⟩ p path i) (vs.indexW ⟨c, true⟩ p path i)
  | .nil, _, p, _, _ => by simp only [Variants.indexW]; exact Link.panic b p
  | .unit _, _, p, path, 0 => by
    simp only [Variants.indexW]
    split
    · exact Link.ok b p
    · exact Link.err b p _
  | .unit rest, hn, p, path, i + 1 => by
    rw [FitsWidthV] at hn
    simp only [Variants.indexW]
    exact indexV_D h rest hn _ _ _
  | .data t _, hn, p, path, 0 => by
    rw [FitsWidthV] at hn
    simp only [Variants.indexW]
    exact indexW_D h t hn.1 _ _
  | .data _ rest, hn, p, path, i + 1 => by
    rw [FitsWidthV] at hn
    simp only [Variants.indexW]
    exact indexV_D h rest hn.2 _ _ _

end

/-! ## Verification -/

theorem pow2W_eq {W : Target} {E : Env} {k : Nat} (h : k < W.bits) (hW : W.bits ≤ 64) :
    W.pow2 k = E.pow2 k := by
  rw [pow2_ok (by omega)]
  exact if_pos h

theorem branchLoopW_eq (W : Target) (E : Env) (hW : W.bits ≤ 64) (index : Nat) :
    ∀ (bs : List Node) (i : Nat) (n : Node), i + bs.length ≤ W.bits →
      branchLoopW W E.sha256 index i bs n = branchLoop E index i bs n
  | [], _, _, _ => rfl
  | b :: bs, i, n, h => by
    rw [List.length_cons] at h
    unfold branchLoopW branchLoop
    rw [pow2W_eq (E := E) (by omega) hW]
    simp only [branchLoopW_eq W E hW index bs (i + 1) _ (show i + 1 + bs.length ≤ W.bits by omega)]

theorem isValidMerkleBranchW_eq (W : Target) (E : Env) (hW : W.bits ≤ 64) (leaf : Node) (bs : List Node)
    (d i : Nat) (root : Node) (hd : d ≤ W.bits) :
    isValidMerkleBranchW W E.sha256 leaf bs d i root = isValidMerkleBranch E leaf bs d i root := by
  unfold isValidMerkleBranchW isValidMerkleBranch
  split
  · rfl
  · rw [branchLoopW_eq W E hW i bs 0 leaf (by omega)]

theorem getDepth_of {g : Nat} (h : g ≠ 0) : getDepth g = .ok (Nat.log2 g) := by
  rw [getDepth, log2, if_neg h]

theorem log2_lt_width {g b : Nat} (h0 : g ≠ 0) (h : g < 2 ^ b) : Nat.log2 g < b :=
  (Nat.log2_lt h0).2 h

theorem verifyW_eq (W : Target) (E : Env) (hW : W.bits ≤ 64) (p : Proof) (root : Node)
    (hg : p.index < 2 ^ W.bits) : p.verifyW W E.sha256 root = p.verify E root := by
  unfold Proof.verifyW Proof.verify isValidMerkleBranchForGeneralizedIndex getSubtreeIndexW getSubtreeIndex
  by_cases h0 : p.index = 0
  · simp only [h0]; rfl
  · rw [getDepth_of h0]
    have h1 := log2_lt_width h0 hg
    simp only [Res.ok_bind, getIndexW, getIndex]
    rw [pow2W_eq (E := E) h1 hW]
    simp only [isValidMerkleBranchW_eq W E hW _ _ _ _ _ (Nat.le_of_lt h1)]

theorem merkleRootLoopW_eq (W : Target) (E : Env) (hW : W.bits ≤ 64) (index : Nat) :
    ∀ (bs : List Node) (i : Nat) (n : Node), i + bs.length ≤ W.bits →
      merkleRootLoopW W E.sha256 index i bs n = merkleRootLoop E index i bs n
  | [], _, _, _ => rfl
  | b :: bs, i, n, h => by
    rw [List.length_cons] at h
    unfold merkleRootLoopW merkleRootLoop getBitW getBit
    rw [if_pos (show i < W.bits by omega), if_pos (show i < 64 by omega)]
    simp only [merkleRootLoopW_eq W E hW index bs (i + 1) _ (show i + 1 + bs.length ≤ W.bits by omega)]

theorem verifyMerkleProofW_eq (W : Target) (E : Env) (hW : W.bits ≤ 64) (leaf : Node) (bs : List Node)
    (g : Nat) (root : Node) (hg : g < 2 ^ W.bits) :
    verifyMerkleProofW W E.sha256 leaf bs g root = verifyMerkleProof E leaf bs g root := by
  unfold verifyMerkleProofW verifyMerkleProof calculateMerkleRootW calculateMerkleRoot getPathLength
  by_cases h0 : g = 0
  · simp only [h0]; rfl
  · rw [getDepth_of h0]
    have h1 := log2_lt_width h0 hg
    simp only [Res.ok_bind]
    split
    · rfl
    · rw [merkleRootLoopW_eq W E hW g bs 0 leaf (by omega)]

/-- A branch with more nodes than `usize` has bits. -/
theorem branchLoopW_panic (W : Target) (H : Bytes → Node) (index : Nat) :
    ∀ (bs : List Node) (i : Nat) (n : Node), i ≤ W.bits → W.bits < i + bs.length →
      branchLoopW W H index i bs n = .panic
  | [], i, _, h1, h2 => absurd h2 (by simp only [List.length_nil]; omega)
  | b :: bs, i, n, h1, h2 => by
    rw [List.length_cons] at h2
    unfold branchLoopW Target.pow2
    rcases Nat.lt_or_ge i W.bits with h3 | h3
    · rw [if_pos h3]
      have h4 : 2 ^ i ≠ 0 := Nat.pos_iff_ne_zero.1 (Nat.two_pow_pos i)
      simp only [Res.lift_ok, Res.ok_bind, usizeDiv, h4, if_false]
      exact branchLoopW_panic W H index bs (i + 1) _ h3 (by omega)
    · rw [if_neg (by omega)]
      split <;> rfl

/-! ## Indices are `usize` values -/

theorem addW_lt {W : Target} {x y r : Nat} (h : W.add x y = .ok r) : r < 2 ^ W.bits := by
  unfold Target.add at h
  split at h
  · cases h; assumption
  · split at h
    · cases h
    · cases h; exact Nat.mod_lt _ (Nat.two_pow_pos _)

theorem mulW_lt {W : Target} {x y r : Nat} (h : W.mul x y = .ok r) : r < 2 ^ W.bits := by
  unfold Target.mul at h
  split at h
  · cases h; assumption
  · split at h
    · cases h
    · cases h; exact Nat.mod_lt _ (Nat.two_pow_pos _)

theorem lift_eq_ok {x : Calc Nat} {r : Nat} (h : (x.lift : Res MerkError Nat) = .ok r) : x = .ok r := by
  cases x with
  | ok a => cases h; rfl
  | err e => exact e.elim
  | panic => cases h

/-- No result larger than fits. -/
def BelowW (b : Nat) (x : Res MerkError Nat) : Prop := ∀ r, x = .ok r → r < 2 ^ b

theorem BelowW.err (b : Nat) (e : MerkError) : BelowW b (.err e) := fun _ h => by cases h

theorem BelowW.bind {b : Nat} {x : Calc Nat} {f : Nat → Res MerkError Nat}
    (h : ∀ y, x = .ok y → BelowW b (f y)) : BelowW b (x.lift >>= f) := fun r hr => by
  obtain ⟨y, h1, h2⟩ := Res.bind_eq_ok.1 hr
  exact h y (lift_eq_ok h1) r h2

theorem BelowW.slot (W : Target) (p x pos : Nat) {f : Nat → Res MerkError Nat}
    (hf : ∀ q, q < 2 ^ W.bits → BelowW W.bits (f q)) :
    BelowW W.bits ((W.nextPowerOfTwo x).lift >>= fun y =>
      (W.mul p y).lift >>= fun z => (W.add z pos).lift >>= f) :=
  BelowW.bind fun _ _ => BelowW.bind fun _ _ => BelowW.bind fun q h => hf q (addW_lt h)

theorem BelowW.right (W : Target) (p : Nat) :
    BelowW W.bits ((W.mul p 2).lift >>= fun y => (W.add y 1).lift) :=
  BelowW.bind fun _ _ _ h => addW_lt (lift_eq_ok h)

theorem BelowW.default {b p : Nat} (hp : p < 2 ^ b) (path : List PathElement) :
    BelowW b (defaultComputeGeneralizedIndex p path) := fun r h => by
  unfold defaultComputeGeneralizedIndex at h
  split at h
  · cases h; exact hp
  · cases h

theorem BelowW.ok {b p : Nat} (hp : p < 2 ^ b) : BelowW b (.ok p) := fun r h => by cases h; exact hp

theorem vectorIndexW_lt (W : Target) (len n : Nat) {f : Nat → List PathElement → Res MerkError Nat}
    (hf : ∀ p, p < 2 ^ W.bits → ∀ path, BelowW W.bits (f p path)) (p : Nat) (hp : p < 2 ^ W.bits)
    (path : List PathElement) : BelowW W.bits (vectorIndexW W len n f p path) := by
  unfold vectorIndexW
  split
  · exact BelowW.ok hp
  · split
    · exact BelowW.err _ _
    · exact BelowW.bind fun _ _ => BelowW.bind fun _ _ => BelowW.slot W _ _ _ fun q hq => hf q hq _
  · exact BelowW.err _ _

mutual

theorem indexW_lt (W : Target) : ∀ (t : Ty) (p : Nat), p < 2 ^ W.bits → ∀ path : List PathElement,
    BelowW W.bits (t.indexW W p path)
  | .uint _, p, hp, path => by rw [Ty.indexW]; exact BelowW.default hp path
  | .u256, p, hp, path => by rw [Ty.indexW]; exact BelowW.default hp path
  | .bool, p, hp, path => by rw [Ty.indexW]; exact BelowW.default hp path
  | .node, p, hp, path => by rw [Ty.indexW]; exact BelowW.default hp path
  | .array t n, p, hp, path => by
    rw [Ty.indexW]; exact vectorIndexW_lt W _ n (indexW_lt W t) p hp path
  | .vector t n, p, hp, path => by
    rw [Ty.indexW]; exact vectorIndexW_lt W _ n (indexW_lt W t) p hp path
  | .list t n, p, hp, path => by
    unfold Ty.indexW
    split
    · exact BelowW.ok hp
    · split
      · exact BelowW.err _ _
      · exact BelowW.bind fun _ _ => BelowW.bind fun _ _ => BelowW.bind fun _ _ =>
          BelowW.slot W _ _ _ fun q hq => indexW_lt W t q hq _
    · split
      · exact BelowW.right W p
      · exact BelowW.err _ _
    · exact BelowW.err _ _
  | .bitvector n, p, hp, path => by
    unfold Ty.indexW
    split
    · exact BelowW.ok hp
    · split
      · exact BelowW.err _ _
      · exact BelowW.slot W _ _ _ fun q hq => BelowW.default hq _
    · exact BelowW.err _ _
  | .bitlist n, p, hp, path => by
    unfold Ty.indexW
    split
    · exact BelowW.ok hp
    · split
      · exact BelowW.err _ _
      · exact BelowW.bind fun _ _ => BelowW.slot W _ _ _ fun q hq => BelowW.default hq _
    · exact BelowW.err _ _
  | .option t, p, hp, path => by
    unfold Ty.indexW
    split
    · exact BelowW.ok hp
    · split
      · exact BelowW.err _ _
      · refine BelowW.bind fun q hq => ?_
        split
        · split
          · exact BelowW.ok (mulW_lt hq)
          · exact BelowW.err _ _
        · exact indexW_lt W t q (mulW_lt hq) _
    · split
      · exact BelowW.right W p
      · exact BelowW.err _ _
    · exact BelowW.err _ _
  | .newtype t, p, hp, path => by rw [Ty.indexW]; exact indexW_lt W t p hp path
  | .container fs, p, hp, path => by
    unfold Ty.indexW
    split
    · exact BelowW.ok hp
    · exact indexF_lt W fs _ _ _ _ _
    · exact BelowW.err _ _
  | .union vs, p, hp, path => by
    unfold Ty.indexW
    split
    · exact BelowW.ok hp
    · split
      · exact BelowW.err _ _
      · exact BelowW.bind fun q hq => indexV_lt W vs q (mulW_lt hq) _ _
    · split
      · exact BelowW.right W p
      · exact BelowW.err _ _
    · exact BelowW.err _ _

theorem indexF_lt (W : Target) : ∀ (fs : Fields) (total p : Nat) (path : List PathElement)
    (name : String) (i : Nat), BelowW W.bits (fs.indexW W total p path name i)
  | .nil, _, _, _, _, _ => by rw [Fields.indexW]; exact BelowW.err _ _
  | .cons _ t rest, total, p, path, name, i => by
    unfold Fields.indexW
    split
    · exact BelowW.slot W _ _ _ fun q hq => indexW_lt W t q hq _
    · exact indexF_lt W rest _ _ _ _ _

theorem indexV_lt (W : Target) : ∀ (vs : Variants) (p : Nat), p < 2 ^ W.bits →
    ∀ (path : List PathElement) (i : Nat), BelowW W.bits (vs.indexW W p path i)
  | .nil, _, _, _, _ => fun r h => by rw [Variants.indexW] at h; cases h
  | .unit _, p, hp, path, 0 => by
    rw [Variants.indexW]
    split
    · exact BelowW.ok hp
    · exact BelowW.err _ _
  | .unit rest, p, hp, path, i + 1 => by rw [Variants.indexW]; exact indexV_lt W rest p hp path i
  | .data t _, p, hp, path, 0 => by rw [Variants.indexW]; exact indexW_lt W t p hp path
  | .data _ rest, p, hp, path, i + 1 => by rw [Variants.indexW]; exact indexV_lt W rest p hp path i

end

/-! ## The conditions of the 64-bit theorems -/

theorem width_field {b : Nat} {name : String} {k : Nat} {u : Ty} : ∀ {fs : Fields},
    fieldAt fs name = some (k, u) → FitsWidthF b fs → FitsWidth b u
  | .nil, h, _ => by cases h
  | .cons n t rest, h, hs => by
    rw [fieldAt] at h
    split at h
    · cases h; exact hs.1
    · obtain ⟨⟨k', u'⟩, h1, h2⟩ := Option.map_eq_some_iff.1 h
      cases h2
      exact width_field h1 hs.2

theorem width_variant {b : Nat} {u : Ty} : ∀ {vs : Variants} {i : Nat},
    variantAt vs i = some (some u) → FitsWidthV b vs → FitsWidth b u
  | .nil, _, h, _ => by cases h
  | .unit _, 0, h, _ => by cases h
  | .data t _, 0, h, hs => by cases h; exact hs.1
  | .unit rest, i + 1, h, hs => width_variant (vs := rest) (i := i) h hs
  | .data _ rest, i + 1, h, hs => width_variant (vs := rest) (i := i) h hs.2

theorem width_step {b : Nat} {pk : Ty → Bool} : ∀ {t : Ty} {e : PathElement} {g : Nat} {u : Ty},
    stepBy pk t e = some (g, u) → FitsWidth b t → FitsWidth b u := by
  intro t e g u h hs
  fun_induction stepBy pk t e with
  | case1 t n i hi => cases h; exact hs.2
  | case3 t n i hi => cases h; exact hs.2
  | case5 t n i hi => cases h; exact hs.2
  | case14 t => cases h; exact hs
  | case17 t e ih => exact ih h hs
  | case18 fs name =>
    obtain ⟨p, h1, h2⟩ := Option.map_eq_some_iff.1 h
    cases h2
    exact width_field h1 hs
  | case19 vs i =>
    obtain ⟨p, h1, h2⟩ := Option.map_eq_some_iff.1 h
    cases h2
    cases p with
    | none => trivial
    | some w => exact width_variant h1 hs
  | _ => cases h <;> trivial

theorem counts_of_width {b : Nat} (hb : b ≤ 64) : ∀ {t : Ty} {e : PathElement}, FitsWidth b t →
    counts t e := by
  intro t e h
  have h1 : ∀ {t : Ty} {n : Nat}, widthItems b t n → n * itemLen prims t + 31 < 2 ^ 64 :=
    fun {t n} h => Nat.lt_of_lt_of_le h.2 (Nat.pow_le_pow_right (by decide) hb)
  fun_induction counts t e with
  | case1 => exact h1 h.1
  | case2 => exact h1 h.1
  | case3 => exact h1 h.1
  | case4 t e ih => exact ih h
  | case5 => trivial

theorem countable_of_width {b : Nat} (hb : b ≤ 64) : ∀ {path : List PathElement} {t : Ty},
    FitsWidth b t → Countable t path
  | [], _, _ => trivial
  | e :: path, t, h => by
    refine ⟨counts_of_width hb h, ?_⟩
    cases h1 : stepBy prims t e with
    | none => trivial
    | some q => exact countable_of_width hb (path := path) (width_step (u := q.2) (g := q.1) h1 h)

end Ssz
