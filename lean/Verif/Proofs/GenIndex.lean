import Verif.Proofs.Index
import Verif.Proofs.Root

/-!
# The generalized indices the code computes
-/

namespace Ssz

open Spec

theorem Res.lift_bind {ε α β : Type} (x : Calc α) (k : α → Calc β) :
    ((x >>= k).lift : Res ε β) = x.lift >>= fun a => (k a).lift := by
  cases x <;> try rfl
  rename_i e; exact e.elim

theorem Res.bind_assoc {ε α β γ : Type} (x : Res ε α) (f : α → Res ε β) (g : β → Res ε γ) :
    (x >>= f >>= g) = x >>= fun a => f a >>= g := by
  cases x <;> rfl

/-! ## Arithmetic in the two kinds of builds -/

theorem Env.mul_debug {E : Env} (hE : E.debug = true) {a b r : Nat} (h : E.mul a b = .ok r) :
    r = a * b := by
  unfold Env.mul at h; simp only [hE, if_true] at h; split at h
  · cases h; rfl
  · cases h

theorem Env.add_debug {E : Env} (hE : E.debug = true) {a b r : Nat} (h : E.add a b = .ok r) :
    r = a + b := by
  unfold Env.add at h; simp only [hE, if_true] at h; split at h
  · cases h; rfl
  · cases h

theorem Env.mul_release {E : Env} (hE : E.debug = false) (a b : Nat) : ∃ r, E.mul a b = .ok r := by
  unfold Env.mul; simp only [hE, Bool.false_eq_true, if_false]; split <;> exact ⟨_, rfl⟩

theorem Env.add_release {E : Env} (hE : E.debug = false) (a b : Nat) : ∃ r, E.add a b = .ok r := by
  unfold Env.add; simp only [hE, Bool.false_eq_true, if_false]; split <;> exact ⟨_, rfl⟩

theorem Env.nextPowerOfTwo_release {E : Env} (hE : E.debug = false) (a : Nat) :
    ∃ r, E.nextPowerOfTwo a = .ok r := by
  unfold Env.nextPowerOfTwo
  simp only [hE, Bool.false_eq_true, if_false]
  by_cases h : (if a ≤ 1 then 1 else 2 ^ (Nat.log2 (a - 1) + 1)) < usizeMod
  · exact ⟨_, if_pos h⟩
  · exact ⟨_, if_neg h⟩

theorem Env.nextPowerOfTwo_debug {E : Env} (hE : E.debug = true) {x r : Nat}
    (h : E.nextPowerOfTwo x = .ok r) : r = 2 ^ depthFor x := by
  by_cases hx : x ≤ 2 ^ 63
  · rw [nextPowerOfTwo_ok hx] at h; cases h; rfl
  · rw [nextPowerOfTwo_overflow (by omega), hE] at h; cases h

/-! ## The arithmetic of one step -/

/-- The index of the child at a position of a tree with the given number of chunks. -/
def slotCalc (E : Env) (parent count pos : Nat) : Calc Nat := do
  let p ← E.nextPowerOfTwo count
  let b ← E.mul parent p
  E.add b pos

theorem Env.add_lt {E : Env} {a b r : Nat} (h : E.add a b = .ok r) : r < 2 ^ 64 := by
  unfold Env.add usizeMod at h
  split at h
  · cases h; assumption
  · split at h
    · cases h
    · cases h; exact Nat.mod_lt _ (by decide)

theorem Env.mul_lt {E : Env} {a b r : Nat} (h : E.mul a b = .ok r) : r < 2 ^ 64 := by
  unfold Env.mul usizeMod at h
  split at h
  · cases h; assumption
  · split at h
    · cases h
    · cases h; exact Nat.mod_lt _ (by decide)

/-- `f`, the arithmetic of a step, computes the concatenation with `g`: exactly, if the result and
the sizes (under `P`) fit in 64 bits; in builds with overflow checks, it does so or panics; in other
builds it gives some result, modulo `2^64` if the sizes fit. Results are `usize` values. -/
def Gives (E : Env) (f : Nat → Calc Nat) (g : Nat) (P : Prop) : Prop :=
  (∀ p, 1 ≤ p → P → gcat p g < 2 ^ 64 → f p = .ok (gcat p g)) ∧
  (∀ p r, E.debug = true → f p = .ok r → r = gcat p g) ∧
  (∀ p, E.debug = false → ∃ r, f p = .ok r) ∧
  (∀ p r, f p = .ok r → r < 2 ^ 64) ∧
  (∀ p, E.debug = false → P → f p = .ok (gcat p g % 2 ^ 64))

theorem Env.mul_wraps {E : Env} (hE : E.debug = false) (a b : Nat) :
    E.mul a b = .ok (a * b % 2 ^ 64) := by
  unfold Env.mul usizeMod
  simp only [hE, Bool.false_eq_true, if_false]
  split
  · rw [Nat.mod_eq_of_lt ‹_›]
  · rfl

theorem Env.add_wraps {E : Env} (hE : E.debug = false) (a b : Nat) :
    E.add a b = .ok ((a + b) % 2 ^ 64) := by
  unfold Env.add usizeMod
  simp only [hE, Bool.false_eq_true, if_false]
  split
  · rw [Nat.mod_eq_of_lt ‹_›]
  · rfl

/-- Concatenation respects the remainder modulo `2^64` of the first index. -/
theorem gcat_mod (p g : Nat) : gcat (p % 2 ^ 64) g % 2 ^ 64 = gcat p g % 2 ^ 64 := by
  rw [gcat, gcat, Nat.add_mod, Nat.mod_mul_mod, ← Nat.add_mod]

theorem depthFor_large {count : Nat} (h : 2 ^ 63 < count) : 64 ≤ depthFor count := by
  refine Nat.lt_of_not_le fun h1 => ?_
  have h2 := Nat.pow_le_pow_right (n := 2) (by decide) h1
  have := le_pow_depthFor count
  omega

theorem slotCalc_gives (E : Env) {count pos : Nat} (h : pos < 2 ^ depthFor count) :
    Gives E (fun p => slotCalc E p count pos) (2 ^ depthFor count + pos) True := by
  refine ⟨fun p hp _ hg => ?_, fun p r hE hr => ?_, fun p hE => ?_, fun p r hr => ?_,
    fun p hE _ => ?_⟩
  · rw [gcat_pow h] at hg ⊢
    have hc : count ≤ 2 ^ 63 := by
      refine Nat.le_of_not_lt fun hc => ?_
      have h1 := Nat.pow_le_pow_right (n := 2) (by decide) (depthFor_large hc)
      have h2 := Nat.mul_le_mul_right (2 ^ depthFor count) hp
      omega
    have h1 : p * 2 ^ depthFor count < usizeMod := by simp only [usizeMod]; omega
    simp only [slotCalc]
    rw [nextPowerOfTwo_ok hc, Res.ok_bind, Env.mul_eq_ok h1, Res.ok_bind, Env.add_eq_ok]
    simpa only [usizeMod] using hg
  · rw [gcat_pow h]
    simp only [slotCalc, Res.bind_eq_ok] at hr
    obtain ⟨a, h1, b, h2, h3⟩ := hr
    rw [Env.nextPowerOfTwo_debug hE h1] at h2
    rw [Env.mul_debug hE h2] at h3
    exact Env.add_debug hE h3
  · obtain ⟨a, ha⟩ := Env.nextPowerOfTwo_release hE count
    obtain ⟨b, hb⟩ := Env.mul_release hE p a
    obtain ⟨c, hc⟩ := Env.add_release hE b pos
    exact ⟨c, by simp only [slotCalc]; rw [ha, Res.ok_bind, hb, Res.ok_bind, hc]⟩
  · simp only [slotCalc, Res.bind_eq_ok] at hr
    obtain ⟨a, h1, b, h2, h3⟩ := hr
    exact Env.add_lt h3
  · rw [gcat_pow h]
    simp only [slotCalc]
    by_cases hc : count ≤ 2 ^ 63
    · rw [nextPowerOfTwo_ok hc, Res.ok_bind, Env.mul_wraps hE, Res.ok_bind, Env.add_wraps hE,
        Nat.mod_add_mod]
    · obtain ⟨k, hk⟩ := Nat.exists_eq_add_of_le (depthFor_large (count := count) (by omega))
      rw [nextPowerOfTwo_overflow (by omega), hE, if_neg (by decide), Res.ok_bind,
        Env.mul_wraps hE, Res.ok_bind, Env.add_wraps hE, hk, Nat.pow_add,
        show p * (2 ^ 64 * 2 ^ k) = 2 ^ 64 * (p * 2 ^ k) by
          rw [← Nat.mul_assoc, ← Nat.mul_assoc, Nat.mul_comm p], Nat.mul_add_mod]
      simp

theorem Gives.mono {E : Env} {f : Nat → Calc Nat} {g : Nat} {P Q : Prop} (h : Gives E f g P)
    (hq : Q → P) : Gives E f g Q :=
  ⟨fun p hp q => h.1 p hp (hq q), h.2.1, h.2.2.1, h.2.2.2.1, fun p hE q => h.2.2.2.2 p hE (hq q)⟩

/-- One more level above. -/
theorem Gives.twice {E : Env} {f : Nat → Calc Nat} {d i : Nat} {P : Prop} (hi : i < 2 ^ d)
    (h : Gives E f (2 ^ d + i) P) :
    Gives E (fun p => E.mul p 2 >>= f) (2 * 2 ^ d + i) P := by
  have h2 : ∀ p, gcat p (2 * 2 ^ d + i) = gcat (p * 2) (2 ^ d + i) := fun p => by
    have : 2 * 2 ^ d + i = 2 ^ (d + 1) + i := by rw [Nat.pow_succ]; omega
    rw [gcat_pow hi, this, gcat_pow (by rw [Nat.pow_succ]; omega), Nat.pow_succ, Nat.mul_assoc,
      Nat.mul_comm 2]
  refine ⟨fun p hp q hg => ?_, fun p r hE hr => ?_, fun p hE => ?_, fun p r hr => ?_,
    fun p hE q => ?_⟩
  · rw [h2] at hg ⊢
    have h3 := le_gcat (p * 2) (2 ^ d + i)
    show (E.mul p 2 >>= f) = _
    rw [Env.mul_eq_ok (by simp only [usizeMod]; omega), Res.ok_bind]
    exact h.1 _ (by omega) q hg
  · rw [h2]
    obtain ⟨a, h3, h4⟩ := Res.bind_eq_ok.1 hr
    rw [Env.mul_debug hE h3] at h4
    exact h.2.1 _ _ hE h4
  · obtain ⟨a, ha⟩ := Env.mul_release hE p 2
    obtain ⟨r, hr⟩ := h.2.2.1 a hE
    exact ⟨r, by show (E.mul p 2 >>= f) = _; rw [ha, Res.ok_bind, hr]⟩
  · obtain ⟨a, _, h4⟩ := Res.bind_eq_ok.1 hr
    exact h.2.2.2.1 _ _ h4
  · show (E.mul p 2 >>= f) = _
    rw [Env.mul_wraps hE, Res.ok_bind, h.2.2.2.2 _ hE q, gcat_mod, h2]

theorem left_gives (E : Env) : Gives E (fun p => E.mul p 2) 2 True := by
  have h2 : ∀ p, gcat p 2 = p * 2 := fun p => gcat_pow (g := p) (d := 1) (i := 0) (by decide)
  refine ⟨fun p hp _ hg => ?_, fun p r hE hr => ?_, fun p hE => Env.mul_release hE p 2,
    fun p r hr => Env.mul_lt hr, fun p hE _ => ?_⟩
  · rw [h2] at hg ⊢
    exact Env.mul_eq_ok hg
  · rw [h2]; exact Env.mul_debug hE hr
  · rw [h2]; exact Env.mul_wraps hE p 2

theorem right_gives (E : Env) : Gives E (fun p => E.mul p 2 >>= fun a => E.add a 1) 3 True := by
  have h2 : ∀ p, gcat p 3 = p * 2 + 1 := fun p => gcat_pow (g := p) (d := 1) (i := 1) (by decide)
  refine ⟨fun p hp _ hg => ?_, fun p r hE hr => ?_, fun p hE => ?_, fun p r hr => ?_,
    fun p hE _ => ?_⟩
  · rw [h2] at hg ⊢
    show (E.mul p 2 >>= fun a => E.add a 1) = _
    rw [Env.mul_eq_ok (by simp only [usizeMod]; omega), Res.ok_bind]
    exact Env.add_eq_ok hg
  · rw [h2]
    obtain ⟨a, h3, h4⟩ := Res.bind_eq_ok.1 hr
    rw [Env.mul_debug hE h3] at h4
    exact Env.add_debug hE h4
  · obtain ⟨a, ha⟩ := Env.mul_release hE p 2
    obtain ⟨r, hr⟩ := Env.add_release hE a 1
    exact ⟨r, by show (E.mul p 2 >>= fun a => E.add a 1) = _; rw [ha, Res.ok_bind, hr]⟩
  · obtain ⟨a, _, h4⟩ := Res.bind_eq_ok.1 hr
    exact Env.add_lt h4
  · show (E.mul p 2 >>= fun a => E.add a 1) = _
    rw [h2, Env.mul_wraps hE, Res.ok_bind, Env.add_wraps hE, Nat.mod_add_mod]

/-! ## Item lengths and chunk counts -/

theorem itemLength_ok (E : Env) (t : Ty) : (t.impl E).itemLength = .ok (itemLen prims t) := by
  cases t with
  | uint u => cases u <;> rfl
  | _ => rfl

theorem itemLen_pos (t : Ty) : 1 ≤ itemLen prims t := by
  cases t with
  | uint u => cases u <;> decide
  | _ => simp [itemLen, prims, fixedLen]

theorem itemLen_le (t : Ty) : itemLen prims t ≤ 32 := by
  cases t with
  | uint u => cases u <;> decide
  | _ => simp [itemLen, prims, fixedLen]

/-- The arithmetic of the chunk count of a collection. -/
def countCalc (E : Env) (t : Ty) (n : Nat) : Calc Nat := do
  let a ← E.mul n (itemLen prims t)
  let b ← E.add a 31
  .ok (b / 32)

theorem itemChunkCount_eq (E : Env) (t : Ty) (n : Nat) :
    itemChunkCount E (t.impl E) n = countCalc E t n := by
  rw [itemChunkCount, itemLength_ok, Res.ok_bind]
  rfl

theorem countCalc_ok {E : Env} {t : Ty} {n : Nat} (h : n * itemLen prims t + 31 < 2 ^ 64) :
    countCalc E t n = .ok (itemCount prims t n) := by
  unfold itemCount
  unfold countCalc
  rw [Env.mul_eq_ok (by simp only [usizeMod]; omega), Res.ok_bind,
    Env.add_eq_ok (by simp only [usizeMod]; omega), Res.ok_bind]

theorem countCalc_debug {E : Env} (hE : E.debug = true) {t : Ty} {n r : Nat}
    (h : countCalc E t n = .ok r) : r = itemCount prims t n := by
  simp only [countCalc, Res.bind_eq_ok] at h
  obtain ⟨a, h1, b, h2, h3⟩ := h
  rw [Env.mul_debug hE h1] at h2
  rw [Env.add_debug hE h2] at h3
  cases h3; rfl

theorem countCalc_release {E : Env} (hE : E.debug = false) (t : Ty) (n : Nat) :
    ∃ r, countCalc E t n = .ok r := by
  obtain ⟨a, ha⟩ := Env.mul_release hE n (itemLen prims t)
  obtain ⟨b, hb⟩ := Env.add_release hE a 31
  exact ⟨b / 32, by simp only [countCalc]; rw [ha, Res.ok_bind, hb, Res.ok_bind]⟩

theorem item_pos {t : Ty} {n i : Nat} (h : i < n) :
    i * itemLen prims t / 32 < 2 ^ depthFor (itemCount prims t n) := by
  refine Nat.lt_of_lt_of_le ?_ (le_pow_depthFor _)
  have h1 := itemLen_pos t
  have h2 := Nat.mul_le_mul_right (itemLen prims t) (show i + 1 ≤ n from h)
  rw [Nat.add_mul] at h2
  unfold itemCount
  omega

/-- The arithmetic of a step to an element of a collection. -/
def elemCalc (E : Env) (t : Ty) (n i parent : Nat) : Calc Nat := do
  let a ← E.mul i (itemLen prims t)
  let count ← countCalc E t n
  slotCalc E parent count (a / 32)

theorem elemCalc_gives (E : Env) {t : Ty} {n i : Nat} (h : i < n) :
    Gives E (elemCalc E t n i) (2 ^ depthFor (itemCount prims t n) + i * itemLen prims t / 32)
      (n * itemLen prims t + 31 < 2 ^ 64) := by
  have hs := slotCalc_gives E (item_pos (t := t) h)
  refine ⟨fun p hp hc hg => ?_, fun p r hE hr => ?_, fun p hE => ?_, fun p r hr => ?_,
    fun p hE hc => ?_⟩
  · have h1 := Nat.mul_le_mul_right (itemLen prims t) (Nat.le_of_lt h)
    have h2 : i * itemLen prims t < usizeMod := by
      simp only [usizeMod]; omega
    simp only [elemCalc]
    rw [Env.mul_eq_ok h2, Res.ok_bind, countCalc_ok hc, Res.ok_bind]
    exact hs.1 p hp trivial hg
  · simp only [elemCalc, Res.bind_eq_ok] at hr
    obtain ⟨a, h1, b, h2, h3⟩ := hr
    rw [Env.mul_debug hE h1, countCalc_debug hE h2] at h3
    exact hs.2.1 p r hE h3
  · obtain ⟨a, ha⟩ := Env.mul_release hE i (itemLen prims t)
    obtain ⟨b, hb⟩ := countCalc_release hE t n
    obtain ⟨c, hc⟩ := Env.nextPowerOfTwo_release hE b
    obtain ⟨d, hd⟩ := Env.mul_release hE p c
    obtain ⟨e, he⟩ := Env.add_release hE d (a / 32)
    refine ⟨e, ?_⟩
    simp only [elemCalc, slotCalc]
    rw [ha, Res.ok_bind, hb, Res.ok_bind, hc, Res.ok_bind, hd, Res.ok_bind, he]
  · simp only [elemCalc, slotCalc, Res.bind_eq_ok] at hr
    obtain ⟨_, _, _, _, _, _, _, _, h3⟩ := hr
    exact Env.add_lt h3
  · have h1 := Nat.mul_le_mul_right (itemLen prims t) (Nat.le_of_lt h)
    have h2 : i * itemLen prims t < usizeMod := by
      simp only [usizeMod]; omega
    simp only [elemCalc]
    rw [Env.mul_eq_ok h2, Res.ok_bind, countCalc_ok hc, Res.ok_bind]
    exact hs.2.2.2.2 p hE trivial

/-! ## Where the arithmetic fails -/

/-- If `P` fails, the arithmetic of a step panics with overflow checks. Without them, from an index
that is not too large it gives an index that is not too large, and one that is too small if `P` fails
or the index it comes from is too small. -/
def Falls (E : Env) (f : Nat → Calc Nat) (g : Nat) (P : Prop) : Prop :=
  (E.debug = true → ¬ P → ∀ p, f p = .panic) ∧
  (E.debug = false → ∀ p q, 1 ≤ p → q ≤ p → gcat p g < 2 ^ 64 →
    ∃ r, f q = .ok r ∧ r ≤ gcat p g ∧ (q < p ∨ ¬ P → r < gcat p g))

theorem gcat_le {p q : Nat} (g : Nat) (h : q ≤ p) : gcat q g ≤ gcat p g := by
  unfold gcat
  have := Nat.mul_le_mul_right (2 ^ Nat.log2 g) h
  omega

theorem gcat_lt {p q : Nat} (g : Nat) (h : q < p) : gcat q g < gcat p g := by
  unfold gcat
  have := Nat.mul_lt_mul_of_pos_right h (Nat.two_pow_pos (Nat.log2 g))
  omega

/-- Where the numbers fit, nothing fails. -/
theorem Gives.falls {E : Env} {f : Nat → Calc Nat} {g : Nat} {P : Prop} (h : Gives E f g P)
    (hP : P) : Falls E f g P := by
  refine ⟨fun _ hn => absurd hP hn, fun hE p q _ hq hg => ?_⟩
  have h1 := gcat_le g hq
  refine ⟨_, h.2.2.2.2 q hE hP, ?_, fun h2 => ?_⟩
  · rw [Nat.mod_eq_of_lt (by omega)]; exact h1
  · rw [Nat.mod_eq_of_lt (by omega)]
    rcases h2 with h2 | h2
    · exact gcat_lt g h2
    · exact absurd hP h2

theorem Falls.twice {E : Env} {f : Nat → Calc Nat} {d i : Nat} {P : Prop} (hi : i < 2 ^ d)
    (h : Falls E f (2 ^ d + i) P) : Falls E (fun p => E.mul p 2 >>= f) (2 * 2 ^ d + i) P := by
  have h2 : ∀ p, gcat p (2 * 2 ^ d + i) = gcat (p * 2) (2 ^ d + i) := fun p => by
    have : 2 * 2 ^ d + i = 2 ^ (d + 1) + i := by rw [Nat.pow_succ]; omega
    rw [gcat_pow hi, this, gcat_pow (by rw [Nat.pow_succ]; omega), Nat.pow_succ, Nat.mul_assoc,
      Nat.mul_comm 2]
  refine ⟨fun hE hn p => ?_, fun hE p q hp hq hg => ?_⟩
  · show (E.mul p 2 >>= f) = _
    cases hm : E.mul p 2 with
    | ok a => exact h.1 hE hn a
    | err e => exact e.elim
    | panic => rfl
  · rw [h2] at hg ⊢
    have h3 := le_gcat (p * 2) (2 ^ d + i)
    obtain ⟨r, h4, h5, h6⟩ := h.2 hE (p * 2) (q * 2) (by omega) (by omega) hg
    refine ⟨r, ?_, h5, fun h7 => h6 (h7.imp (by omega) id)⟩
    show (E.mul q 2 >>= f) = _
    rw [Env.mul_eq_ok (by simp only [usizeMod]; omega), Res.ok_bind, h4]

theorem Env.mul_overflow {E : Env} (hE : E.debug = true) {a b : Nat} (h : 2 ^ 64 ≤ a * b) :
    E.mul a b = .panic := by
  unfold Env.mul usizeMod
  rw [if_neg (by omega), hE]; rfl

theorem Env.add_overflow {E : Env} (hE : E.debug = true) {a b : Nat} (h : 2 ^ 64 ≤ a + b) :
    E.add a b = .panic := by
  unfold Env.add usizeMod
  rw [if_neg (by omega), hE]; rfl

theorem countCalc_overflow {E : Env} (hE : E.debug = true) {t : Ty} {n : Nat}
    (h : 2 ^ 64 ≤ n * itemLen prims t + 31) : countCalc E t n = .panic := by
  unfold countCalc
  by_cases h1 : n * itemLen prims t < 2 ^ 64
  · rw [Env.mul_eq_ok h1, Res.ok_bind, Env.add_overflow hE h]; rfl
  · rw [Env.mul_overflow hE (by omega)]; rfl

/-- The chunk count that wraps is too small by a level of the tree at least. -/
theorem wrapped_depth {s : Nat} (h : 2 ^ 64 ≤ s + 31) :
    depthFor ((s % 2 ^ 64 + 31) % 2 ^ 64 / 32) < depthFor ((s + 31) / 32) := by
  have h0 : ∀ {k c : Nat}, 2 ^ k < c → k < depthFor c := fun {k c} hc => by
    refine Nat.lt_of_not_le fun h1 => ?_
    have h2 := Nat.pow_le_pow_right (n := 2) (by decide) h1
    have := le_pow_depthFor c
    omega
  by_cases h1 : (s % 2 ^ 64 + 31) % 2 ^ 64 / 32 ≤ 2 ^ 58
  · exact Nat.lt_of_le_of_lt (depthFor_le h1) (h0 (by omega))
  · refine Nat.lt_of_le_of_lt (depthFor_le (d := 59) (by omega)) (h0 (by omega))

theorem elemCalc_falls (E : Env) {t : Ty} {n i : Nat} (h : i < n) :
    Falls E (elemCalc E t n i) (2 ^ depthFor (itemCount prims t n) + i * itemLen prims t / 32)
      (n * itemLen prims t + 31 < 2 ^ 64) := by
  by_cases hP : n * itemLen prims t + 31 < 2 ^ 64
  · exact (elemCalc_gives E h).falls hP
  · refine ⟨fun hE _ p => ?_, fun hE p q hp hq hg => ?_⟩
    · simp only [elemCalc]
      rw [countCalc_overflow hE (by omega)]
      cases E.mul i (itemLen prims t) with
      | ok a => rfl
      | err e => exact e.elim
      | panic => rfl
    · rw [gcat_pow (item_pos h)] at hg ⊢
      have hw := wrapped_depth (s := n * itemLen prims t) (by omega)
      have hc : countCalc E t n =
          .ok ((n * itemLen prims t % 2 ^ 64 + 31) % 2 ^ 64 / 32) := by
        unfold countCalc
        rw [Env.mul_wraps hE, Res.ok_bind, Env.add_wraps hE, Res.ok_bind]
      have hle : (n * itemLen prims t % 2 ^ 64 + 31) % 2 ^ 64 / 32 ≤ 2 ^ 63 := by omega
      generalize (n * itemLen prims t % 2 ^ 64 + 31) % 2 ^ 64 / 32 = c at hw hc hle
      change depthFor c < depthFor (itemCount prims t n) at hw
      have h1 : 2 ^ depthFor c < 2 ^ depthFor (itemCount prims t n) :=
        Nat.pow_lt_pow_right (by decide) hw
      have h2 : q * 2 ^ depthFor c ≤ p * 2 ^ depthFor c := Nat.mul_le_mul_right _ hq
      have h3 : p * 2 ^ depthFor c < p * 2 ^ depthFor (itemCount prims t n) :=
        Nat.mul_lt_mul_of_pos_left h1 hp
      have h4 : i * itemLen prims t % 2 ^ 64 / 32 ≤ i * itemLen prims t / 32 :=
        Nat.div_le_div_right (Nat.mod_le _ _)
      refine ⟨q * 2 ^ depthFor c + i * itemLen prims t % 2 ^ 64 / 32, ?_, by omega, fun _ => by omega⟩
      simp only [elemCalc, slotCalc]
      rw [Env.mul_wraps hE, Res.ok_bind, hc, Res.ok_bind, nextPowerOfTwo_ok hle, Res.ok_bind,
        Env.mul_eq_ok (by simp only [usizeMod]; omega), Res.ok_bind,
        Env.add_eq_ok (by simp only [usizeMod]; omega)]

/-! ## One step of the code -/

theorem cgi_nil (E : Env) : ∀ (t : Ty) (p : Nat), (t.impl E).computeGeneralizedIndex p [] = .ok p
  | .uint _, _ => rfl
  | .u256, _ => rfl
  | .bool, _ => rfl
  | .node, _ => rfl
  | .array _ _, _ => rfl
  | .vector _ _, _ => rfl
  | .list _ _, _ => rfl
  | .bitvector _, _ => rfl
  | .bitlist _, _ => rfl
  | .option _, _ => rfl
  | .newtype t, p => cgi_nil E t p
  | .container _, _ => rfl
  | .union _, _ => rfl

/-- The code refuses the path element. -/
def Refuses (E : Env) (t : Ty) (e : PathElement) : Prop :=
  ∀ p path, ∃ x, (t.impl E).computeGeneralizedIndex p (e :: path) = .err x

/-- The code continues at type `u` with the index that `f` computes, or, if `u` is a number, accepts
no further path elements. -/
def Continues (E : Env) (t : Ty) (e : PathElement) (f : Nat → Calc Nat) (u : Ty) : Prop :=
  (∀ p path, (t.impl E).computeGeneralizedIndex p (e :: path) =
    (f p).lift >>= fun c => (u.impl E).computeGeneralizedIndex c path) ∨
  (u = number ∧ (∀ p, (t.impl E).computeGeneralizedIndex p [e] = (f p).lift) ∧
    (∀ p path, path ≠ [] → ∃ x, (t.impl E).computeGeneralizedIndex p (e :: path) = .err x) ∧
    (e = .length ∨ e = .selector))

/-- What the code does with the first element of a path. -/
def StepOk (E : Env) (t : Ty) (e : PathElement) : Prop :=
  match stepBy prims t e with
  | none => Refuses E t e
  | some (g, u) =>
    if isBitlist t && e == .length then Refuses E t e
    else ∃ f, (Gives E f g (counts t e) ∧ Falls E f g (counts t e)) ∧ Continues E t e f u

theorem fieldAt_lt {name : String} {k : Nat} {u : Ty} : ∀ {fs : Fields},
    fieldAt fs name = some (k, u) → k < countF fs
  | .nil, h => by cases h
  | .cons n t rest, h => by
    rw [fieldAt] at h
    rw [countF]
    split at h
    · cases h; omega
    · obtain ⟨⟨k', u'⟩, h1, h2⟩ := Option.map_eq_some_iff.1 h
      cases h2
      have := fieldAt_lt h1
      omega

theorem field_step (E : Env) (total parent : Nat) (path : List PathElement) (name : String) :
    ∀ (fs : Fields) (i : Nat),
    (fs.impls E).generalizedIndexByField E total parent path name i =
      match fieldAt fs name with
      | none => .err (.invalidPathElement (.field name))
      | some (k, u) => (slotCalc E parent total (i + k)).lift >>= fun c =>
          (u.impl E).computeGeneralizedIndex c path
  | .nil, i => rfl
  | .cons n t rest, i => by
    show (if name = n then _ else (rest.impls E).generalizedIndexByField E total parent path name (i + 1)) = _
    rw [field_step E total parent path name rest (i + 1), fieldAt]
    by_cases h : name = n
    · rw [if_pos h, if_pos h]
      simp only [slotCalc, Res.lift_bind, Res.bind_assoc, Nat.add_zero]
    · rw [if_neg h, if_neg h]
      cases fieldAt rest name with
      | none => rfl
      | some p =>
        show _ = (slotCalc E parent total (i + (p.1 + 1))).lift >>= _
        rw [Nat.add_comm p.1, ← Nat.add_assoc]

theorem variant_step (E : Env) (child : Nat) (path : List PathElement) :
    ∀ (vs : Variants) (i : Nat), variantAt vs i = (none : Option (Option Ty)) ∧ (vs.impls E).count ≤ i ∨
      i < (vs.impls E).count ∧ (
      (variantAt vs i = some none ∧ (vs.impls E).generalizedIndex child path i =
          if path.isEmpty then .ok child else .err (.invalidPath path)) ∨
      ∃ t, variantAt vs i = some (some t) ∧ (vs.impls E).generalizedIndex child path i =
          (t.impl E).computeGeneralizedIndex child path)
  | .nil, i => Or.inl ⟨rfl, Nat.zero_le _⟩
  | .unit rest, 0 => Or.inr ⟨by show 0 < 1 + (rest.impls E).count; omega, Or.inl ⟨rfl, rfl⟩⟩
  | .data t rest, 0 => Or.inr ⟨by show 0 < 1 + (rest.impls E).count; omega, Or.inr ⟨t, rfl, rfl⟩⟩
  | .unit rest, i + 1 => by
    have hc : ((Variants.unit rest).impls E).count = 1 + (rest.impls E).count := rfl
    rw [hc]
    rcases variant_step E child path rest i with ⟨h1, h2⟩ | ⟨h2, h1⟩
    · exact Or.inl ⟨h1, by omega⟩
    · exact Or.inr ⟨by omega, h1⟩
  | .data t rest, i + 1 => by
    have hc : ((Variants.data t rest).impls E).count = 1 + (rest.impls E).count := rfl
    rw [hc]
    rcases variant_step E child path rest i with ⟨h1, h2⟩ | ⟨h2, h1⟩
    · exact Or.inl ⟨h1, by omega⟩
    · exact Or.inr ⟨by omega, h1⟩

theorem refuses_of_path {E : Env} {t : Ty} {e : PathElement}
    (h : ∀ p path, (t.impl E).computeGeneralizedIndex p (e :: path) = .err (.invalidPath (e :: path))) :
    Refuses E t e := fun p path => ⟨_, h p path⟩

theorem refuses_of_elem {E : Env} {t : Ty} {e : PathElement}
    (h : ∀ p path, (t.impl E).computeGeneralizedIndex p (e :: path) = .err (.invalidPathElement e)) :
    Refuses E t e := fun p path => ⟨_, h p path⟩

theorem vector_step (E : Env) (t : Ty) (n i p : Nat) (path : List PathElement) :
    vectorGeneralizedIndex E (t.impl E) n p (.index i :: path) =
      if i < n then (elemCalc E t n i p).lift >>= fun c => (t.impl E).computeGeneralizedIndex c path
      else .err (.invalidPathElement (.index i)) := by
  rw [vectorGeneralizedIndex]
  by_cases h : i < n
  · rw [if_neg (by omega), if_pos h, itemLength_ok, itemChunkCount_eq]
    simp only [Res.lift_ok, Res.ok_bind, elemCalc, slotCalc, Res.lift_bind, Res.bind_assoc]
  · rw [if_pos (by omega), if_neg h]

/-- The operations of `List::compute_generalized_index` in the order of the code. -/
def listCalc (E : Env) (t : Ty) (n i parent : Nat) : Calc Nat := do
  let a ← E.mul i (itemLen prims t)
  let twice ← E.mul parent 2
  let count ← countCalc E t n
  slotCalc E twice count (a / 32)

theorem list_step (E : Env) (t : Ty) (n i p : Nat) (path : List PathElement) :
    listGeneralizedIndex E (t.impl E) n p (.index i :: path) =
      if i < n then (listCalc E t n i p).lift >>= fun c => (t.impl E).computeGeneralizedIndex c path
      else .err (.invalidPathElement (.index i)) := by
  rw [listGeneralizedIndex]
  by_cases h : i < n
  · rw [if_neg (by omega), if_pos h, itemLength_ok, itemChunkCount_eq]
    simp only [Res.lift_ok, Res.ok_bind, listCalc, slotCalc, Res.lift_bind, Res.bind_assoc]
  · rw [if_pos (by omega), if_neg h]

theorem listCalc_eq (E : Env) (t : Ty) (n i : Nat) :
    listCalc E t n i = fun p => E.mul p 2 >>= elemCalc E t n i := by
  funext p
  have h : elemCalc E t n i = fun q => E.mul i (itemLen prims t) >>= fun a =>
      countCalc E t n >>= fun count => slotCalc E q count (a / 32) := rfl
  simp only [listCalc, h]
  cases E.mul i (itemLen prims t) with
  | err e => exact e.elim
  | panic =>
    cases E.mul p 2 with
    | err e => exact e.elim
    | panic => rfl
    | ok b => rfl
  | ok a => rfl

theorem bitvector_step (E : Env) (n i p : Nat) (path : List PathElement) :
    bitvectorGeneralizedIndex E n p (.index i :: path) =
      if i < n then (slotCalc E p (bitsChunkCount n) (i / 256)).lift >>= fun c =>
        (Ty.bool.impl E).computeGeneralizedIndex c path
      else .err (.invalidPathElement (.index i)) := by
  rw [bitvectorGeneralizedIndex]
  by_cases h : i < n
  · rw [if_neg (by omega), if_pos h]
    simp only [slotCalc, Res.lift_bind, Res.bind_assoc]
    rfl
  · rw [if_pos (by omega), if_neg h]

theorem bitlist_step (E : Env) (n i p : Nat) (path : List PathElement) :
    bitlistGeneralizedIndex E n p (.index i :: path) =
      if i < n then (E.mul p 2 >>= fun q => slotCalc E q (bitsChunkCount n) (i / 256)).lift >>= fun c =>
        (Ty.bool.impl E).computeGeneralizedIndex c path
      else .err (.invalidPathElement (.index i)) := by
  rw [bitlistGeneralizedIndex]
  by_cases h : i < n
  · rw [if_neg (by omega), if_pos h]
    simp only [slotCalc, Res.lift_bind, Res.bind_assoc]
    rfl
  · rw [if_pos (by omega), if_neg h]

theorem bit_pos {n i : Nat} (h : i < n) : i / 256 < 2 ^ depthFor ((n + 255) / 256) :=
  Nat.lt_of_lt_of_le (by omega) (le_pow_depthFor _)

/-- The step to the length or the selector. -/
theorem right_step {E : Env} {t : Ty} {e : PathElement} (he : e = .length ∨ e = .selector)
    (h : ∀ p path, (t.impl E).computeGeneralizedIndex p (e :: path) =
      if path.isEmpty then (E.mul p 2).lift >>= fun a => (E.add a 1).lift else .err (.invalidPath path)) :
    ∃ f, (Gives E f 3 True ∧ Falls E f 3 True) ∧ Continues E t e f number := by
  refine ⟨_, ⟨right_gives E, (right_gives E).falls trivial⟩, Or.inr ⟨rfl, fun p => ?_, fun p path hp => ?_, he⟩⟩
  · rw [h, Res.lift_bind]; rfl
  · cases path with
    | nil => exact absurd rfl hp
    | cons a l => exact ⟨_, h p _⟩

theorem step_ok (E : Env) : ∀ (t : Ty) (e : PathElement), StepOk E t e
  | .uint _, _ => refuses_of_path fun _ _ => rfl
  | .u256, _ => refuses_of_path fun _ _ => rfl
  | .bool, _ => refuses_of_path fun _ _ => rfl
  | .node, _ => refuses_of_path fun _ _ => rfl
  | .array t n, .index i => by
    unfold StepOk
    simp only [stepBy]
    by_cases h : i < n
    · rw [if_pos h]
      exact ⟨_, ⟨elemCalc_gives E h, elemCalc_falls E h⟩, Or.inl fun p path =>
        (vector_step E t n i p path).trans (if_pos h)⟩
    · rw [if_neg h]
      exact refuses_of_elem fun p path => (vector_step E t n i p path).trans (if_neg h)
  | .array _ _, .field _ => refuses_of_elem fun _ _ => rfl
  | .array _ _, .length => refuses_of_elem fun _ _ => rfl
  | .array _ _, .selector => refuses_of_elem fun _ _ => rfl
  | .vector t n, .index i => by
    unfold StepOk
    simp only [stepBy]
    by_cases h : i < n
    · rw [if_pos h]
      exact ⟨_, ⟨elemCalc_gives E h, elemCalc_falls E h⟩, Or.inl fun p path =>
        (vector_step E t n i p path).trans (if_pos h)⟩
    · rw [if_neg h]
      exact refuses_of_elem fun p path => (vector_step E t n i p path).trans (if_neg h)
  | .vector _ _, .field _ => refuses_of_elem fun _ _ => rfl
  | .vector _ _, .length => refuses_of_elem fun _ _ => rfl
  | .vector _ _, .selector => refuses_of_elem fun _ _ => rfl
  | .list t n, .index i => by
    unfold StepOk
    simp only [stepBy]
    by_cases h : i < n
    · rw [if_pos h]
      refine ⟨_, ⟨(elemCalc_gives E h).twice (item_pos h), (elemCalc_falls E h).twice (item_pos h)⟩,
        Or.inl fun p path => (list_step E t n i p path).trans ?_⟩
      rw [if_pos h, listCalc_eq]
    · rw [if_neg h]
      exact refuses_of_elem fun p path => (list_step E t n i p path).trans (if_neg h)
  | .list _ _, .field _ => refuses_of_elem fun _ _ => rfl
  | .list _ _, .length => right_step (.inl rfl) fun _ _ => rfl
  | .list _ _, .selector => refuses_of_elem fun _ _ => rfl
  | .bitvector n, .index i => by
    unfold StepOk
    simp only [stepBy]
    by_cases h : i < n
    · rw [if_pos h]
      exact ⟨_, ⟨slotCalc_gives E (bit_pos h), (slotCalc_gives E (bit_pos h)).falls trivial⟩, Or.inl fun p path =>
        (bitvector_step E n i p path).trans (if_pos h)⟩
    · rw [if_neg h]
      exact refuses_of_elem fun p path => (bitvector_step E n i p path).trans (if_neg h)
  | .bitvector _, .field _ => refuses_of_elem fun _ _ => rfl
  | .bitvector _, .length => refuses_of_elem fun _ _ => rfl
  | .bitvector _, .selector => refuses_of_elem fun _ _ => rfl
  | .bitlist n, .index i => by
    unfold StepOk
    simp only [stepBy]
    by_cases h : i < n
    · rw [if_pos h]
      exact ⟨_, ⟨(slotCalc_gives E (bit_pos h)).twice (bit_pos h),
        ((slotCalc_gives E (bit_pos h)).twice (bit_pos h)).falls trivial⟩, Or.inl fun p path =>
        (bitlist_step E n i p path).trans (if_pos h)⟩
    · rw [if_neg h]
      exact refuses_of_elem fun p path => (bitlist_step E n i p path).trans (if_neg h)
  | .bitlist _, .field _ => refuses_of_elem fun _ _ => rfl
  | .bitlist _, .length => refuses_of_elem fun _ _ => rfl
  | .bitlist _, .selector => refuses_of_elem fun _ _ => rfl
  | .option t, .index 0 =>
    ⟨_, ⟨left_gives E, (left_gives E).falls trivial⟩, Or.inl fun p path => by
      show ((E.mul p 2).lift >>= fun child =>
        (if path.isEmpty then .ok child else .err (.invalidPath path) : Res MerkError Nat)) = _
      rfl⟩
  | .option t, .index 1 =>
    ⟨_, ⟨left_gives E, (left_gives E).falls trivial⟩, Or.inl fun p path => rfl⟩
  | .option t, .index (i + 2) => by
    have h : stepBy prims (.option t) (.index (i + 2)) = none := by
      rw [stepBy, if_neg (by omega), if_neg (by omega)]
    unfold StepOk
    rw [h]
    refine refuses_of_elem fun p path => ?_
    rfl
  | .option _, .field _ => refuses_of_elem fun _ _ => rfl
  | .option _, .length => refuses_of_elem fun _ _ => rfl
  | .option _, .selector => right_step (.inr rfl) fun _ _ => rfl
  | .newtype t, e => step_ok E t e
  | .container fs, .field name => by
    have hr := fun p path => field_step E (fs.impls E).count p path name fs 0
    unfold StepOk
    simp only [stepBy]
    cases h : fieldAt fs name with
    | none =>
      refine refuses_of_elem fun p path => ?_
      refine (hr p path).trans ?_
      rw [h]
    | some q =>
      have hg := slotCalc_gives E (pos := q.1) (Nat.lt_of_lt_of_le (fieldAt_lt h) (le_pow_depthFor _))
      refine ⟨_, ⟨hg, hg.falls trivial⟩, Or.inl fun p path => ?_⟩
      refine (hr p path).trans ?_
      rw [h, count_impls]
      show ((slotCalc E p (countF fs) (0 + q.1)).lift >>= _) = _
      rw [Nat.zero_add]
  | .container _, .index _ => refuses_of_elem fun _ _ => rfl
  | .container _, .length => refuses_of_elem fun _ _ => rfl
  | .container _, .selector => refuses_of_elem fun _ _ => rfl
  | .union vs, .index i => by
    have hr : ∀ p path, ((Ty.union vs).impl E).computeGeneralizedIndex p (.index i :: path) =
      if i ≥ (vs.impls E).count then .err (.invalidPathElement (.index i))
      else (E.mul p 2).lift >>= fun child => (vs.impls E).generalizedIndex child path i := fun _ _ => rfl
    unfold StepOk
    simp only [stepBy]
    cases h : variantAt vs i with
    | none =>
      refine refuses_of_elem fun p path => ?_
      rcases variant_step E 0 path vs i with ⟨_, h2⟩ | ⟨_, ⟨h2, _⟩ | ⟨t, h2, _⟩⟩
      · rw [hr, if_pos h2]
      · rw [h] at h2; cases h2
      · rw [h] at h2; cases h2
    | some o =>
      refine ⟨_, ⟨left_gives E, (left_gives E).falls trivial⟩, Or.inl fun p path => ?_⟩
      rw [hr]
      show _ = (E.mul p 2).lift >>= fun c => ((o.getD number).impl E).computeGeneralizedIndex c path
      cases hm : E.mul p 2 with
      | err e => exact e.elim
      | panic =>
        rcases variant_step E 0 path vs i with ⟨h2, _⟩ | ⟨h2, _⟩
        · rw [h] at h2; cases h2
        · rw [if_neg (by omega)]; rfl
      | ok c =>
        rcases variant_step E c path vs i with ⟨h2, _⟩ | ⟨h1, ⟨h2, h3⟩ | ⟨t, h2, h3⟩⟩
        · rw [h] at h2; cases h2
        · rw [h] at h2; cases h2
          rw [if_neg (by omega), Res.lift_ok, Res.ok_bind, h3]
          rfl
        · rw [h] at h2; cases h2
          rw [if_neg (by omega), Res.lift_ok, Res.ok_bind, h3]
          rfl
  | .union _, .field _ => refuses_of_elem fun _ _ => rfl
  | .union _, .length => refuses_of_elem fun _ _ => rfl
  | .union _, .selector => right_step (.inr rfl) fun _ _ => rfl

/-! ## Facts about the specification -/

theorem shallow_field {name : String} {k : Nat} {u : Ty} : ∀ {fs : Fields},
    fieldAt fs name = some (k, u) → ShallowF fs → Shallow u
  | .nil, h, _ => by cases h
  | .cons n t rest, h, hs => by
    rw [fieldAt] at h
    split at h
    · cases h; exact hs.1
    · obtain ⟨⟨k', u'⟩, h1, h2⟩ := Option.map_eq_some_iff.1 h
      cases h2
      exact shallow_field h1 hs.2

theorem shallow_variant {u : Ty} : ∀ {vs : Variants} {i : Nat},
    variantAt vs i = some (some u) → ShallowV vs → Shallow u
  | .nil, _, h, _ => by cases h
  | .unit _, 0, h, _ => by cases h
  | .data t _, 0, h, hs => by cases h; exact hs.1
  | .unit rest, i + 1, h, hs => shallow_variant (vs := rest) (i := i) h hs
  | .data _ rest, i + 1, h, hs => shallow_variant (vs := rest) (i := i) h hs.2

theorem step_pos {pk : Ty → Bool} : ∀ {t : Ty} {e : PathElement} {g : Nat} {u : Ty},
    stepBy pk t e = some (g, u) → 1 ≤ g := by
  intro t e g u h
  fun_induction stepBy pk t e with
  | case1 t n i hi => cases h; have := Nat.two_pow_pos (depthFor (itemCount pk u n)); omega
  | case3 t n i hi => cases h; have := Nat.two_pow_pos (depthFor (itemCount pk u n)); omega
  | case5 t n i hi => cases h; have := Nat.two_pow_pos (depthFor (itemCount pk u n)); omega
  | case8 n i hi => cases h; have := Nat.two_pow_pos (depthFor ((n + 255) / 256)); omega
  | case10 n i hi => cases h; have := Nat.two_pow_pos (depthFor ((n + 255) / 256)); omega
  | case17 t e ih => exact ih h
  | case18 fs name =>
    obtain ⟨p, _, h2⟩ := Option.map_eq_some_iff.1 h
    cases h2
    have := Nat.two_pow_pos (depthFor (countF fs))
    omega
  | case19 vs i =>
    obtain ⟨p, _, h2⟩ := Option.map_eq_some_iff.1 h
    cases h2
    decide
  | _ => cases h <;> decide

theorem shallow_step {pk : Ty → Bool} : ∀ {t : Ty} {e : PathElement} {g : Nat} {u : Ty},
    stepBy pk t e = some (g, u) → Shallow t → Shallow u := by
  intro t e g u h hs
  fun_induction stepBy pk t e with
  | case1 t n i hi => cases h; exact hs.2
  | case3 t n i hi => cases h; exact hs.2
  | case5 t n i hi => cases h; exact hs.2
  | case14 t => cases h; exact hs
  | case17 t e ih => exact ih h hs
  | case18 fs name =>
    obtain ⟨p, h1, h2⟩ := Option.map_eq_some_iff.1 h
    cases h2
    exact shallow_field h1 hs.2
  | case19 vs i =>
    obtain ⟨p, h1, h2⟩ := Option.map_eq_some_iff.1 h
    cases h2
    cases p with
    | none => trivial
    | some w => exact shallow_variant h1 hs
  | _ => cases h <;> trivial

theorem step_type {pk pk' : Ty → Bool} (t : Ty) (e : PathElement) :
    (stepBy pk t e).map (·.2) = (stepBy pk' t e).map (·.2) := by
  fun_induction stepBy pk t e with
  | case17 t e ih => rw [stepBy]; exact ih
  | _ => simp_all [stepBy]

theorem walk_cons {pk : Ty → Bool} {t : Ty} {e : PathElement} {path : List PathElement}
    {g : Nat} {w : Ty} : walkBy pk t (e :: path) = some (g, w) ↔
      ∃ a u b, stepBy pk t e = some (a, u) ∧ walkBy pk u path = some (b, w) ∧ g = gcat a b := by
  rw [walkBy]
  cases h : stepBy pk t e with
  | none => simp
  | some q =>
    obtain ⟨a, u⟩ := q
    simp only [Option.map_eq_some_iff, Option.some.injEq, Prod.mk.injEq, Prod.exists]
    constructor
    · rintro ⟨b, _, h1, h2, rfl⟩; exact ⟨a, u, b, ⟨rfl, rfl⟩, h1, h2.symm⟩
    · rintro ⟨_, _, b, ⟨rfl, rfl⟩, h1, h2⟩; exact ⟨b, w, h1, h2.symm, rfl⟩

theorem walk_pos {pk : Ty → Bool} : ∀ {path : List PathElement} {t : Ty} {g : Nat} {w : Ty},
    walkBy pk t path = some (g, w) → 1 ≤ g
  | [], _, _, _, h => by cases h; exact Nat.le_refl 1
  | e :: path, t, g, w, h => by
    obtain ⟨a, u, b, h1, h2, rfl⟩ := walk_cons.1 h
    exact Nat.le_trans (step_pos h1) (le_gcat a b)

theorem walk_type {pk pk' : Ty → Bool} : ∀ {path : List PathElement} {t : Ty} {g : Nat} {w : Ty},
    walkBy pk t path = some (g, w) → ∃ g', walkBy pk' t path = some (g', w)
  | [], _, _, _, h => by cases h; exact ⟨1, rfl⟩
  | e :: path, t, g, w, h => by
    obtain ⟨a, u, b, h1, h2, rfl⟩ := walk_cons.1 h
    have h3 := step_type (pk := pk) (pk' := pk') t e
    rw [h1] at h3
    obtain ⟨⟨a', _⟩, h4, rfl⟩ := Option.map_eq_some_iff.1 h3.symm
    obtain ⟨b', h5⟩ := walk_type (pk' := pk') h2
    exact ⟨_, walk_cons.2 ⟨a', _, b', h4, h5, rfl⟩⟩

theorem walk_valid {t : Ty} {path : List PathElement} :
    ValidPath t path ↔ ∃ g w, walkBy prims t path = some (g, w) := by
  unfold ValidPath
  rw [Option.isSome_iff_exists]
  constructor
  · rintro ⟨⟨g, w⟩, h⟩
    obtain ⟨g', h'⟩ := walk_type (pk' := prims) h
    exact ⟨g', w, h'⟩
  · rintro ⟨g, w, h⟩
    obtain ⟨g', h'⟩ := walk_type (pk' := isBasic) h
    exact ⟨_, h'⟩

theorem walk_append {pk : Ty → Bool} : ∀ {p q : List PathElement} {t w : Ty} {g : Nat},
    walkBy pk t (p ++ q) = some (g, w) ↔
      ∃ a u b, walkBy pk t p = some (a, u) ∧ walkBy pk u q = some (b, w) ∧ g = gcat a b
  | [], q, t, w, g => by
    constructor
    · intro h; exact ⟨1, t, g, rfl, h, (one_gcat (walk_pos h)).symm⟩
    · rintro ⟨a, u, b, h1, h2, rfl⟩
      cases h1
      rw [one_gcat (walk_pos h2)]; exact h2
  | e :: p, q, t, w, g => by
    rw [List.cons_append, walk_cons]
    constructor
    · rintro ⟨a, u, b, h1, h2, rfl⟩
      obtain ⟨a', u', b', h3, h4, rfl⟩ := walk_append.1 h2
      exact ⟨_, u', b', walk_cons.2 ⟨a, u, a', h1, h3, rfl⟩, h4,
        (gcat_assoc (walk_pos h3) (walk_pos h4)).symm⟩
    · rintro ⟨_, u, b, h1, h2, rfl⟩
      obtain ⟨a, u', a', h3, h4, rfl⟩ := walk_cons.1 h1
      exact ⟨a, u', gcat a' b, h3, walk_append.2 ⟨a', u, b, h4, h2, rfl⟩,
        gcat_assoc (walk_pos h4) (walk_pos h2)⟩

theorem lengthOfBits_cons {t : Ty} {e : PathElement} {path : List PathElement} {a : Nat} {u : Ty}
    (h : stepBy prims t e = some (a, u)) :
    lengthOfBits t (e :: path) = ((isBitlist t && e == .length) || lengthOfBits u path) := by
  rw [lengthOfBits]
  have h3 := step_type (pk := prims) (pk' := isBasic) t e
  rw [h] at h3
  obtain ⟨⟨a', _⟩, h4, rfl⟩ := Option.map_eq_some_iff.1 h3.symm
  rw [h4]

theorem counts_of_shallow : ∀ {t : Ty} {e : PathElement}, Shallow t → counts t e := by
  intro t e h
  have h1 : ∀ {t : Ty} {n : Nat}, itemCount prims t n ≤ 2 ^ 56 →
      n * itemLen prims t + 31 < 2 ^ 64 := fun {t n} h => by
    unfold itemCount at h; omega
  fun_induction counts t e with
  | case1 => exact h1 h.1
  | case2 => exact h1 h.1
  | case3 => exact h1 h.1
  | case4 t e ih => exact ih h
  | case5 => trivial

theorem countable_of_shallow : ∀ {path : List PathElement} {t : Ty}, Shallow t → Countable t path
  | [], _, _ => trivial
  | e :: path, t, h => by
    refine ⟨counts_of_shallow h, ?_⟩
    cases h1 : stepBy prims t e with
    | none => trivial
    | some q => exact countable_of_shallow (path := path) (shallow_step (u := q.2) (g := q.1) h1 h)

theorem countable_cons {t u : Ty} {e : PathElement} {path : List PathElement} {a : Nat}
    (h : stepBy prims t e = some (a, u)) :
    Countable t (e :: path) ↔ counts t e ∧ Countable u path := by
  rw [Countable, h]

theorem countable_append : ∀ {p q : List PathElement} {t u : Ty} {a : Nat},
    walkBy prims t p = some (a, u) → (Countable t (p ++ q) ↔ Countable t p ∧ Countable u q)
  | [], q, t, u, a, h => by
    cases h
    exact ⟨fun h => ⟨trivial, h⟩, fun h => h.2⟩
  | e :: p, q, t, u, a, h => by
    obtain ⟨a, v, b, h1, h2, rfl⟩ := walk_cons.1 h
    rw [List.cons_append, countable_cons h1, countable_cons h1, countable_append h2, and_assoc]

/-! ## Whole paths -/

/-- The code computes the index, if it fits. -/
theorem gi_ok (E : Env) : ∀ {path : List PathElement} {t w : Ty} {p g : Nat}, 1 ≤ p → Countable t path →
    walkBy prims t path = some (g, w) → lengthOfBits t path = false → gcat p g < 2 ^ 64 →
    (t.impl E).computeGeneralizedIndex p path = .ok (gcat p g)
  | [], t, w, p, g, _, _, h, _, _ => by cases h; rw [cgi_nil, gcat_one]
  | e :: path, t, w, p, g, hp, hs, h, hl, hg => by
    obtain ⟨a, u, b, h1, h2, rfl⟩ := walk_cons.1 h
    rw [lengthOfBits_cons h1, Bool.or_eq_false_iff] at hl
    have h3 := step_ok E t e
    unfold StepOk at h3
    simp only [h1, hl.1, Bool.false_eq_true, if_false] at h3
    obtain ⟨f, hf, hc⟩ := h3
    have ha := step_pos h1
    have hb := walk_pos h2
    rw [← gcat_assoc ha hb] at hg ⊢
    rw [countable_cons h1] at hs
    have h4 := hf.1.1 p hp hs.1 (Nat.lt_of_le_of_lt (le_gcat _ _) hg)
    rcases hc with hc | ⟨rfl, hc, _⟩
    · rw [hc, h4, Res.lift_ok, Res.ok_bind]
      exact gi_ok E (Nat.le_trans hp (le_gcat _ _)) hs.2 h2 hl.2 hg
    · cases path with
      | nil =>
        cases h2
        rw [hc, h4, Res.lift_ok, gcat_one]
      | cons e' path' => cases h2

/-- Without overflow checks, the code computes the index modulo `2^64`. -/
theorem gi_wraps (E : Env) (hE : E.debug = false) : ∀ {path : List PathElement} {t w : Ty} {p g : Nat},
    p < 2 ^ 64 → Countable t path → walkBy prims t path = some (g, w) → lengthOfBits t path = false →
    (t.impl E).computeGeneralizedIndex p path = .ok (gcat p g % 2 ^ 64)
  | [], t, w, p, g, hp, _, h, _ => by cases h; rw [cgi_nil, gcat_one, Nat.mod_eq_of_lt hp]
  | e :: path, t, w, p, g, hp, hs, h, hl => by
    obtain ⟨a, u, b, h1, h2, rfl⟩ := walk_cons.1 h
    rw [lengthOfBits_cons h1, Bool.or_eq_false_iff] at hl
    have h3 := step_ok E t e
    unfold StepOk at h3
    simp only [h1, hl.1, Bool.false_eq_true, if_false] at h3
    obtain ⟨f, hf, hc⟩ := h3
    rw [← gcat_assoc (step_pos h1) (walk_pos h2), ← gcat_mod]
    rw [countable_cons h1] at hs
    have h4 := hf.1.2.2.2.2 p hE hs.1
    rcases hc with hc | ⟨rfl, hc, _⟩
    · rw [hc, h4, Res.lift_ok, Res.ok_bind]
      exact gi_wraps E hE (Nat.mod_lt _ (by decide)) hs.2 h2 hl.2
    · cases path with
      | nil =>
        cases h2
        rw [hc, h4, Res.lift_ok, gcat_one, Nat.mod_mod]
      | cons e' path' => cases h2

/-- Without overflow checks, where the index fits in 64 bits the code never gives a larger one, and
it gives a smaller one if a chunk count on the path wraps. -/
theorem gi_falls (E : Env) (hE : E.debug = false) : ∀ {path : List PathElement} {t w : Ty} {p q g : Nat},
    1 ≤ p → q ≤ p → walkBy prims t path = some (g, w) → lengthOfBits t path = false →
    gcat p g < 2 ^ 64 → ∃ r, (t.impl E).computeGeneralizedIndex q path = .ok r ∧ r ≤ gcat p g ∧
      (q < p ∨ ¬ Countable t path → r < gcat p g)
  | [], t, w, p, q, g, _, hq, h, _, _ => by
    cases h
    rw [cgi_nil, gcat_one]
    exact ⟨q, rfl, hq, fun h => h.elim id fun h => absurd trivial h⟩
  | e :: path, t, w, p, q, g, hp, hq, h, hl, hg => by
    obtain ⟨a, u, b, h1, h2, rfl⟩ := walk_cons.1 h
    rw [lengthOfBits_cons h1, Bool.or_eq_false_iff] at hl
    have h3 := step_ok E t e
    unfold StepOk at h3
    simp only [h1, hl.1, Bool.false_eq_true, if_false] at h3
    obtain ⟨f, hf, hc⟩ := h3
    have ha := step_pos h1
    have hb := walk_pos h2
    rw [← gcat_assoc ha hb] at hg ⊢
    obtain ⟨r, h4, h5, h6⟩ := hf.2.2 hE p q hp hq (Nat.lt_of_le_of_lt (le_gcat _ _) hg)
    rw [countable_cons h1]
    rcases hc with hc | ⟨rfl, hc, _⟩
    · rw [hc, h4, Res.lift_ok, Res.ok_bind]
      obtain ⟨r', h7, h8, h9⟩ := gi_falls E hE (Nat.le_trans hp (le_gcat p a)) h5 h2 hl.2 hg
      refine ⟨r', h7, h8, fun h10 => ?_⟩
      by_cases h11 : q < p ∨ ¬ counts t e
      · exact h9 (.inl (h6 h11))
      · refine h9 (.inr fun h12 => ?_)
        rcases h10 with h10 | h10
        · exact h11 (.inl h10)
        · exact h10 ⟨Classical.byContradiction fun h13 => h11 (.inr h13), h12⟩
    · cases path with
      | nil =>
        cases h2
        rw [hc, h4, Res.lift_ok, gcat_one]
        refine ⟨r, rfl, h5, fun h10 => h6 (h10.imp id fun h10 h11 => h10 ⟨h11, trivial⟩)⟩
      | cons e' path' => cases h2

/-- With overflow checks, the code panics if a chunk count on the path overflows. -/
theorem gi_panics (E : Env) (hE : E.debug = true) : ∀ {path : List PathElement} {t w : Ty} {p g : Nat},
    walkBy prims t path = some (g, w) → lengthOfBits t path = false → ¬ Countable t path →
    (t.impl E).computeGeneralizedIndex p path = .panic
  | [], t, w, p, g, _, _, hn => absurd trivial hn
  | e :: path, t, w, p, g, h, hl, hn => by
    obtain ⟨a, u, b, h1, h2, rfl⟩ := walk_cons.1 h
    rw [lengthOfBits_cons h1, Bool.or_eq_false_iff] at hl
    have h3 := step_ok E t e
    unfold StepOk at h3
    simp only [h1, hl.1, Bool.false_eq_true, if_false] at h3
    obtain ⟨f, hf, hc⟩ := h3
    rw [countable_cons h1] at hn
    rcases hc with hc | ⟨rfl, hc, _⟩
    · rw [hc]
      by_cases h4 : counts t e
      · cases h5 : f p with
        | ok c => exact gi_panics E hE h2 hl.2 fun h6 => hn ⟨h4, h6⟩
        | err e => exact e.elim
        | panic => rfl
      · rw [hf.2.1 hE h4]; rfl
    · cases path with
      | nil => rw [hc, hf.2.1 hE fun h4 => hn ⟨h4, trivial⟩]; rfl
      | cons e' path' => cases h2

/-- The code refuses no valid path other than those to the length of a `Bitlist`. -/
theorem gi_no_err (E : Env) : ∀ {path : List PathElement} {t w : Ty} {p g : Nat} {x : MerkError},
    walkBy prims t path = some (g, w) → lengthOfBits t path = false →
    (t.impl E).computeGeneralizedIndex p path ≠ .err x
  | [], t, w, p, g, x, h, _ => by rw [cgi_nil]; simp
  | e :: path, t, w, p, g, x, h, hl => by
    obtain ⟨a, u, b, h1, h2, rfl⟩ := walk_cons.1 h
    rw [lengthOfBits_cons h1, Bool.or_eq_false_iff] at hl
    have h3 := step_ok E t e
    unfold StepOk at h3
    simp only [h1, hl.1, Bool.false_eq_true, if_false] at h3
    obtain ⟨f, hf, hc⟩ := h3
    have h4 : f p = .panic ∨ ∃ c, f p = .ok c := by
      cases f p with
      | ok c => exact .inr ⟨c, rfl⟩
      | err e => exact e.elim
      | panic => exact .inl rfl
    rcases hc with hc | ⟨rfl, hc, _⟩
    · rw [hc]
      rcases h4 with h4 | ⟨c, h4⟩
      · rw [h4]; simp
      · rw [h4, Res.lift_ok, Res.ok_bind]
        exact gi_no_err E h2 hl.2
    · cases path with
      | nil =>
        rw [hc]
        rcases h4 with h4 | ⟨c, h4⟩ <;> rw [h4] <;> simp
      | cons e' path' => cases h2

/-- The code accepts valid paths only, and with overflow checks it computes the right index or
panics. -/
theorem gi_valid (E : Env) : ∀ {path : List PathElement} {t : Ty} {p r : Nat},
    (t.impl E).computeGeneralizedIndex p path = .ok r →
    ∃ g w, walkBy prims t path = some (g, w) ∧ lengthOfBits t path = false ∧
      (E.debug = true → r = gcat p g)
  | [], t, p, r, h => by
    rw [cgi_nil] at h
    cases h
    exact ⟨1, t, rfl, rfl, fun _ => (gcat_one p).symm⟩
  | e :: path, t, p, r, h => by
    have h3 := step_ok E t e
    unfold StepOk at h3
    cases h1 : stepBy prims t e with
    | none =>
      simp only [h1] at h3
      obtain ⟨x, hx⟩ := h3 p path
      rw [h] at hx; cases hx
    | some q =>
      obtain ⟨a, u⟩ := q
      simp only [h1] at h3
      cases hb : (isBitlist t && e == .length) with
      | true =>
        simp only [hb, if_true] at h3
        obtain ⟨x, hx⟩ := h3 p path
        rw [h] at hx; cases hx
      | false =>
        simp only [hb, Bool.false_eq_true, if_false] at h3
        obtain ⟨f, hf, hc⟩ := h3
        rcases hc with hc | ⟨rfl, hc, hc'⟩
        · rw [hc] at h
          obtain ⟨c, h4, h5⟩ := Res.bind_eq_ok.1 h
          obtain ⟨b, w, h6, h7, h8⟩ := gi_valid E h5
          refine ⟨_, w, walk_cons.2 ⟨a, u, b, h1, h6, rfl⟩, ?_, fun hE => ?_⟩
          · rw [lengthOfBits_cons h1, hb, h7]; rfl
          · rw [h8 hE, hf.1.2.1 p c hE (Res.lift_eq_ok.1 h4), gcat_assoc (step_pos h1) (walk_pos h6)]
        · cases path with
          | nil =>
            rw [hc] at h
            refine ⟨_, number, walk_cons.2 ⟨a, number, 1, h1, rfl, rfl⟩, ?_, fun hE => ?_⟩
            · rw [lengthOfBits_cons h1, hb]; rfl
            · rw [gcat_one]
              exact hf.1.2.1 p r hE (Res.lift_eq_ok.1 h)
          | cons e' path' =>
            obtain ⟨x, hx⟩ := hc'.1 p (e' :: path') (by simp)
            rw [h] at hx; cases hx

/-- The computed index is a `usize`. -/
theorem gi_lt (E : Env) : ∀ {path : List PathElement} {t : Ty} {p r : Nat}, p < 2 ^ 64 →
    (t.impl E).computeGeneralizedIndex p path = .ok r → r < 2 ^ 64
  | [], t, p, r, hp, h => by
    rw [cgi_nil] at h
    cases h
    exact hp
  | e :: path, t, p, r, hp, h => by
    have h3 := step_ok E t e
    unfold StepOk at h3
    cases h1 : stepBy prims t e with
    | none =>
      simp only [h1] at h3
      obtain ⟨x, hx⟩ := h3 p path
      rw [h] at hx; cases hx
    | some q =>
      obtain ⟨a, u⟩ := q
      simp only [h1] at h3
      cases hb : (isBitlist t && e == .length) with
      | true =>
        simp only [hb, if_true] at h3
        obtain ⟨x, hx⟩ := h3 p path
        rw [h] at hx; cases hx
      | false =>
        simp only [hb, Bool.false_eq_true, if_false] at h3
        obtain ⟨f, hf, hc⟩ := h3
        rcases hc with hc | ⟨rfl, hc, hc'⟩
        · rw [hc] at h
          obtain ⟨c, h4, h5⟩ := Res.bind_eq_ok.1 h
          exact gi_lt E (hf.1.2.2.2.1 p c (Res.lift_eq_ok.1 h4)) h5
        · cases path with
          | nil =>
            rw [hc] at h
            exact hf.1.2.2.2.1 p r (Res.lift_eq_ok.1 h)
          | cons e' path' =>
            obtain ⟨x, hx⟩ := hc'.1 p (e' :: path') (by simp)
            rw [h] at hx; cases hx

/-- Without overflow checks, the code never panics, and accepts all valid paths. -/
theorem gi_release (E : Env) (hE : E.debug = false) : ∀ (path : List PathElement) (t : Ty) (p : Nat),
    (t.impl E).computeGeneralizedIndex p path ≠ .panic ∧
    ∀ g w, walkBy prims t path = some (g, w) → lengthOfBits t path = false →
      ∃ r, (t.impl E).computeGeneralizedIndex p path = .ok r
  | [], t, p => by
    rw [cgi_nil]
    exact ⟨by simp, fun _ _ _ _ => ⟨p, rfl⟩⟩
  | e :: path, t, p => by
    have h3 := step_ok E t e
    unfold StepOk at h3
    cases h1 : stepBy prims t e with
    | none =>
      simp only [h1] at h3
      obtain ⟨x, hx⟩ := h3 p path
      refine ⟨by rw [hx]; simp, fun g w h _ => ?_⟩
      obtain ⟨a, u, b, h4, _⟩ := walk_cons.1 h
      rw [h1] at h4; cases h4
    | some q =>
      obtain ⟨a, u⟩ := q
      simp only [h1] at h3
      cases hb : (isBitlist t && e == .length) with
      | true =>
        simp only [hb, if_true] at h3
        obtain ⟨x, hx⟩ := h3 p path
        refine ⟨by rw [hx]; simp, fun g w _ hl => ?_⟩
        rw [lengthOfBits_cons h1, hb] at hl; cases hl
      | false =>
        simp only [hb, Bool.false_eq_true, if_false] at h3
        obtain ⟨f, hf, hc⟩ := h3
        obtain ⟨c, h4⟩ := hf.1.2.2.1 p hE
        rcases hc with hc | ⟨rfl, hc, hc'⟩
        · rw [hc, h4, Res.lift_ok, Res.ok_bind]
          obtain ⟨h5, h6⟩ := gi_release E hE path u c
          refine ⟨h5, fun g w h hl => ?_⟩
          obtain ⟨a', u', b, h7, h8, _⟩ := walk_cons.1 h
          rw [h1] at h7; cases h7
          rw [lengthOfBits_cons h1, hb] at hl
          exact h6 b w h8 hl
        · cases path with
          | nil =>
            rw [hc, h4]
            exact ⟨by simp, fun _ _ _ _ => ⟨c, rfl⟩⟩
          | cons e' path' =>
            obtain ⟨x, hx⟩ := hc'.1 p (e' :: path') (by simp)
            refine ⟨by rw [hx]; simp, fun g w h _ => ?_⟩
            obtain ⟨a', u', b, h7, h8, _⟩ := walk_cons.1 h
            rw [h1] at h7; cases h7
            cases h8

/-- A panic means that the index of some beginning of the path does not fit in 64 bits. -/
theorem gi_panic (E : Env) : ∀ {path : List PathElement} {t : Ty} {p : Nat}, 1 ≤ p → Countable t path →
    (t.impl E).computeGeneralizedIndex p path = .panic →
    ∃ q r g w, path = q ++ r ∧ walkBy prims t q = some (g, w) ∧ 2 ^ 64 ≤ gcat p g
  | [], t, p, _, _, h => by rw [cgi_nil] at h; cases h
  | e :: path, t, p, hp, hs, h => by
    have h3 := step_ok E t e
    unfold StepOk at h3
    cases h1 : stepBy prims t e with
    | none =>
      simp only [h1] at h3
      obtain ⟨x, hx⟩ := h3 p path
      rw [h] at hx; cases hx
    | some q =>
      obtain ⟨a, u⟩ := q
      simp only [h1] at h3
      cases hb : (isBitlist t && e == .length) with
      | true =>
        simp only [hb, if_true] at h3
        obtain ⟨x, hx⟩ := h3 p path
        rw [h] at hx; cases hx
      | false =>
        simp only [hb, Bool.false_eq_true, if_false] at h3
        obtain ⟨f, hf, hc⟩ := h3
        by_cases hg : gcat p a < 2 ^ 64
        · have h4 := hf.1.1 p hp ((countable_cons h1).1 hs).1 hg
          rcases hc with hc | ⟨rfl, hc, hc'⟩
          · rw [hc, h4, Res.lift_ok, Res.ok_bind] at h
            obtain ⟨q, r, b, w, rfl, h6, h7⟩ := gi_panic E (Nat.le_trans hp (le_gcat _ _))
              ((countable_cons h1).1 hs).2 h
            refine ⟨e :: q, r, gcat a b, w, rfl, walk_cons.2 ⟨a, u, b, h1, h6, rfl⟩, ?_⟩
            rw [← gcat_assoc (step_pos h1) (walk_pos h6)]
            exact h7
          · cases path with
            | nil => rw [hc, h4] at h; cases h
            | cons e' path' =>
              obtain ⟨x, hx⟩ := hc'.1 p (e' :: path') (by simp)
              rw [h] at hx; cases hx
        · exact ⟨[e], path, gcat a 1, u, rfl, walk_cons.2 ⟨a, u, 1, h1, rfl, rfl⟩, by
            rw [gcat_one]; omega⟩

theorem walk_shallow {pk : Ty → Bool} : ∀ {path : List PathElement} {t w : Ty} {g : Nat},
    walkBy pk t path = some (g, w) → Shallow t → Shallow w
  | [], _, _, _, h, hs => by cases h; exact hs
  | e :: path, t, w, g, h, hs => by
    obtain ⟨a, u, b, h1, h2, rfl⟩ := walk_cons.1 h
    exact walk_shallow h2 (shallow_step h1 hs)

theorem lengthOfBits_append : ∀ {p q : List PathElement} {t u : Ty} {a : Nat},
    walkBy prims t p = some (a, u) → lengthOfBits t (p ++ q) = (lengthOfBits t p || lengthOfBits u q)
  | [], _, _, _, _, h => by cases h; rfl
  | e :: p, q, t, u, a, h => by
    obtain ⟨b, v, c, h1, h2, rfl⟩ := walk_cons.1 h
    rw [List.cons_append, lengthOfBits_cons h1, lengthOfBits_cons h1, lengthOfBits_append h2,
      Bool.or_assoc]

/-! ## Panics -/

/-- Nothing follows a length or a selector. -/
theorem cgi_right (E : Env) {e : PathElement} (he : e = .length ∨ e = .selector)
    {path : List PathElement} (hp : path ≠ []) : ∀ (t : Ty) (p : Nat),
    ∃ x, (t.impl E).computeGeneralizedIndex p (e :: path) = .err x := by
  obtain ⟨e', path', rfl⟩ : ∃ e' path', path = e' :: path' := List.exists_cons_of_ne_nil hp
  intro t
  induction t using Ty.rec (motive_2 := fun _ => True) (motive_3 := fun _ => True) with
  | newtype t ih => exact fun p => ih p
  | _ => first | trivial | (intro p; rcases he with rfl | rfl <;> exact ⟨_, rfl⟩)

/-- The path ends in a length or a selector. -/
def endsRight (path : List PathElement) : Prop :=
  path.getLast? = some .length ∨ path.getLast? = some .selector

/-- With overflow checks, the code panics exactly if, after a beginning of the path, the index or a
chunk count does not fit in 64 bits. (If a length or selector is followed by something, this is
refused before the index is computed.) -/
theorem gi_panic_iff (E : Env) (hE : E.debug = true) : ∀ {path : List PathElement} {t : Ty} {p : Nat},
    1 ≤ p → p < 2 ^ 64 →
    ((t.impl E).computeGeneralizedIndex p path = .panic ↔
      ∃ q r g w, path = q ++ r ∧ walkBy prims t q = some (g, w) ∧ lengthOfBits t q = false ∧
        (2 ^ 64 ≤ gcat p g ∨ ¬ Countable t q) ∧ (r = [] ∨ ¬ endsRight q))
  | [], t, p, _, hp => by
    rw [cgi_nil]
    refine ⟨fun h => by (cases h), ?_⟩
    rintro ⟨q, r, g, w, h1, h2, _, h4, _⟩
    obtain ⟨rfl, rfl⟩ := List.append_eq_nil_iff.1 h1.symm
    cases h2
    rw [gcat_one] at h4
    rcases h4 with h4 | h4
    · omega
    · exact absurd trivial h4
  | e :: path, t, p, hp1, hp => by
    have hright : ∀ {p path}, (t.impl E).computeGeneralizedIndex p (e :: path) = .panic →
        path = [] ∨ ¬ endsRight [e] := by
      intro p path h
      by_cases hn : path = []
      · exact .inl hn
      · refine .inr fun h1 => ?_
        have he : e = .length ∨ e = .selector := by
          rcases h1 with h1 | h1 <;> simp at h1 <;> simp [h1]
        obtain ⟨x, hx⟩ := cgi_right E he hn t p
        rw [h] at hx; cases hx
    have h3 := step_ok E t e
    unfold StepOk at h3
    cases h1 : stepBy prims t e with
    | none =>
      simp only [h1] at h3
      obtain ⟨x, hx⟩ := h3 p path
      refine ⟨fun h => by rw [h] at hx; (cases hx), ?_⟩
      rintro ⟨q, r, g, w, h5, h6, _, h8, _⟩
      cases q with
      | nil =>
        cases h6
        rw [gcat_one] at h8
        exact absurd h8 (by simp only [Countable, not_true_eq_false, or_false]; omega)
      | cons e' q =>
        cases h5
        obtain ⟨a, u, b, h9, _⟩ := walk_cons.1 h6
        rw [h1] at h9; cases h9
    | some s =>
      obtain ⟨a, u⟩ := s
      simp only [h1] at h3
      cases hb : (isBitlist t && e == .length) with
      | true =>
        simp only [hb, if_true] at h3
        obtain ⟨x, hx⟩ := h3 p path
        refine ⟨fun h => by rw [h] at hx; (cases hx), ?_⟩
        rintro ⟨q, r, g, w, h5, h6, h7, h8, _⟩
        cases q with
        | nil =>
          cases h6
          rw [gcat_one] at h8
          exact absurd h8 (by simp only [Countable, not_true_eq_false, or_false]; omega)
        | cons e' q =>
          cases h5
          rw [lengthOfBits_cons h1, hb] at h7; cases h7
      | false =>
        simp only [hb, Bool.false_eq_true, if_false] at h3
        obtain ⟨f, hf, hc⟩ := h3
        have ha := step_pos h1
        have hnil : ∀ {g w}, walkBy prims t [] = some (g, w) → 2 ^ 64 ≤ gcat p g ∨ ¬ Countable t [] →
            False := by
          intro g w h6 h8
          cases h6
          rw [gcat_one] at h8
          exact absurd h8 (by simp only [Countable, not_true_eq_false, or_false]; omega)
        have hone : lengthOfBits t [e] = false := by rw [lengthOfBits_cons h1, hb]; rfl
        -- the step itself
        have hstep : f p = .panic ↔ 2 ^ 64 ≤ gcat p a ∨ ¬ counts t e := by
          constructor
          · intro h4
            by_cases hs : counts t e
            · refine .inl (Nat.le_of_not_lt fun hg => ?_)
              rw [hf.1.1 p hp1 hs hg] at h4; cases h4
            · exact .inr hs
          · intro h4
            cases h5 : f p with
            | ok c =>
              have h6 := hf.1.2.1 p c hE h5
              have h7 := hf.1.2.2.2.1 p c h5
              rcases h4 with h4 | h4
              · omega
              · rw [hf.2.1 hE h4] at h5; cases h5
            | err e => exact e.elim
            | panic => rfl
        have hfrom : f p = .panic → path = [] ∨ ¬ endsRight [e] → ∃ q r g w, e :: path = q ++ r ∧
            walkBy prims t q = some (g, w) ∧ lengthOfBits t q = false ∧
            (2 ^ 64 ≤ gcat p g ∨ ¬ Countable t q) ∧ (r = [] ∨ ¬ endsRight q) := by
          intro h4 h5
          refine ⟨[e], path, a, u, rfl, walk_cons.2 ⟨a, u, 1, h1, rfl, (gcat_one a).symm⟩, hone, ?_, h5⟩
          rw [countable_cons h1]
          exact (hstep.1 h4).imp id fun h6 h7 => h6 h7.1
        rcases hc with hc | ⟨rfl, hc, hc'⟩
        · cases h4 : f p with
          | err e => exact e.elim
          | panic =>
            have hpan : (t.impl E).computeGeneralizedIndex p (e :: path) = .panic := by
              rw [hc, h4]; rfl
            exact ⟨fun _ => hfrom h4 (hright hpan), fun _ => hpan⟩
          | ok c =>
            have hca : c = gcat p a := hf.1.2.1 p c hE h4
            have hlt := hf.1.2.2.2.1 p c h4
            have hcount : counts t e := Classical.byContradiction fun hs => by
              rw [hf.2.1 hE hs] at h4; cases h4
            rw [hc, h4, Res.lift_ok, Res.ok_bind, gi_panic_iff E hE (by
              rw [hca]; exact Nat.le_trans hp1 (le_gcat p a)) hlt]
            constructor
            · rintro ⟨q, r, g, w, rfl, h6, h7, h8, h9⟩
              have hg := walk_pos h6
              refine ⟨e :: q, r, _, w, rfl, walk_cons.2 ⟨a, u, g, h1, h6, rfl⟩, ?_, ?_, ?_⟩
              · rw [lengthOfBits_cons h1, hb, h7]; rfl
              · rw [countable_cons h1, ← gcat_assoc ha hg, ← hca]
                exact h8.imp id fun h h' => h h'.2
              · refine h9.imp id fun h h' => ?_
                cases q with
                | nil =>
                  cases h6
                  rw [gcat_one] at h8
                  exact absurd h8 (by simp only [Countable, not_true_eq_false, or_false]; omega)
                | cons e' q => exact h (by simpa [endsRight] using h')
            · rintro ⟨q, r, g, w, h5, h6, h7, h8, h9⟩
              cases q with
              | nil => exact (hnil h6 h8).elim
              | cons e' q =>
                cases h5
                obtain ⟨a', u', b, h10, h11, rfl⟩ := walk_cons.1 h6
                rw [h1] at h10
                cases h10
                have hg := walk_pos h11
                rw [lengthOfBits_cons h1, hb] at h7
                rw [countable_cons h1, ← gcat_assoc ha hg, ← hca] at h8
                refine ⟨q, r, b, w, rfl, h11, h7, h8.imp id fun h h' => h ⟨hcount, h'⟩, ?_⟩
                refine h9.imp id fun h h' => ?_
                cases q with
                | nil => simp [endsRight] at h'
                | cons e' q => exact h (by simpa [endsRight] using h')
        · cases path with
          | nil =>
            rw [hc]
            have : (f p).lift = (.panic : Res MerkError Nat) ↔ f p = .panic := by
              cases f p with
              | ok c => simp
              | err e => exact e.elim
              | panic => simp
            rw [this]
            refine ⟨fun h4 => hfrom h4 (.inl rfl), ?_⟩
            rintro ⟨q, r, g, w, h5, h6, h7, h8, h9⟩
            cases q with
            | nil => exact (hnil h6 h8).elim
            | cons e' q =>
              injection h5 with h5 h10
              subst h5
              obtain ⟨rfl, rfl⟩ := List.append_eq_nil_iff.1 h10.symm
              obtain ⟨a', u', b, h10, h11, rfl⟩ := walk_cons.1 h6
              rw [h1] at h10
              cases h10
              cases h11
              rw [gcat_one, countable_cons h1] at h8
              exact hstep.2 (h8.imp id fun h h' => h ⟨h', trivial⟩)
          | cons e' path' =>
            obtain ⟨x, hx⟩ := hc'.1 p (e' :: path') (by simp)
            refine ⟨fun h => by rw [h] at hx; (cases hx), ?_⟩
            rintro ⟨q, r, g, w, h5, h6, h7, h8, h9⟩
            cases q with
            | nil => exact (hnil h6 h8).elim
            | cons e'' q =>
              injection h5 with h5 h10
              subst h5
              obtain ⟨a', u', b, h11, h12, rfl⟩ := walk_cons.1 h6
              rw [h1] at h11
              cases h11
              cases q with
              | nil =>
                change e' :: path' = r at h10
                rcases h9 with h9 | h9
                · rw [h9] at h10; cases h10
                · exact (h9 (by rcases hc'.2 with rfl | rfl <;> simp [endsRight])).elim
              | cons e3 q => cases h12

end Ssz
