import Verif.Proofs.EncodeCost
import Verif.Proofs.DecodeCost
import Verif.Props.Encoding

/-!
# C79: encoding moves each byte twice for each level of nesting at most

`Verif.Model.EncodeCost` has the functions of encoding with a counter of calls of `serialize`, of loop
iterations, and of bytes written to a buffer, also those moved from one buffer to another.
-/

namespace Ssz

open Spec

/-- C79: the functions with counters do what those without do, for every value and buffer. -/
theorem C79_same (E : Env) (t : Ty) (v : t.Val) (buf : Bytes) :
    (t.serC E v buf).2 = (t.impl E).serialize v buf :=
  serC_snd E t v buf

/-- C79: `serialize` of any value in memory, also of one that it rejects: four steps for each value
inside, one for each byte of the encoding, and two more for each byte and each level of nesting. -/
theorem C79_bound (E : Env) (t : Ty) (v : t.Val) (hl : Legal t) (hf : Fits t) (hst : Stored t v)
    (buf : Bytes) :
    (t.serC E v buf).1 < 4 * partCount t v + (1 + 2 * nesting t) * (enc t v).length := by
  have := serC_le E t v hl hf hst buf
  omega

/-- C79: the number of steps of a successful call, in terms of the encodings of the parts: each part of
fixed size is moved once, each part of variable size twice, at every level. -/
theorem C79_exact (E : Env) (t : Ty) (v : t.Val) (b : Bytes) (hl : Legal t) (hf : Fits t)
    (hst : Stored t v) (h : serialize (t.impl E).toSerializable v = .ok b) :
    (t.serC E v []).1 = encodeCost t v := by
  have h1 := serC_snd E t v []
  unfold serialize at h
  rcases hr : (t.impl E).serialize v [] with ⟨b', r⟩
  rw [hr] at h h1
  cases r with
  | ok n => exact serC_eq E t v hl hf hst [] n (congrArg Prod.snd h1)
  | err e => exact absurd h (by simp)
  | panic => exact absurd h (by simp)

/-- C79: so the steps are linear in the number of bytes that the caller gets: fewer than seven for each
byte and each type in the type. -/
theorem C79_linear (E : Env) (t : Ty) (v : t.Val) (b : Bytes) (hl : Legal t) (hf : Fits t)
    (hv : Valid t v) (h : serialize (t.impl E).toSerializable v = .ok b) :
    (t.serC E v []).1 < 7 * (typeSize t * max 1 b.length) := by
  have hb : b = enc t v := C05_written E t v b hl hf hv h
  subst hb
  have h1 := C79_bound E t v hl hf (stored_of_valid t v hv) []
  have h2 := partCount_le t v hl hv
  have h3 : (1 + 2 * nesting t) * (enc t v).length ≤ (3 * typeSize t) * max 1 (enc t v).length :=
    Nat.mul_le_mul (by have := nesting_le t; have := typeSize_pos t; omega) (by omega)
  rw [Nat.mul_assoc] at h3
  omega

/-- A list of bytes in `d` lists. -/
def deepTy (n : Nat) : Nat → Ty
  | 0 => .list (.uint .u8) n
  | d + 1 => .list (deepTy n d) 1

/-- `n` bytes in `d` lists of one element each. -/
def deepVal (n : Nat) : (d : Nat) → (deepTy n d).Val
  | 0 => (List.replicate n (0 : BitVec 8) : List (BitVec 8))
  | d + 1 => ([deepVal n d] : List (deepTy n d).Val)

theorem deep_legal (n : Nat) : ∀ d, Legal (deepTy n d)
  | 0 => trivial
  | d + 1 => deep_legal n d

theorem deep_fits (n : Nat) : ∀ d, Fits (deepTy n d)
  | 0 => trivial
  | d + 1 => deep_fits n d

theorem deep_isVar (n : Nat) : ∀ d, isVar (deepTy n d) = true
  | 0 => rfl
  | _ + 1 => rfl

theorem deep_valid (n : Nat) : ∀ d, Valid (deepTy n d) (deepVal n d)
  | 0 => ⟨Nat.le_of_eq (List.length_replicate (a := (0 : BitVec 8))), fun _ _ => trivial⟩
  | d + 1 => ⟨Nat.le_refl 1, fun x hx => by
      have : x = deepVal n d := by simpa [deepVal] using hx
      subst this; exact deep_valid n d⟩

theorem deep_length (n : Nat) : ∀ d, (enc (deepTy n d) (deepVal n d)).length = n + 4 * d
  | 0 => by
    have h : ∀ l : List (BitVec 8), (assemble (l.map fun x => (false, leBytes 1 x.toNat))).length =
        l.length := by
      intro l
      rw [← pieceSize_sum, List.map_map]
      induction l with
      | nil => rfl
      | cons x l ih => rw [List.map_cons, List.sum_cons, ih, List.length_cons]; exact Nat.add_comm _ _
    exact (h (List.replicate n 0)).trans List.length_replicate
  | d + 1 => by
    show (assemble [(isVar (deepTy n d), enc (deepTy n d) (deepVal n d))]).length = _
    rw [← pieceSize_sum, deep_isVar]
    simp only [List.map_cons, List.map_nil, List.sum_cons, List.sum_nil, pieceSize, if_true,
      deep_length n d]
    omega

/-- C79: the nesting has to be in the bound. For `n` bytes in `d` lists of one element each, whose encoding
has `n + 4 * d` bytes, `serialize` makes `5 * n + 2 * n * d + (2 * d + 1) ^ 2` steps. -/
theorem C79_deep (E : Env) (n d : Nat) (h : n + 4 * d < 2 ^ 32) :
    ∃ b, serialize ((deepTy n d).impl E).toSerializable (deepVal n d) = .ok b ∧
      b.length = n + 4 * d ∧
      ((deepTy n d).serC E (deepVal n d) []).1 = 5 * n + 2 * n * d + (2 * d + 1) ^ 2 := by
  obtain ⟨b, hb⟩ := (C09_serialize_valid E (deepTy n d) (deepVal n d) (deep_legal n d) (deep_fits n d)
    (deep_valid n d)).2 (by rw [deep_length]; exact h)
  refine ⟨b, hb, ?_, ?_⟩
  · rw [C05_written E _ _ b (deep_legal n d) (deep_fits n d) (deep_valid n d) hb, deep_length]
  · rw [C79_exact E _ _ b (deep_legal n d) (deep_fits n d)
      (stored_of_valid _ _ (deep_valid n d)) hb]
    clear hb h
    induction d with
    | zero =>
      have h : ∀ l : List (BitVec 8), 1 + (l.map fun x : BitVec 8 => 2 +
          placing (false, leBytes 1 x.toNat)).sum = 1 + 5 * l.length := by
        intro l
        induction l with
        | nil => rfl
        | cons x l ih =>
          rw [List.map_cons, List.sum_cons, List.length_cons]
          have : 2 + placing (false, leBytes 1 x.toNat) = 5 := rfl
          omega
      have h2 := h (List.replicate n 0)
      rw [List.length_replicate] at h2
      exact h2.trans (by ring)
    | succ d ih =>
      have h1 : encodeCost (deepTy n (d + 1)) (deepVal n (d + 1)) =
          1 + (encodeCost (deepTy n d) (deepVal n d) +
            placing (isVar (deepTy n d), enc (deepTy n d) (deepVal n d)) + 0) := rfl
      rw [h1, ih, deep_isVar]
      simp only [placing, if_true, deep_length]
      ring

/-- The steps of two lists of two bytes each in a list: with the bound of `C79_bound`. -/
example : ((Ty.list (.list (.uint .u8) 4) 4).serC ⟨true, fun _ => zeroNode⟩
      ([[1, 2], [3, 4]] : List (List (BitVec 8))) []).1 = 45 ∧
    encodeCost (.list (.list (.uint .u8) 4) 4) ([[1, 2], [3, 4]] : List (List (BitVec 8))) = 45 ∧
    4 * partCount (.list (.list (.uint .u8) 4) 4) ([[1, 2], [3, 4]] : List (List (BitVec 8))) +
      (1 + 2 * nesting (.list (.list (.uint .u8) 4) 4)) * 12 = 88 :=
  ⟨by decide +kernel, by decide +kernel, by decide +kernel⟩

/-- 1000 nested lists around nothing: 4000 bytes, 4 million steps. -/
example (E : Env) : ((deepTy 0 1000).serC E (deepVal 0 1000) []).1 = 2001 ^ 2 := by
  obtain ⟨b, _, _, h⟩ := C79_deep E 0 1000 (by decide)
  exact h.trans rfl

end Ssz
