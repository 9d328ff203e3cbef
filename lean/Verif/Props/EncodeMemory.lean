import Verif.Proofs.EncodeMemory
import Verif.Props.EncodeCost

/-!
# C90: what encoding holds in memory

`Verif.Model.EncodeMemory` has the functions of encoding with the largest number of bytes that are held at
one time. An entry of `parts` takes `w` bytes (24 on a 64-bit target).
-/

namespace Ssz

open Spec BufP

/-- C90: the functions with the number do what those without do, for every value and buffer. -/
theorem C90_same (E : Env) (w : Nat) (t : Ty) (v : t.Val) :
    (t.serializeP E w v).2 = serialize (t.impl E).toSerializable v ∧
    ∀ cap buf, (t.serP E w v cap buf).2 = (t.impl E).serialize v buf :=
  ⟨serializeP_snd E w t v, serP_snd E w t v⟩

theorem serializeP_fst (E : Env) (w : Nat) (t : Ty) (v : t.Val) :
    (t.serializeP E w v).1 = (t.serP E w v 0 []).1 := by
  unfold Ty.serializeP
  rcases t.serP E w v 0 [] with ⟨k, b, r⟩
  cases r <;> rfl

/-- C90: what is held is at most a multiple of the length of the encoding, by a number of the type; also if
it fails as the encoding is too long. -/
theorem C90_bound (E : Env) (w : Nat) (t : Ty) (v : t.Val) (hl : Legal t) (hf : Fits t)
    (hv : Valid t v) :
    (t.serializeP E w v).1 ≤ (w + 2 + nesting t) * (enc t v).length := by
  have h := serP_within E w t v hl hf hv 0 []
  rw [serializeP_fst]
  refine Nat.le_trans h ?_
  have e : (w + 2 + nesting t) * (enc t v).length =
      (w + 1 + nesting t) * (enc t v).length + (enc t v).length := by
    rw [show w + 2 + nesting t = w + 1 + nesting t + 1 by omega, Nat.add_one_mul]
  rw [e, Nat.zero_max, List.length_nil, Nat.zero_add]
  omega

/-- C90, the same for a call of `serialize` with a buffer of capacity `cap`. -/
theorem C90_buffer (E : Env) (w : Nat) (t : Ty) (v : t.Val) (hl : Legal t) (hf : Fits t)
    (hv : Valid t v) (cap : Nat) (buf : Bytes) :
    (t.serP E w v cap buf).1 ≤
      max cap (buf.length + (enc t v).length) + (w + 1 + nesting t) * (enc t v).length :=
  serP_within E w t v hl hf hv cap buf

/-- C90: what is held at least by a call that succeeds. An entry for each element or field is held next to
the whole encoding; and the bytes of the parts of variable size are held twice. -/
theorem C90_low (E : Env) (w : Nat) (t : Ty) (v : t.Val) (b : Bytes) (hl : Legal t) (hf : Fits t)
    (hv : Valid t v) (h : serialize (t.impl E).toSerializable v = .ok b) :
    w * (Spec.pieces t v).length + b.length ≤ (t.serializeP E w v).1 ∧
    ((Spec.pieces t v).map offsetBytes).sum + b.length ≤ (t.serializeP E w v).1 := by
  have hb : b = enc t v := C05_written E t v b hl hf hv h
  subst hb
  have h1 := serializeP_snd E w t v
  rw [h] at h1
  rw [serializeP_fst]
  have h2 : ∃ r, (t.serP E w v 0 []).2.2 = .ok r := by
    unfold Ty.serializeP at h1
    rcases hx : t.serP E w v 0 [] with ⟨k, b, r⟩
    rw [hx] at h1
    cases r with
    | ok r => exact ⟨r, rfl⟩
    | err e => cases h1
    | panic => cases h1
  obtain ⟨r, hr⟩ := h2
  have h3 := serP_ge E w t v hl hf hv 0 [] r hr
  rw [List.length_nil, Nat.zero_add] at h3
  exact h3

/-- C90: lists of bytes. Each byte gets a vector of its own, so `w + 1` to `w + 3` bytes are held for each
byte: with `w = 24` more than 25 times the length of the encoding. -/
theorem C90_bytes (E : Env) (w N : Nat) (v : List (BitVec 8)) (h1 : v.length ≤ N)
    (h2 : v.length < 2 ^ 32) :
    (∃ b, serialize ((Ty.list (.uint .u8) N).impl E).toSerializable v = .ok b ∧ b.length = v.length) ∧
    (w + 1) * v.length ≤ ((Ty.list (.uint .u8) N).serializeP E w v).1 ∧
    ((Ty.list (.uint .u8) N).serializeP E w v).1 ≤ (w + 3) * v.length := by
  have hv : Valid (.list (.uint .u8) N) v := ⟨h1, fun _ _ => trivial⟩
  have hlen : (enc (.list (.uint .u8) N) v).length = v.length := by
    have h : ∀ l : List (BitVec 8), (assemble (l.map fun x => (false, leBytes 1 x.toNat))).length =
        l.length := by
      intro l
      rw [← pieceSize_sum, List.map_map]
      induction l with
      | nil => rfl
      | cons x l ih => rw [List.map_cons, List.sum_cons, ih, List.length_cons]; exact Nat.add_comm _ _
    exact h v
  obtain ⟨b, hb⟩ := (C09_serialize_valid E (.list (.uint .u8) N) v trivial trivial hv).2
    (by rw [hlen]; exact h2)
  have hb2 : b.length = v.length := by
    rw [C05_written E (.list (.uint .u8) N) v b trivial trivial hv hb, hlen]
  refine ⟨⟨b, hb, hb2⟩, ?_, ?_⟩
  · have h3 := (C90_low E w (.list (.uint .u8) N) v b trivial trivial hv hb).1
    have h4 : (Spec.pieces (.list (.uint .u8) N) v).length = v.length := List.length_map _
    rw [h4, hb2] at h3
    rw [Nat.add_one_mul]
    exact h3
  · have h3 := C90_bound E w (.list (.uint .u8) N) v trivial trivial hv
    rw [hlen] at h3
    exact h3

/-- `n` bytes in `d` structs with one field each. -/
def boxTy (n : Nat) : Nat → Ty
  | 0 => .array (.uint .u8) n
  | d + 1 => .container (.cons "a" (boxTy n d) .nil)

/-- Zeros in `d` structs. -/
def boxVal (n : Nat) : (d : Nat) → (boxTy n d).Val
  | 0 => (⟨List.replicate n (0 : BitVec 8), List.length_replicate⟩ :
      { l : List (BitVec 8) // l.length = n })
  | d + 1 => (boxVal n d, ())

theorem box_isVar (n : Nat) : ∀ d, isVar (boxTy n d) = false
  | 0 => rfl
  | d + 1 => by show (isVar (boxTy n d) || false) = false; rw [box_isVar n d]; rfl

theorem box_fixedLen (n : Nat) : ∀ d, fixedLen (boxTy n d) = n
  | 0 => by simp [boxTy, fixedLen, isVar, UintTy.bits]
  | d + 1 => by
    have := box_fixedLen n d
    have := box_isVar n d
    simp_all [boxTy, fixedLen, fixedLenF, isVarF]

theorem box_legal {n : Nat} (hn : 0 < n) : ∀ d, Legal (boxTy n d)
  | 0 => ⟨hn, trivial⟩
  | d + 1 => ⟨fun h => (by cases h), by simp [namesF], box_legal hn d, trivial⟩

theorem box_fits {n : Nat} (hn : n < 2 ^ 63) : ∀ d, Fits (boxTy n d)
  | 0 => ⟨trivial, by show 1 * n < _; omega⟩
  | d + 1 => ⟨⟨box_fits hn d, trivial⟩, by
    show (if isVar (boxTy n d) then 4 else fixedLen (boxTy n d)) + 0 < _
    rw [box_isVar, box_fixedLen]
    exact hn⟩

theorem box_valid (n : Nat) : ∀ d, Valid (boxTy n d) (boxVal n d)
  | 0 => fun _ _ => trivial
  | d + 1 => ⟨box_valid n d, trivial⟩

theorem box_nesting (n : Nat) : ∀ d, nesting (boxTy n d) = d + 1
  | 0 => rfl
  | d + 1 => by
    show 1 + max (nesting (boxTy n d)) 0 = _
    rw [box_nesting n d]
    omega

theorem firstField_le (E : Env) (w : Nat) (name : String) (t : Ty) (rest : Fields)
    (v : (Fields.cons name t rest).Val) (s : SerializerP) :
    (s.withElement w (t.impl E).toSerializable (fun x => t.serP E w x) v.1).1 ≤
      ((Fields.cons name t rest).withElementsP E w v s).1 := by
  rw [Fields.withElementsP]
  rcases s.withElement w (t.impl E).toSerializable (fun x => t.serP E w x) v.1 with ⟨k, r⟩
  cases r with
  | ok s' => exact Nat.le_max_left _ _
  | err e => exact Nat.le_refl _
  | panic => exact Nat.le_refl _

theorem box_step (E : Env) (w n d cap : Nat) (buf : Bytes) (hn : n < 2 ^ 63) :
    max cap buf.length + ((boxTy n d).serP E w (boxVal n d) n []).1 ≤
      ((boxTy n (d + 1)).serP E w (boxVal n (d + 1)) cap buf).1 := by
  have h1 := BufP.le_bind (ofPeak (Fields.withElementsP E w (.cons "a" (boxTy n d) .nil)
    (boxVal n d, ()) {})) (fun s => s.serialize E w) cap buf
  refine Nat.le_trans ?_ h1
  show _ ≤ max cap buf.length + _
  refine Nat.add_le_add_left ?_ _
  have h2 : ((boxTy n d).serP E w (boxVal n d) n []).1 ≤
      (SerializerP.withElement w ((boxTy n d).impl E).toSerializable
        (fun x => (boxTy n d).serP E w x) {} (boxVal n d)).1 := by
    unfold SerializerP.withElement
    rw [impl_sizeHint E _ (box_fits hn d), box_fixedLen]
    have hc : (withCapacity n : Res SerError Unit) = .ok () := by
      unfold withCapacity
      exact if_pos hn
    simp only [Res.lift, hc]
    rcases (boxTy n d).serP E w (boxVal n d) n [] with ⟨k, b, r⟩
    cases r with
    | ok r =>
      dsimp only
      split
      · exact Nat.le_trans (Nat.le_add_left _ _) (Nat.le_max_left _ _)
      · exact Nat.le_trans (Nat.le_add_left _ _) (Nat.le_max_left _ _)
    | err e => exact Nat.le_add_left _ _
    | panic => exact Nat.le_add_left _ _
  exact Nat.le_trans h2 (firstField_le E w "a" (boxTy n d) .nil (boxVal n d, ()) {})

/-- C90: the nesting has to be in the bound, also without any offsets. For `n` bytes in `d` structs with one
field each, whose encoding has `n` bytes, each level has made its buffer before the next level begins. -/
theorem C90_deep (E : Env) (w n d : Nat) (hn : 0 < n) (h : n < 2 ^ 32) :
    (∃ b, serialize ((boxTy n d).impl E).toSerializable (boxVal n d) = .ok b ∧ b.length = n) ∧
    (w + d) * n ≤ ((boxTy n d).serializeP E w (boxVal n d)).1 ∧
    ((boxTy n d).serializeP E w (boxVal n d)).1 ≤ (w + d + 3) * n := by
  have hn2 : n < 2 ^ 63 := by omega
  have hlen : ∀ d, (enc (boxTy n d) (boxVal n d)).length = n := fun d => by
    rw [enc_length _ _ (box_isVar n d) (box_valid n d), box_fixedLen]
  obtain ⟨b, hb⟩ := (C09_serialize_valid E (boxTy n d) (boxVal n d) (box_legal hn d) (box_fits hn2 d)
    (box_valid n d)).2 (by rw [hlen]; exact h)
  refine ⟨⟨b, hb, ?_⟩, ?_, ?_⟩
  · rw [C05_written E _ _ b (box_legal hn d) (box_fits hn2 d) (box_valid n d) hb, hlen]
  · have h0 : ∀ cap, w * n + n ≤ ((boxTy n 0).serP E w (boxVal n 0) cap []).1 := fun cap => by
      obtain ⟨b0, hb0⟩ := (C09_serialize_valid E (boxTy n 0) (boxVal n 0) (box_legal hn 0)
        (box_fits hn2 0) (box_valid n 0)).2 (by rw [hlen]; exact h)
      have h1 := serP_snd E w (boxTy n 0) (boxVal n 0) cap []
      have h2 : ∃ r, ((boxTy n 0).serP E w (boxVal n 0) cap []).2.2 = .ok r := by
        rw [h1]
        unfold serialize at hb0
        rcases hx : ((boxTy n 0).impl E).serialize (boxVal n 0) [] with ⟨b', r⟩
        rw [hx] at hb0
        cases r with
        | ok r => exact ⟨r, rfl⟩
        | err e => cases hb0
        | panic => cases hb0
      obtain ⟨r, hr⟩ := h2
      have h3 := (serP_ge E w _ _ (box_legal hn 0) (box_fits hn2 0) (box_valid n 0) cap [] r hr).1
      have h4 : (Spec.pieces (boxTy n 0) (boxVal n 0)).length = n :=
        (List.length_map _).trans List.length_replicate
      rw [h4, hlen, List.length_nil, Nat.zero_add] at h3
      exact h3
    have h1 : ∀ d, w * n + (d + 1) * n ≤ ((boxTy n d).serP E w (boxVal n d) n []).1 := fun d => by
      induction d with
      | zero => have := h0 n; omega
      | succ d ih =>
        have := box_step E w n d n [] hn2
        rw [Nat.add_one_mul (d + 1)]
        omega
    rw [serializeP_fst, Nat.add_mul]
    cases d with
    | zero => have := h0 0; omega
    | succ d =>
      have := box_step E w n d 0 [] hn2
      have := h1 d
      omega
  · have h3 := C90_bound E w _ _ (box_legal hn d) (box_fits hn2 d) (box_valid n d)
    rw [hlen, box_nesting] at h3
    exact Nat.le_trans h3 (Nat.mul_le_mul_right _ (by omega))

/-- Two lists of two bytes each in a list, with entries of 24 bytes: 77 bytes are held for an encoding of 12;
the bounds of `C90_low` and `C90_bound` are 60 and 336. -/
example : ((Ty.list (.list (.uint .u8) 4) 4).serializeP ⟨true, fun _ => zeroNode⟩ 24
      ([[1, 2], [3, 4]] : List (List (BitVec 8)))).1 = 77 ∧
    (Spec.pieces (.list (.list (.uint .u8) 4) 4) ([[1, 2], [3, 4]] : List (List (BitVec 8)))).length = 2 ∧
    ((Spec.pieces (.list (.list (.uint .u8) 4) 4)
      ([[1, 2], [3, 4]] : List (List (BitVec 8)))).map offsetBytes).sum = 4 ∧
    nesting (.list (.list (.uint .u8) 4) 4) = 2 :=
  ⟨by decide +kernel, by decide +kernel, by decide +kernel, by decide +kernel⟩

/-- A byte in three structs: between 27 and 30. -/
example : ((boxTy 1 3).serializeP ⟨true, fun _ => zeroNode⟩ 24 (boxVal 1 3)).1 = 28 := by decide +kernel

/-- A megabyte of bytes needs at least 25 megabytes. -/
example (E : Env) : 25 * 10 ^ 6 ≤ ((Ty.list (.uint .u8) (2 ^ 40)).serializeP E 24
    (List.replicate (10 ^ 6) 0 : List (BitVec 8))).1 := by
  have h := (C90_bytes E 24 (2 ^ 40) (List.replicate (10 ^ 6) 0) (by rw [List.length_replicate]; decide)
    (by rw [List.length_replicate]; decide)).2.1
  rw [List.length_replicate] at h
  exact h

end Ssz
