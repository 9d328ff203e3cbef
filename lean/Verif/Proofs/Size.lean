import Verif.Proofs.Accept
import Verif.Spec.Size

/-!
# Decoded values are not larger than their input
-/

namespace Ssz

open Spec

theorem assemble_cons_length (v : Bool) (p : Bytes) (ps : List Piece) :
    (assemble ((v, p) :: ps)).length = (if v then 4 else 0) + p.length + (assemble ps).length := by
  rw [assemble_length, assemble_length]
  cases v
  · simp [headLen, headSize, tails]
    omega
  · simp [headLen, headSize, tails]
    omega

theorem assemble_nil_length : (assemble ([] : List Piece)).length = 0 := rfl

theorem assemble_mono {ps qs : List Piece}
    (h : List.Forall₂ (fun p q => p.1 = q.1 ∧ p.2.length ≤ q.2.length) ps qs) :
    (assemble ps).length ≤ (assemble qs).length := by
  induction h with
  | nil => exact Nat.le_refl _
  | @cons p q _ _ h1 _ ih =>
    obtain ⟨a, p⟩ := p
    obtain ⟨b, q⟩ := q
    obtain ⟨rfl, h1⟩ := h1
    rw [assemble_cons_length, assemble_cons_length]
    exact Nat.add_le_add (Nat.add_le_add_left h1 _) ih

theorem laid_enc_length {t : Ty} {b : Bytes} {vs : List t.Val}
    (ih : ∀ (p : Bytes) (x : t.Val), Accepts t p x → (enc t x).length ≤ p.length)
    (h : Laid (isVar t) (Accepts t) b vs) :
    (assemble (vs.map fun x => (isVar t, enc t x))).length ≤ b.length := by
  obtain ⟨ps, hall, hA, rfl⟩ := h
  apply assemble_mono
  clear hA
  induction hall with
  | nil => exact .nil
  | cons h1 _ ih2 => exact .cons ⟨rfl, ih _ _ h1⟩ ih2

mutual

theorem accepts_enc_length : ∀ (t : Ty) (b : Bytes) (v : t.Val), Accepts t b v →
    (enc t v).length ≤ b.length
  | .uint _, b, v, h => Nat.le_of_eq (congrArg List.length (show b = _ from h)).symm
  | .u256, b, v, h => Nat.le_of_eq (congrArg List.length (show b = _ from h)).symm
  | .bool, b, v, h => Nat.le_of_eq (congrArg List.length (show b = _ from h)).symm
  | .node, b, v, h => Nat.le_of_eq (congrArg List.length (show b = _ from h)).symm
  | .array t _, b, v, h => laid_enc_length (accepts_enc_length t) h
  | .vector t _, b, v, h => laid_enc_length (accepts_enc_length t) h.2
  | .list t n, b, v, h => by
    rcases h.2 with h | ⟨_, rfl, _⟩
    · exact laid_enc_length (accepts_enc_length t) h
    · exact Nat.zero_le _
  | .bitvector _, b, v, h => Nat.le_of_eq (congrArg List.length h.2.2).symm
  | .bitlist _, b, v, h => Nat.le_of_eq (congrArg List.length h.2.2).symm
  | .option t, b, v, h => by
    match v, h with
    | none, h => exact Nat.le_of_eq (congrArg List.length (show b = [0] from h)).symm
    | some x, h =>
      obtain ⟨r, hr, h'⟩ := h
      rw [hr]
      exact Nat.succ_le_succ (accepts_enc_length t r x h')
  | .newtype t, b, v, h => accepts_enc_length t b v h
  | .container fs, b, v, h => by
    obtain ⟨ps, h, -, rfl⟩ := h
    exact assemble_mono (acceptsF_pieces fs ps v h)
  | .union vs, b, v, h => acceptsV_enc_length vs 0 b v h

theorem acceptsF_pieces : ∀ (fs : Fields) (ps : List Piece) (v : fs.Val), AcceptsF fs ps v →
    List.Forall₂ (fun p q => p.1 = q.1 ∧ p.2.length ≤ q.2.length) (piecesF fs v) ps
  | .nil, ps, v, h => by
    rw [show ps = [] from h]
    exact .nil
  | .cons _ t rest, ps, v, h => by
    obtain ⟨p, qs, rfl, h1, h2⟩ := h
    exact .cons ⟨rfl, accepts_enc_length t p v.1 h1⟩ (acceptsF_pieces rest qs v.2 h2)

theorem acceptsV_enc_length : ∀ (vs : Variants) (i : Nat) (b : Bytes) (v : vs.Val),
    AcceptsV vs i b v → (encV vs i v).length ≤ b.length
  | .nil, _, _, _, h => h.elim
  | .unit _, _, b, .inl _, h => Nat.le_of_eq (congrArg List.length (show b = _ from h)).symm
  | .unit rest, i, b, .inr v, h => acceptsV_enc_length rest (i + 1) b v h
  | .data t _, i, b, .inl v, h => by
    obtain ⟨r, rfl, h⟩ := h
    exact Nat.succ_le_succ (accepts_enc_length t r v h)
  | .data _ rest, i, b, .inr v, h => acceptsV_enc_length rest (i + 1) b v h

end

theorem elements_dataBytes {t : Ty} (hl : Legal t) {vs : List t.Val} (hv : Each (Valid t) vs)
    (hn : vs.map (norm t) = vs)
    (ih : ∀ x : t.Val, Valid t x → norm t x = x → dataBytes t x ≤ (enc t x).length) :
    (vs.map fun x => max 1 (dataBytes t x)).sum ≤
      (assemble (vs.map fun x => (isVar t, enc t x))).length := by
  induction vs with
  | nil => exact Nat.zero_le _
  | cons x vs ih2 =>
    rw [List.map_cons, List.cons.injEq] at hn
    have h1 := ih2 (fun y hy => hv y (by simp [hy])) hn.2
    have hx := hv x (by simp)
    have h2 := ih x hx hn.1
    have h3 : 1 ≤ (if isVar t then 4 else 0) + (enc t x).length := by
      cases h : isVar t with
      | true => simp; omega
      | false =>
        have := fixedLen_pos t hl h
        rw [enc_length t x h hx]
        omega
    rw [List.map_cons, List.sum_cons, List.map_cons, assemble_cons_length]
    omega

mutual

theorem dataBytes_le : ∀ (t : Ty) (v : t.Val), Legal t → Valid t v → norm t v = v →
    dataBytes t v ≤ (enc t v).length
  | .uint u, v, _, _, _ => by simp [enc, dataBytes]
  | .u256, v, _, _, _ => by simp [enc, dataBytes]
  | .bool, v, _, _, _ => by simp [enc, dataBytes]
  | .node, v, _, _, _ => by simp [enc, dataBytes, v.2]
  | .array t n, v, hl, hv, hn =>
    elements_dataBytes hl.2 hv (congrArg Subtype.val hn) fun x => dataBytes_le t x hl.2
  | .vector t n, v, hl, hv, hn =>
    elements_dataBytes hl.2 hv.2 hn fun x => dataBytes_le t x hl.2
  | .list t n, v, hl, hv, hn =>
    elements_dataBytes (t := t) hl hv.2 hn fun x => dataBytes_le t x hl
  | .bitvector n, v, hl, hv, hn => by
    have h : v.dead = padBits v.live.length := (congrArg Bits.dead (show (⟨_, _⟩ : Bits) = v from hn)).symm
    show (v.live.length + v.dead.length) / 8 ≤ (Spec.packBits v.live).length
    rw [packBits_length, h, padBits, List.length_replicate]
    omega
  | .bitlist n, v, hl, hv, hn => by
    show (v.live.length + v.dead.length) / 8 ≤ (Spec.packBits (v.live ++ [true])).length
    rw [packBits_length, hv.2, padBits, List.length_replicate, List.length_append,
      List.length_singleton]
    omega
  | .option t, v, hl, hv, hn => by
    match v, hv, hn with
    | none, _, _ => exact Nat.le_refl _
    | some x, hv, hn =>
      have h := dataBytes_le t x hl (hv x rfl) (Option.some.inj hn)
      show 1 + dataBytes t x ≤ (1 :: enc t x).length
      rw [List.length_cons]
      omega
  | .newtype t, v, hl, hv, hn => dataBytes_le t v hl hv hn
  | .container fs, v, hl, hv, hn => dataBytesF_le fs v hl.2.2 hv hn
  | .union vs, v, hl, hv, hn => dataBytesV_le vs 0 v hl.2 hv hn

theorem dataBytesF_le : ∀ (fs : Fields) (v : fs.Val), LegalF fs → ValidF fs v → normF fs v = v →
    dataBytesF fs v ≤ (assemble (piecesF fs v)).length
  | .nil, _, _, _, _ => Nat.zero_le _
  | .cons _ t rest, v, hl, hv, hn => by
    have h1 := dataBytes_le t v.1 hl.1 hv.1 (congrArg Prod.fst hn)
    have h2 := dataBytesF_le rest v.2 hl.2 hv.2 (congrArg Prod.snd hn)
    have h3 := assemble_cons_length (isVar t) (enc t v.1) (piecesF rest v.2)
    show dataBytes t v.1 + dataBytesF rest v.2 ≤
      (assemble ((isVar t, enc t v.1) :: piecesF rest v.2)).length
    omega

theorem dataBytesV_le : ∀ (vs : Variants) (i : Nat) (v : vs.Val), LegalV vs → ValidV vs v →
    normV vs v = v → dataBytesV vs v ≤ (encV vs i v).length
  | .nil, _, v, _, _, _ => Empty.elim v
  | .unit _, _, .inl _, _, _, _ => Nat.le_refl _
  | .unit rest, i, .inr v, hl, hv, hn => dataBytesV_le rest (i + 1) v hl hv (Sum.inr.inj hn)
  | .data t _, i, .inl v, hl, hv, hn => by
    have h := dataBytes_le t v hl.1 hv (Sum.inl.inj hn)
    show 1 + dataBytes t v ≤ (BitVec.ofNat 8 i :: enc t v).length
    rw [List.length_cons]
    omega
  | .data _ rest, i, .inr v, hl, hv, hn =>
    dataBytesV_le rest (i + 1) v hl.2 hv (Sum.inr.inj hn)

end

end Ssz
