import Verif.Spec.Writes
import Verif.Proofs.Facts

/-!
# What encoding a value built from parts of any kind does
-/

namespace Ssz

open Spec

variable {α : Type}

theorem Spec.WritesAt.step {T : Serializable α} {x : α} {w : Written} (hs : Announces T)
    (h : WritesAt T x w) (ps : List Piece) :
    (Serializer.ofPieces ps).withElement T x = match w with
      | .ok b _ => .ok (Serializer.ofPieces (ps ++ [(T.isVariableSize, b)]))
      | .err _ e => .err e
      | .crash => .panic := by
  obtain ⟨s, hs, hc⟩ := hs
  have h0 := h []
  match w with
  | .ok b n =>
    simp only [List.nil_append] at h0
    simp only [Serializer.withElement, hs, Res.lift_ok, Res.ok_bind, withCapacity_ok hc, h0]
    cases hv : T.isVariableSize with
    | true =>
      simp [Serializer.ofPieces, headLen_append, tails_append]
      simp [headLen, headSize, tails]
    | false =>
      simp [Serializer.ofPieces, headLen_append, tails_append]
      simp [headLen, headSize, tails]
  | .err l e =>
    simp only [Serializer.withElement, hs, Res.lift_ok, Res.ok_bind, withCapacity_ok hc, h0]
  | .crash =>
    simp only [Serializer.withElement, hs, Res.lift_ok, Res.ok_bind, withCapacity_ok hc]
    have h0 : (T.serialize x []).2 = .panic := h0
    rcases hx : T.serialize x [] with ⟨r, y⟩
    rw [hx] at h0
    simp only at h0
    subst h0
    rfl

/-- What is done with the `Serializer` afterwards. -/
def finishWith (E : Env) (r : Res SerError Serializer) : BufM SerError Nat := do
  let s ← BufM.ofRes r
  s.serialize E

/-- The outcome, as a result. -/
def Does (m : BufM SerError Nat) (w : Written) : Prop :=
  ∀ buf, match w with
    | .ok b n => m buf = (buf ++ b, .ok n)
    | .err l e => m buf = (buf ++ l, .err e)
    | .crash => (m buf).2 = .panic

theorem serialize_big (E : Env) (ps : List Piece) (h : ¬ (assemble ps).length < 2 ^ 32) (buf : Bytes) :
    (Serializer.ofPieces ps).serialize E buf =
      (buf, .err (.maximumEncodedLengthReached (assemble ps).length)) := by
  have hl := assemble_length ps
  have hm : maximumLength = 2 ^ 32 := rfl
  have hge : (Serializer.ofPieces ps).fixedLengthsSum +
      (Serializer.ofPieces ps).variableLengthsSum ≥ maximumLength := by
    show headLen ps + (tails ps).length ≥ _
    omega
  unfold Serializer.serialize
  simp only [if_pos hge, hl]
  rfl

theorem does_finish (E : Env) (ps : List Piece) :
    Does (finishWith E (.ok (Serializer.ofPieces ps))) (Written.collect ps []) := by
  intro buf
  unfold Written.collect
  have hx : finishWith E (.ok (Serializer.ofPieces ps)) buf = (Serializer.ofPieces ps).serialize E buf :=
    BufM.bind_ok rfl
  by_cases h : (assemble ps).length < 2 ^ 32
  · simp only [if_pos h]
    exact hx.trans (Serializer.serialize_ofPieces E ps h buf)
  · simp only [if_neg h, List.append_nil]
    exact hx.trans (serialize_big E ps h buf)

theorem does_err (E : Env) (e : SerError) : Does (finishWith E (.err e)) (.err [] e) := fun buf => by
  show finishWith E (.err e) buf = (buf ++ [], .err e)
  rw [List.append_nil]
  rfl

theorem does_crash (E : Env) : Does (finishWith E .panic) .crash := fun _ => rfl

theorem does_elements (E : Env) {T : Serializable α} (hs : Announces T) :
    ∀ (vs : List α) (ws : List Written), List.Forall₂ (WritesAt T) vs ws → ∀ ps : List Piece,
    Does (finishWith E ((Serializer.ofPieces ps).withElements T vs))
      (Written.collect ps (ws.map fun w => (T.isVariableSize, w)))
  | _, _, .nil, ps => does_finish E ps
  | x :: vs, w :: ws, .cons h hr, ps => by
    have hstep := h.step hs ps
    show Does (finishWith E ((Serializer.ofPieces ps).withElement T x >>= fun s => s.withElements T vs)) _
    rw [hstep]
    match w with
    | .ok b n => exact does_elements E hs vs ws hr (ps ++ [(T.isVariableSize, b)])
    | .err l e => exact does_err E e
    | .crash => exact does_crash E

theorem does_fields (E : Env) {fs : FieldImpls α} {v : α} {ws : List (Bool × Written)}
    (h : StructWrites fs v ws) : ∀ ps : List Piece,
    Does (finishWith E (fs.withElements v (Serializer.ofPieces ps))) (Written.collect ps ws) := by
  induction h with
  | nil => exact fun ps => does_finish E ps
  | @cons α β name T rest x v w ws hs h hr ih =>
    intro ps
    have hstep := h.step hs ps
    show Does (finishWith E ((Serializer.ofPieces ps).withElement T.toSerializable x >>= fun s =>
      rest.withElements v s)) _
    rw [hstep]
    match w with
    | .ok b n => exact ih (ps ++ [(T.isVariableSize, b)])
    | .err l e => exact does_err E e
    | .crash => exact does_crash E

theorem does_selector {T : Serializable α} {x : α} {w : Written} (h : WritesAt T x w) (i : Nat) :
    Does (serializeWithSelector T i x) (w.selected (BitVec.ofNat 8 i)) := by
  intro buf
  have hsel : (Serializable.uint .u8).serialize (BitVec.ofNat 8 i) buf =
      (buf ++ [BitVec.ofNat 8 i], .ok 1) := by
    rw [uint_serialize]
    congr 2
    show [BitVec.ofNat 8 ((BitVec.ofNat 8 i).toNat / 256 ^ 0)] = _
    congr 1
    apply BitVec.eq_of_toNat_eq
    simp
  have h1 := h (buf ++ [BitVec.ofNat 8 i])
  have hx : serializeWithSelector T i x buf = ((do
      let valueBytes ← T.serialize x
      BufM.ofRes (.ok (1 + valueBytes)) : BufM SerError Nat)) (buf ++ [BitVec.ofNat 8 i]) :=
    BufM.bind_ok hsel
  match w with
  | .ok b n =>
    show serializeWithSelector T i x buf = (buf ++ BitVec.ofNat 8 i :: b, .ok (1 + n))
    rw [hx, BufM.bind_ok h1, List.append_assoc]
    rfl
  | .err l e =>
    show serializeWithSelector T i x buf = (buf ++ BitVec.ofNat 8 i :: l, .err e)
    rw [hx, BufM.bind_err h1, List.append_assoc]
    rfl
  | .crash =>
    show (serializeWithSelector T i x buf).2 = .panic
    rw [hx]
    have h1 : (T.serialize x (buf ++ [BitVec.ofNat 8 i])).2 = .panic := h1
    rcases hy : T.serialize x (buf ++ [BitVec.ofNat 8 i]) with ⟨r, y⟩
    rw [hy] at h1
    simp only at h1
    subst h1
    rw [BufM.bind_panic hy]

theorem does_zero : Does ((Serializable.uint .u8).serialize (0 : BitVec 8)) (.ok [0] 1) := fun buf => by
  show (Serializable.uint .u8).serialize (0 : BitVec 8) buf = _
  rw [uint_serialize]
  rfl

theorem does_variant {ps : PayloadImpls α} {v : α} {i : Nat} {w : Written} (h : EnumWrites ps v i w) :
    ∀ k, Does (ps.variants.serialize k v) (w.selected (BitVec.ofNat 8 (k + i))) := by
  induction h with
  | here h => exact fun k => does_selector h k
  | @there _ _ _ _ _ i _ _ ih =>
    intro k
    have := ih (k + 1)
    rw [show k + 1 + i = k + (i + 1) by omega] at this
    exact this

theorem does_transparent {ps : PayloadImpls α} {v : α} {i : Nat} {w : Written} (h : EnumWrites ps v i w) :
    Does (ps.transparent.serialize v) w := by
  induction h with
  | here h => exact h
  | there _ ih => exact ih

theorem collect_left : ∀ (ws : List (Bool × Written)) (ps : List Piece) (l : Bytes) (e : SerError),
    Written.collect ps ws = .err l e → l = []
  | [], ps, l, e, h => by
    unfold Written.collect at h
    split at h
    · cases h
    · injection h with h _; exact h.symm
  | (_, .ok b _) :: rest, ps, l, e, h => collect_left rest _ l e h
  | (_, .err _ _) :: _, _, l, e, h => by injection h with h _; exact h.symm
  | (_, .crash) :: _, _, _, _, h => by cases h

end Ssz
