import Verif.Proofs.Root

/-!
# Values that compare equal behave the same
-/

namespace Ssz

open Spec

/-- Two values with the same encoding outcome and the same root. -/
def Same {α : Type} (T : SimpleSerialize α) (v w : α) : Prop :=
  T.serialize v = T.serialize w ∧ T.hashTreeRoot v = T.hashTreeRoot w

section

variable {α : Type} {T : SimpleSerialize α}

theorem withElement_same {v w : α} (h : Same T v w) (s : Serializer) :
    s.withElement T.toSerializable v = s.withElement T.toSerializable w := by
  unfold Serializer.withElement
  rw [h.1]

theorem withElements_same {vs ws : List α} (h : List.Forall₂ (Same T) vs ws) (s : Serializer) :
    s.withElements T.toSerializable vs = s.withElements T.toSerializable ws := by
  induction h generalizing s with
  | nil => rfl
  | cons h _ ih => simp only [Serializer.withElements, withElement_same h, ih]

theorem packLoop_same {vs ws : List α} (h : List.Forall₂ (Same T) vs ws) (b : Bytes) :
    packLoop T.toSerializable vs b = packLoop T.toSerializable ws b := by
  induction h generalizing b with
  | nil => rfl
  | cons h _ ih => simp only [packLoop, h.1, ih]

theorem elementsLoop_same {vs ws : List α} (h : List.Forall₂ (Same T) vs ws) (i : Nat) (b : Bytes) :
    elementsToChunksLoop T.hashTreeRoot i vs b = elementsToChunksLoop T.hashTreeRoot i ws b := by
  induction h generalizing i b with
  | nil => rfl
  | cons h _ ih => simp only [elementsToChunksLoop, h.2, ih]

theorem assembleChunks_same (E : Env) {vs ws : List α} (h : List.Forall₂ (Same T) vs ws) :
    assembleChunks E T vs = assembleChunks E T ws := by
  simp only [assembleChunks, elementsToChunks, pack, packLoop_same h, elementsLoop_same h,
    h.length_eq]

theorem forall₂_map_left {f : α → α} {vs : List α} (h : ∀ v ∈ vs, Same T (f v) v) :
    List.Forall₂ (Same T) (vs.map f) vs := by
  induction vs with
  | nil => exact .nil
  | cons v vs ih => exact .cons (h v (by simp)) (ih fun w hw => h w (by simp [hw]))

theorem array_same (E : Env) {n : Nat} {v w : { l : List α // l.length = n }}
    (h : List.Forall₂ (Same T) v.1 w.1) : Same (SimpleSerialize.array E T n) v w := by
  refine ⟨?_, ?_⟩
  · simp only [SimpleSerialize.array, Serializable.array, withElements_same h]
  · simp only [SimpleSerialize.array, assembleChunks_same E h]

theorem vector_same (E : Env) {n : Nat} {v w : List α}
    (h : List.Forall₂ (Same T) v w) : Same (SimpleSerialize.vector E T n) v w := by
  refine ⟨?_, ?_⟩
  · simp only [SimpleSerialize.vector, Serializable.vector, withElements_same h]
  · simp only [SimpleSerialize.vector, assembleChunks_same E h]

theorem list_same (E : Env) {n : Nat} {v w : List α}
    (h : List.Forall₂ (Same T) v w) : Same (SimpleSerialize.list E T n) v w := by
  refine ⟨?_, ?_⟩
  · simp only [SimpleSerialize.list, Serializable.list, withElements_same h, h.length_eq]
  · simp only [SimpleSerialize.list, assembleChunks_same E h, h.length_eq]

theorem option_same (E : Env) {v w : α} (h : Same T v w) :
    Same (SimpleSerialize.option E T) (some v) (some w) := by
  refine ⟨?_, ?_⟩
  · simp only [SimpleSerialize.option, Serializable.option, serializeWithSelector, h.1]
  · simp only [SimpleSerialize.option, optionChunks, h.2]

theorem newtype_same (E : Env) {v w : α} (h : Same T v w) :
    Same (SimpleSerialize.newtype E T) v w := by
  refine ⟨?_, ?_⟩
  · simp only [SimpleSerialize.newtype, h.1]
  · simp only [SimpleSerialize.newtype, h.2]

end

/-- Field by field. -/
def SameF : {α : Type} → FieldImpls α → α → α → Prop
  | _, .nil, _, _ => True
  | _, .cons _ T rest, v, w => Same T v.1 w.1 ∧ SameF rest v.2 w.2

theorem sameF_withElements {α : Type} : (fs : FieldImpls α) → (v w : α) → SameF fs v w →
    ∀ s, fs.withElements v s = fs.withElements w s
  | .nil, _, _, _, _ => rfl
  | .cons _ _ rest, v, w, h, s => by
    simp only [FieldImpls.withElements, withElement_same h.1, sameF_withElements rest v.2 w.2 h.2]

theorem sameF_assembleLoop {α : Type} : (fs : FieldImpls α) → (v w : α) → SameF fs v w →
    ∀ i b, fs.assembleLoop v i b = fs.assembleLoop w i b
  | .nil, _, _, _, _, _ => rfl
  | .cons _ _ rest, v, w, h, i, b => by
    simp only [FieldImpls.assembleLoop, h.1.2, sameF_assembleLoop rest v.2 w.2 h.2]

theorem container_same (E : Env) {α : Type} {fs : FieldImpls α} {v w : α} (h : SameF fs v w) :
    Same (SimpleSerialize.container E fs) v w := by
  refine ⟨?_, ?_⟩
  · simp only [SimpleSerialize.container, sameF_withElements fs v w h]
  · simp only [SimpleSerialize.container, FieldImpls.assembleChunks, sameF_assembleLoop fs v w h]

theorem bitvector_same (E : Env) (n : Nat) {v w : Bits} (h : v.live = w.live) :
    Same (SimpleSerialize.bitvector E n) v w := by
  have h1 : Bitvector.serialize n v = Bitvector.serialize n w := by
    unfold Bitvector.serialize; rw [h]
  exact ⟨h1, by simp only [SimpleSerialize.bitvector, Bitvector.packBits, h1]⟩

mutual

theorem norm_same (E : Env) : ∀ (t : Ty) (v : t.Val), Clean t v → Same (t.impl E) (norm t v) v
  | .uint _, _, _ => ⟨rfl, rfl⟩
  | .u256, _, _ => ⟨rfl, rfl⟩
  | .bool, _, _ => ⟨rfl, rfl⟩
  | .node, _, _ => ⟨rfl, rfl⟩
  | .array t n, v, h =>
    array_same E (T := t.impl E) (forall₂_map_left fun x hx => norm_same E t x (h x hx))
  | .vector t n, v, h =>
    vector_same E (T := t.impl E) (forall₂_map_left fun x hx => norm_same E t x (h x hx))
  | .list t n, v, h =>
    list_same E (T := t.impl E) (forall₂_map_left fun x hx => norm_same E t x (h x hx))
  | .bitvector n, v, _ => bitvector_same E n rfl
  | .bitlist n, v, h => by
    have : norm (.bitlist n) v = v := by
      show (⟨v.live, padBits v.live.length⟩ : Bits) = v
      have h : v.dead = padBits v.live.length := h
      rw [← h]
      rfl
    rw [this]
    exact ⟨rfl, rfl⟩
  | .option _, none, _ => ⟨rfl, rfl⟩
  | .option t, some x, h => option_same E (norm_same E t x (h x rfl))
  | .newtype t, v, h => newtype_same E (norm_same E t v h)
  | .container fs, v, h => container_same E (norm_sameF E fs v h)
  | .union vs, v, h => ⟨(norm_sameV E vs 0 v h).1, (norm_sameV E vs 0 v h).2⟩

theorem norm_sameF (E : Env) : ∀ (fs : Fields) (v : fs.Val), CleanF fs v →
    SameF (fs.impls E) (normF fs v) v
  | .nil, _, _ => trivial
  | .cons _ t rest, v, h => ⟨norm_same E t v.1 h.1, norm_sameF E rest v.2 h.2⟩

theorem norm_sameV (E : Env) : ∀ (vs : Variants) (i : Nat) (v : vs.Val), CleanV vs v →
    (vs.impls E).serialize i (normV vs v) = (vs.impls E).serialize i v ∧
      (vs.impls E).hashTreeRoot E i (normV vs v) = (vs.impls E).hashTreeRoot E i v
  | .nil, _, v, _ => v.elim
  | .unit _, _, .inl _, _ => ⟨rfl, rfl⟩
  | .unit rest, i, .inr v, h => norm_sameV E rest (i + 1) v h
  | .data t rest, i, .inl v, h => by
    have h := norm_same E t v h
    refine ⟨?_, ?_⟩
    · show serializeWithSelector _ i _ = serializeWithSelector _ i _
      simp only [serializeWithSelector, h.1]
    · show ((t.impl E).hashTreeRoot (norm t v) >>= fun c => mixInDecoration E c i) =
        ((t.impl E).hashTreeRoot v >>= fun c => mixInDecoration E c i)
      rw [h.2]
  | .data _ rest, i, .inr v, h => norm_sameV E rest (i + 1) v h

end

theorem equal_same (E : Env) {t : Ty} {v w : t.Val} (hv : Clean t v) (hw : Clean t w)
    (h : norm t v = norm t w) : Same (t.impl E) v w := by
  have h1 := norm_same E t v hv
  have h2 := norm_same E t w hw
  rw [h] at h1
  exact ⟨h1.1.symm.trans h2.1, h1.2.symm.trans h2.2⟩

end Ssz
