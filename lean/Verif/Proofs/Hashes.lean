import Verif.Spec.Hashes
import Verif.Proofs.Parts
import Verif.Proofs.Writes

/-!
# Roots of values built from parts of any kind
-/

namespace Ssz

open Spec

theorem collected_cons (r : Node) (rest : List (Res MerkError Node)) :
    collected (.ok r :: rest) = (collected rest).map (r :: ·) := by
  rw [collected]
  cases collected rest <;> rfl

theorem elements_collected {α : Type} (f : α → Res MerkError Node) (xs : List α) (pre : List Node) :
    elementsToChunksLoop f pre.length xs (flat (pre ++ List.replicate xs.length zeroNode)) =
      (collected (xs.map f)).map fun ns => flat (pre ++ ns) := by
  induction xs generalizing pre with
  | nil => simp [elementsToChunksLoop, collected, Res.map]
  | cons x xs ih =>
    rw [elementsToChunksLoop, List.map_cons]
    match hx : f x with
    | .err e => rfl
    | .panic => rfl
    | .ok r =>
      rw [Res.ok_bind, copyInto_flat (ns := pre ++ List.replicate (x :: xs).length zeroNode)
        (i := pre.length) r (by simp) rfl rfl rfl, Res.ok_bind]
      have := ih (pre ++ [r])
      rw [List.length_append, List.length_singleton, List.append_assoc] at this
      rw [List.set_append_right _ _ (Nat.le_refl _), Nat.sub_self, List.length_cons, List.replicate_succ,
        List.set_cons_zero]
      refine this.trans ?_
      rw [collected_cons]
      match collected (xs.map f) with
      | .ok ns => simp [Res.map]
      | .err e => rfl
      | .panic => rfl

theorem fields_collected : {α : Type} → (fs : FieldImpls α) → (v : α) → (pre : List Node) →
    fs.assembleLoop v pre.length (flat (pre ++ List.replicate (partRoots fs v).length zeroNode)) =
      (collected (partRoots fs v)).map fun ns => flat (pre ++ ns)
  | _, .nil, _, pre => by simp [FieldImpls.assembleLoop, partRoots, collected, Res.map]
  | _, .cons _ T rest, v, pre => by
    rw [FieldImpls.assembleLoop, partRoots]
    match hx : T.hashTreeRoot v.1 with
    | .err e => rfl
    | .panic => rfl
    | .ok r =>
      rw [Res.ok_bind, copyInto_flat
        (ns := pre ++ List.replicate (Res.ok r :: partRoots rest v.2).length zeroNode)
        (i := pre.length) r (by simp) rfl rfl rfl, Res.ok_bind]
      have := fields_collected rest v.2 (pre ++ [r])
      rw [List.length_append, List.length_singleton, List.append_assoc] at this
      rw [List.set_append_right _ _ (Nat.le_refl _), Nat.sub_self, List.length_cons, List.replicate_succ,
        List.set_cons_zero]
      refine this.trans ?_
      rw [collected_cons]
      match collected (partRoots rest v.2) with
      | .ok ns => simp [Res.map]
      | .err e => rfl
      | .panic => rfl

theorem partRoots_length : {α : Type} → (fs : FieldImpls α) → (v : α) → (partRoots fs v).length = fs.count
  | _, .nil, _ => rfl
  | _, .cons _ _ rest, v => by
    rw [partRoots, List.length_cons, partRoots_length rest v.2, FieldImpls.count]
    omega

theorem loop_packed {α : Type} {T : Serializable α} (vs : List α) (ws : List Written)
    (h : List.Forall₂ (WritesAt T) vs ws) (buf : Bytes) :
    packLoop T vs buf = (packed ws).map fun b => buf ++ b := by
  induction h generalizing buf with
  | nil => simp [packLoop, packed, Res.map]
  | @cons v w vs ws h _ ih =>
    rw [packLoop]
    match w with
    | .ok b n =>
      rw [show T.serialize v buf = (buf ++ b, .ok n) from h buf]
      refine (ih _).trans ?_
      rw [packed]
      match packed ws with
      | .ok bs => simp [Res.map]
      | .err e => rfl
      | .panic => rfl
    | .err l e =>
      rw [show T.serialize v buf = (buf ++ l, .err e) from h buf]
      rfl
    | .crash =>
      have h0 : (T.serialize v buf).2 = .panic := h buf
      rcases hx : T.serialize v buf with ⟨r, y⟩
      rw [hx] at h0
      simp only at h0
      subst h0
      rfl

theorem collected_length : ∀ (rs : List (Res MerkError Node)) (ns : List Node),
    collected rs = .ok ns → rs = ns.map .ok
  | [], ns, h => by
    injection h with h
    subst h
    rfl
  | .ok r :: rest, ns, h => by
    rw [collected] at h
    match hx : collected rest with
    | .ok rs =>
      rw [hx] at h
      injection h with h
      subst h
      rw [List.map_cons, ← collected_length rest rs hx]
    | .err e => rw [hx] at h; cases h
    | .panic => rw [hx] at h; cases h
  | .err _ :: _, _, h => by cases h
  | .panic :: _, _, h => by cases h

theorem collected_ok : ∀ ns : List Node, collected (ns.map .ok) = .ok ns
  | [] => rfl
  | n :: ns => by
    rw [List.map_cons, collected, collected_ok ns]

theorem collected_append (ns : List Node) (rs : List (Res MerkError Node)) :
    collected (ns.map .ok ++ rs) = (collected rs).map fun ms => ns ++ ms := by
  induction ns with
  | nil => rw [List.map_nil, List.nil_append]; cases collected rs <;> rfl
  | cons n ns ih =>
    rw [List.map_cons, List.cons_append, collected, ih]
    cases collected rs <;> rfl

/-- The chunks of a collection of composite parts. -/
theorem chunks_collected {α : Type} (E : Env) (T : SimpleSerialize α) (hc : T.isCompositeType = true)
    (vs : List α) (hm : vs.length < 2 ^ 58) :
    assembleChunks E T vs = (collected (vs.map T.hashTreeRoot)).map flat := by
  have h1 : vs.length * 32 < usizeMod := by simp only [usizeMod]; omega
  have h2 : vs.length * 32 < isizeMax1 := by simp only [isizeMax1]; omega
  rw [assembleChunks, hc, if_pos rfl, elementsToChunks, Env.mul_eq_ok h1, Res.lift_ok, Res.ok_bind, zeros,
    if_pos h2, Res.ok_bind, ← flat_replicate]
  exact elements_collected T.hashTreeRoot vs []

/-- The chunks of a collection of basic parts. -/
theorem chunks_packed {α : Type} (E : Env) (T : SimpleSerialize α) (hc : T.isCompositeType = false)
    (vs : List α) (ws : List Written) (h : List.Forall₂ (WritesAt T.toSerializable) vs ws) :
    assembleChunks E T vs = (inChunks (packed ws)).map flat := by
  rw [assembleChunks, hc]
  simp only [Bool.false_eq_true, if_false]
  unfold pack
  rw [loop_packed vs ws h]
  match packed ws with
  | .ok b =>
    show Res.ok (packBytes ([] ++ b)) = Res.ok (flat (chunkify b))
    rw [List.nil_append, packBytes_eq]
  | .err e => rfl
  | .panic => rfl

theorem merkleize_chunks (E : Env) (c : Res MerkError (List Node))
    (hl : ∀ ns, c = .ok ns → ns.length ≤ 2 ^ 63) :
    (c.map flat >>= fun chunks => merkleize E chunks none) = overChunks E.sha256 c := by
  match c with
  | .ok ns =>
    show merkleize E (flat ns) none = _
    rw [merkleize_none_ok _ _ (hl ns rfl), full_leaf_root]
    rfl
  | .err e => rfl
  | .panic => rfl

theorem merkleize_limited (E : Env) (c : Res MerkError (List Node)) (limit length : Nat)
    (hl : ∀ ns, c = .ok ns → ns.length ≤ 2 ^ 63) (hb : limit ≤ 2 ^ 63) (hn : length < 2 ^ 64) :
    (c.map flat >>= fun chunks => merkleize E chunks (some limit) >>= fun r =>
      mixInDecoration E r length) = overLimited E.sha256 limit length c := by
  match c with
  | .ok ns =>
    show (merkleize E (flat ns) (some limit) >>= fun r => mixInDecoration E r length) = _
    unfold overLimited
    by_cases h : ns.length ≤ limit
    · rw [merkleize_some_ok _ _ h hb, Res.ok_bind, mixInDecoration_ok E hn, full_leaf_root]
      simp only [if_pos h]
      rfl
    · rw [merkleize_exceeds _ _ (by omega) (hl ns rfl)]
      simp only [if_neg h]
      rfl
  | .err e => rfl
  | .panic => rfl

theorem variants_selector (E : Env) : {α : Type} → (ps : PayloadImpls α) → (k : Nat) → (v : α) →
    k + (variantRoot ps v).1 < 2 ^ 64 →
    ps.variants.hashTreeRoot E k v =
      underSelector E.sha256 (k + (variantRoot ps v).1) (variantRoot ps v).2
  | _, .nil, _, v, _ => v.elim
  | _, .cons T _, k, .inl x, h => by
    simp only [variantRoot] at h ⊢
    show (T.hashTreeRoot x >>= fun r => mixInDecoration E r k) = _
    match T.hashTreeRoot x with
    | .ok r =>
      rw [Res.ok_bind, mixInDecoration_ok E (by omega)]
      rfl
    | .err e => rfl
    | .panic => rfl
  | _, .cons _ rest, k, .inr v, h => by
    simp only [variantRoot] at h ⊢
    have := variants_selector E rest (k + 1) v (by omega)
    rw [show k + 1 + (variantRoot rest v).1 = k + ((variantRoot rest v).1 + 1) by omega] at this
    exact this

theorem transparent_payload : {α : Type} → (ps : PayloadImpls α) → (v : α) →
    ps.transparent.hashTreeRoot v = (variantRoot ps v).2
  | _, .nil, v => v.elim
  | _, .cons _ _, .inl _ => rfl
  | _, .cons _ rest, .inr v => transparent_payload rest v

end Ssz
