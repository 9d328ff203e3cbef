import Verif.Proofs.DecodeSound
import Verif.Proofs.SerializeAll

/-!
# Small facts about the specification used in the property theorems
-/

namespace Ssz

open Spec

theorem map_map_idem {α : Type} {f : α → α} (h : ∀ x, f (f x) = f x) (l : List α) :
    List.map f (List.map f l) = List.map f l := by
  rw [List.map_map]
  exact List.map_congr_left fun x _ => h x

theorem map_map_congr {α β : Type} {f : α → α} {g : α → β} (h : ∀ x, g (f x) = g x) (l : List α) :
    List.map g (List.map f l) = List.map g l := by
  rw [List.map_map]
  exact List.map_congr_left fun x _ => h x

mutual

theorem norm_norm : ∀ (t : Ty) (v : t.Val), norm t (norm t v) = norm t v
  | .uint _, _ => rfl
  | .u256, _ => rfl
  | .bool, _ => rfl
  | .node, _ => rfl
  | .array t _, v => Subtype.ext (map_map_idem (norm_norm t) v.1)
  | .vector t _, v => map_map_idem (norm_norm t) v
  | .list t _, v => map_map_idem (norm_norm t) v
  | .bitvector _, _ => rfl
  | .bitlist _, _ => rfl
  | .option t, v => by
      match v with
      | none => rfl
      | some x => exact congrArg some (norm_norm t x)
  | .newtype t, v => norm_norm t v
  | .container fs, v => normF_normF fs v
  | .union vs, v => normV_normV vs v

theorem normF_normF : ∀ (fs : Fields) (v : fs.Val), normF fs (normF fs v) = normF fs v
  | .nil, _ => rfl
  | .cons _ t rest, v => Prod.ext (norm_norm t v.1) (normF_normF rest v.2)

theorem normV_normV : ∀ (vs : Variants) (v : vs.Val), normV vs (normV vs v) = normV vs v
  | .nil, _ => rfl
  | .unit _, .inl _ => rfl
  | .unit rest, .inr v => congrArg Sum.inr (normV_normV rest v)
  | .data t _, .inl v => congrArg Sum.inl (norm_norm t v)
  | .data _ rest, .inr v => congrArg Sum.inr (normV_normV rest v)

end

mutual

theorem enc_norm : ∀ (t : Ty) (v : t.Val), enc t (norm t v) = enc t v
  | .uint _, _ => rfl
  | .u256, _ => rfl
  | .bool, _ => rfl
  | .node, _ => rfl
  | .array t _, v => congrArg assemble (map_map_congr (f := norm t) (g := fun x => (isVar t, enc t x))
      (fun x => congrArg (Prod.mk (isVar t)) (enc_norm t x)) v.1)
  | .vector t _, v => congrArg assemble (map_map_congr (f := norm t) (g := fun x => (isVar t, enc t x))
      (fun x => congrArg (Prod.mk (isVar t)) (enc_norm t x)) v)
  | .list t _, v => congrArg assemble (map_map_congr (f := norm t) (g := fun x => (isVar t, enc t x))
      (fun x => congrArg (Prod.mk (isVar t)) (enc_norm t x)) v)
  | .bitvector _, _ => rfl
  | .bitlist _, _ => rfl
  | .option t, v => by
      match v with
      | none => rfl
      | some x => exact congrArg (List.cons 1) (enc_norm t x)
  | .newtype t, v => enc_norm t v
  | .container fs, v => congrArg assemble (piecesF_normF fs v)
  | .union vs, v => encV_normV vs 0 v

theorem piecesF_normF : ∀ (fs : Fields) (v : fs.Val), piecesF fs (normF fs v) = piecesF fs v
  | .nil, _ => rfl
  | .cons _ t rest, v => congrArg₂ List.cons (congrArg (Prod.mk (isVar t)) (enc_norm t v.1))
      (piecesF_normF rest v.2)

theorem encV_normV : ∀ (vs : Variants) (i : Nat) (v : vs.Val), encV vs i (normV vs v) = encV vs i v
  | .nil, _, _ => rfl
  | .unit _, _, .inl _ => rfl
  | .unit rest, i, .inr v => encV_normV rest (i + 1) v
  | .data t _, i, .inl v => congrArg (List.cons (BitVec.ofNat 8 i)) (enc_norm t v)
  | .data _ rest, i, .inr v => encV_normV rest (i + 1) v

end

mutual

theorem inBounds_of_valid : ∀ (t : Ty) (v : t.Val), Valid t v → InBounds t v
  | .uint _, _, _ => trivial
  | .u256, _, _ => trivial
  | .bool, _, _ => trivial
  | .node, _, _ => trivial
  | .array t _, _, h => fun x hx => inBounds_of_valid t x (h x hx)
  | .vector t _, _, h => fun x hx => inBounds_of_valid t x (h.2 x hx)
  | .list t _, _, h => ⟨h.1, fun x hx => inBounds_of_valid t x (h.2 x hx)⟩
  | .bitvector _, _, _ => trivial
  | .bitlist _, _, h => h.1
  | .option t, _, h => fun x hx => inBounds_of_valid t x (h x hx)
  | .newtype t, v, h => inBounds_of_valid t v h
  | .container fs, v, h => inBoundsF_of_valid fs v h
  | .union vs, v, h => inBoundsV_of_valid vs v h

theorem inBoundsF_of_valid : ∀ (fs : Fields) (v : fs.Val), ValidF fs v → InBoundsF fs v
  | .nil, _, _ => trivial
  | .cons _ t rest, v, h => ⟨inBounds_of_valid t v.1 h.1, inBoundsF_of_valid rest v.2 h.2⟩

theorem inBoundsV_of_valid : ∀ (vs : Variants) (v : vs.Val), ValidV vs v → InBoundsV vs v
  | .nil, _, _ => trivial
  | .unit _, .inl _, _ => trivial
  | .unit rest, .inr v, h => inBoundsV_of_valid rest v h
  | .data t _, .inl v, h => inBounds_of_valid t v h
  | .data _ rest, .inr v, h => inBoundsV_of_valid rest v h

end

mutual

theorem stored_of_valid : ∀ (t : Ty) (v : t.Val), Valid t v → Stored t v
  | .uint _, _, _ => trivial
  | .u256, _, _ => trivial
  | .bool, _, _ => trivial
  | .node, _, _ => trivial
  | .array t _, _, h => fun x hx => stored_of_valid t x (h x hx)
  | .vector t _, _, h => fun x hx => stored_of_valid t x (h.2 x hx)
  | .list t _, _, h => fun x hx => stored_of_valid t x (h.2 x hx)
  | .bitvector _, _, _ => trivial
  | .bitlist _, _, h => congrArg List.length h.2
  | .option t, _, h => fun x hx => stored_of_valid t x (h x hx)
  | .newtype t, v, h => stored_of_valid t v h
  | .container fs, v, h => storedF_of_valid fs v h
  | .union vs, v, h => storedV_of_valid vs v h

theorem storedF_of_valid : ∀ (fs : Fields) (v : fs.Val), ValidF fs v → StoredF fs v
  | .nil, _, _ => trivial
  | .cons _ t rest, v, h => ⟨stored_of_valid t v.1 h.1, storedF_of_valid rest v.2 h.2⟩

theorem storedV_of_valid : ∀ (vs : Variants) (v : vs.Val), ValidV vs v → StoredV vs v
  | .nil, _, _ => trivial
  | .unit _, .inl _, _ => trivial
  | .unit rest, .inr v, h => storedV_of_valid rest v h
  | .data t _, .inl v, h => stored_of_valid t v h
  | .data _ rest, .inr v, h => storedV_of_valid rest v h

end

mutual

theorem noEmptyVarList_of_noVarList : ∀ (t : Ty) (v : t.Val), NoVarList t → NoEmptyVarList t v
  | .uint _, _, _ => trivial
  | .u256, _, _ => trivial
  | .bool, _, _ => trivial
  | .node, _, _ => trivial
  | .array t _, _, h => fun x _ => noEmptyVarList_of_noVarList t x h
  | .vector t _, _, h => fun x _ => noEmptyVarList_of_noVarList t x h
  | .list t _, _, h => ⟨fun hv => absurd (h.1.symm.trans hv) Bool.false_ne_true,
      fun x _ => noEmptyVarList_of_noVarList t x h.2⟩
  | .bitvector _, _, _ => trivial
  | .bitlist _, _, _ => trivial
  | .option t, _, h => fun x _ => noEmptyVarList_of_noVarList t x h
  | .newtype t, v, h => noEmptyVarList_of_noVarList t v h
  | .container fs, v, h => noEmptyVarListF_of fs v h
  | .union vs, v, h => noEmptyVarListV_of vs v h

theorem noEmptyVarListF_of : ∀ (fs : Fields) (v : fs.Val), NoVarListF fs → NoEmptyVarListF fs v
  | .nil, _, _ => trivial
  | .cons _ t rest, v, h => ⟨noEmptyVarList_of_noVarList t v.1 h.1, noEmptyVarListF_of rest v.2 h.2⟩

theorem noEmptyVarListV_of : ∀ (vs : Variants) (v : vs.Val), NoVarListV vs → NoEmptyVarListV vs v
  | .nil, _, _ => trivial
  | .unit _, .inl _, _ => trivial
  | .unit rest, .inr v, h => noEmptyVarListV_of rest v h
  | .data t _, .inl v, h => noEmptyVarList_of_noVarList t v h.1
  | .data _ rest, .inr v, h => noEmptyVarListV_of rest v h.2

end

mutual

/-- A fixed-size type contains nothing variable-size. -/
theorem fixed_facts : ∀ t : Ty, isVar t = false → NoVarList t ∧ NoVarElems t ∧ OneVarField t
  | .uint _, _ => ⟨trivial, trivial, trivial⟩
  | .u256, _ => ⟨trivial, trivial, trivial⟩
  | .bool, _ => ⟨trivial, trivial, trivial⟩
  | .node, _ => ⟨trivial, trivial, trivial⟩
  | .array t _, h => ⟨(fixed_facts t h).1, ⟨h, (fixed_facts t h).2.1⟩, (fixed_facts t h).2.2⟩
  | .vector t _, h => ⟨(fixed_facts t h).1, ⟨h, (fixed_facts t h).2.1⟩, (fixed_facts t h).2.2⟩
  | .list _ _, h => by simp [isVar] at h
  | .bitvector _, _ => ⟨trivial, trivial, trivial⟩
  | .bitlist _, h => by simp [isVar] at h
  | .option _, h => by simp [isVar] at h
  | .newtype t, h => fixed_facts t h
  | .container fs, h => ⟨(fixed_factsF fs h).1, (fixed_factsF fs h).2.1,
      by rw [(fixed_factsF fs h).2.2.2]; exact Nat.zero_le _, (fixed_factsF fs h).2.2.1⟩
  | .union _, h => by simp [isVar] at h

theorem fixed_factsF : ∀ fs : Fields, isVarF fs = false →
    NoVarListF fs ∧ NoVarElemsF fs ∧ OneVarFieldF fs ∧ countVarF fs = 0
  | .nil, _ => ⟨trivial, trivial, trivial, rfl⟩
  | .cons _ t rest, h => by
    simp only [isVarF, Bool.or_eq_false_iff] at h
    obtain ⟨a1, a2, a3⟩ := fixed_facts t h.1
    obtain ⟨b1, b2, b3, b4⟩ := fixed_factsF rest h.2
    exact ⟨⟨a1, b1⟩, ⟨a2, b2⟩, ⟨a3, b3⟩, by simp [countVarF, h.1, b4]⟩

end

/-! ## The user-facing `serialize` -/

theorem serialize_eq_ok {α : Type} {T : Serializable α} {v : α} {b : Bytes} :
    serialize T v = .ok b ↔ ∃ n, T.serialize v [] = (b, .ok n) := by
  unfold serialize
  rcases T.serialize v [] with ⟨r, n | e | _⟩
  · simp
  · simp
  · simp

theorem serialize_eq_panic {α : Type} {T : Serializable α} {v : α} :
    serialize T v = .panic ↔ ∃ b, T.serialize v [] = (b, .panic) := by
  unfold serialize
  rcases T.serialize v [] with ⟨r, n | e | _⟩ <;> simp

theorem serialize_total (E : Env) (t : Ty) (v : t.Val) (hl : Legal t) (hf : Fits t)
    (hst : Stored t v) :
    ((InBounds t v ∧ Small t v) ∧ ∃ b, serialize (t.impl E).toSerializable v = .ok b ∧
      b.length = (enc t v).length) ∨
    (¬ (InBounds t v ∧ Small t v) ∧ ∃ e, serialize (t.impl E).toSerializable v = .err e) := by
  rcases impl_total E t v hl hf hst with ⟨hp, b, n, hlen, h⟩ | ⟨hp, e, junk, h⟩
  · exact Or.inl ⟨hp, b, serialize_eq_ok.mpr ⟨n, h []⟩, hlen⟩
  · refine Or.inr ⟨hp, e, ?_⟩
    unfold serialize
    rw [h []]

theorem serialize_enc (E : Env) (t : Ty) (v : t.Val) (hl : Legal t) (hf : Fits t)
    (hv : Valid t v) (hs : Small t v) :
    serialize (t.impl E).toSerializable v = .ok (enc t v) :=
  serialize_eq_ok.mpr ⟨_, impl_serialize E t v hl hf hv hs []⟩

/-- A successful `serialize` of a valid value gives its encoding. -/
theorem serialize_ok_enc (E : Env) (t : Ty) (v : t.Val) (hl : Legal t) (hf : Fits t)
    (hv : Valid t v) {b : Bytes} (h : serialize (t.impl E).toSerializable v = .ok b) :
    b = enc t v ∧ Small t v := by
  rcases serialize_total E t v hl hf (stored_of_valid t v hv) with ⟨hp, _⟩ | ⟨_, e, he⟩
  · rw [serialize_enc E t v hl hf hv hp.2] at h
    injection h with h
    exact ⟨h.symm, hp.2⟩
  · rw [he] at h; cases h

end Ssz
