import Verif.Proofs.Stale
import Verif.Proofs.SerializeAll
import Verif.Spec.Stored

/-!
# Encodings and roots of values whose `Bitlist`s have any unused bits
-/

namespace Ssz

open Spec

theorem collection_length {α : Type} {f g : α → Bytes} {b : Bool} {xs : List α}
    (h : ∀ x ∈ xs, (f x).length = (g x).length) :
    (assemble (xs.map fun x => (b, f x))).length = (assemble (xs.map fun x => (b, g x))).length :=
  assemble_length_congr (by
    rw [List.map_map, List.map_map]
    exact List.map_congr_left fun x hx => congrArg (Prod.mk _) (h x hx))

mutual

/-- What is written has the length of the encoding. -/
theorem rawEnc_length : ∀ (t : Ty) (v : t.Val), Stored t v → (rawEnc t v).length = (enc t v).length
  | .uint _, _, _ => rfl
  | .u256, _, _ => rfl
  | .bool, _, _ => rfl
  | .node, _, _ => rfl
  | .array t _, v, h => collection_length fun x hx => rawEnc_length t x (h x hx)
  | .vector t _, v, h => collection_length fun x hx => rawEnc_length t x (h x hx)
  | .list t _, v, h => collection_length fun x hx => rawEnc_length t x (h x hx)
  | .bitvector _, _, _ => rfl
  | .bitlist _, v, h => by
    have h : v.dead.length = (padBits v.live.length).length := h
    simp only [rawEnc, enc, packBits_length, List.length_append, List.length_cons, List.length_tail,
      List.length_nil, h, padBits, List.length_replicate]
    omega
  | .option t, v, h => by
    match v, h with
    | none, _ => rfl
    | some x, h => exact congrArg (· + 1) (rawEnc_length t x (h x rfl))
  | .newtype t, v, h => rawEnc_length t v h
  | .container fs, v, h => assemble_length_congr (rawPiecesF_length fs v h)
  | .union vs, v, h => rawEncV_length vs 0 v h

theorem rawPiecesF_length : ∀ (fs : Fields) (v : fs.Val), StoredF fs v →
    (rawPiecesF fs v).map (fun p => (p.1, p.2.length)) =
      (piecesF fs v).map (fun p => (p.1, p.2.length))
  | .nil, _, _ => rfl
  | .cons _ t rest, v, h => by
    simp only [rawPiecesF, piecesF, List.map_cons]
    rw [rawEnc_length t v.1 h.1, rawPiecesF_length rest v.2 h.2]

theorem rawEncV_length : ∀ (vs : Variants) (i : Nat) (v : vs.Val), StoredV vs v →
    (rawEncV vs i v).length = (encV vs i v).length
  | .nil, _, v, _ => v.elim
  | .unit _, _, .inl _, _ => rfl
  | .unit rest, i, .inr v, h => rawEncV_length rest (i + 1) v h
  | .data t _, _, .inl v, h => congrArg (· + 1) (rawEnc_length t v h)
  | .data _ rest, i, .inr v, h => rawEncV_length rest (i + 1) v h

end

mutual

theorem stored_of_proper : ∀ (t : Ty) (v : t.Val), Proper t v → Stored t v
  | .uint _, _, _ => trivial
  | .u256, _, _ => trivial
  | .bool, _, _ => trivial
  | .node, _, _ => trivial
  | .array t _, _, h => fun x hx => stored_of_proper t x (h x hx)
  | .vector t _, _, h => fun x hx => stored_of_proper t x (h.2 x hx)
  | .list t _, _, h => fun x hx => stored_of_proper t x (h.2 x hx)
  | .bitvector _, _, _ => trivial
  | .bitlist _, _, h => h.2
  | .option t, _, h => fun x hx => stored_of_proper t x (h x hx)
  | .newtype t, v, h => stored_of_proper t v h
  | .container fs, v, h => stored_of_properF fs v h
  | .union vs, v, h => stored_of_properV vs v h

theorem stored_of_properF : ∀ (fs : Fields) (v : fs.Val), ProperF fs v → StoredF fs v
  | .nil, _, _ => trivial
  | .cons _ t rest, v, h => ⟨stored_of_proper t v.1 h.1, stored_of_properF rest v.2 h.2⟩

theorem stored_of_properV : ∀ (vs : Variants) (v : vs.Val), ProperV vs v → StoredV vs v
  | .nil, v, _ => v.elim
  | .unit _, .inl _, _ => trivial
  | .unit rest, .inr v, h => stored_of_properV rest v h
  | .data t _, .inl v, h => stored_of_proper t v h
  | .data _ rest, .inr v, h => stored_of_properV rest v h

end

theorem bits_wf {v : Bits} (h : v.dead.length = (padBits v.live.length).length) : v.WF := by
  rw [Bits.WF, h, padBits, List.length_replicate]

mutual

/-- What is written for a value. -/
theorem raw_serialize (E : Env) : ∀ (t : Ty) (v : t.Val), Legal t → Fits t → Proper t v →
    Small t v → SerOk (t.impl E).toSerializable v (rawEnc t v)
  | .uint u, v, _, _, _, _ => fun buf => by
    show (Serializable.uint u).serialize v buf = _
    rw [uint_serialize u v buf]
    simp only [rawEnc, leBytes_length]
  | .u256, v, _, _, _, _ => fun buf => by
    show SimpleSerialize.u256.serialize v buf = _
    simp only [SimpleSerialize.u256]
    rw [BufM.bind_ok (BufM.append_apply _ _), toLeBytes_eq]
    simp [rawEnc]
  | .bool, v, _, _, _, _ => fun buf => by
    show SimpleSerialize.bool.serialize v buf = _
    simp only [SimpleSerialize.bool]
    rw [BufM.bind_ok (BufM.append_apply _ _)]
    cases v <;> rfl
  | .node, v, _, _, _, _ => fun buf => by
    show SimpleSerialize.node.serialize v buf = _
    simp only [SimpleSerialize.node]
    rw [BufM.bind_ok (BufM.append_apply _ _)]
    simp [rawEnc, v.2]
  | .array t n, v, hl, hf, hv, hs => fun buf => by
    have hs1 : (rawEnc (.array t n) v).length < maxLen := by
      rw [rawEnc_length _ _ (stored_of_proper (.array t n) v hv)]; exact hs.1
    have h0 : n ≠ 0 := by have := hl.1; omega
    show (Serializable.array E (t.impl E).toSerializable n).serialize v buf = _
    simp only [Serializable.array, h0, if_false]
    have := Serializer.withElements_ofPieces (T := (t.impl E).toSerializable) (f := rawEnc t)
      (impl_capacity E t hf.1) (xs := v.1)
      (fun x hx => raw_serialize E t x hl.2 hf.1 (hv x hx) (hs.2 x hx)) []
    rw [show ({} : Serializer) = Serializer.ofPieces [] from rfl, this]
    simp only [List.nil_append, impl_isVar, BufM.ofRes_ok_bind]
    exact Serializer.serialize_ofPieces E _ hs1 buf
  | .vector t n, v, hl, hf, hv, hs => fun buf => by
    have hs1 : (rawEnc (.vector t n) v).length < maxLen := by
      rw [rawEnc_length _ _ (stored_of_proper (.vector t n) v hv)]; exact hs.1
    have h0 : n ≠ 0 := by have := hl.1; omega
    show (Serializable.vector E (t.impl E).toSerializable n).serialize v buf = _
    simp only [Serializable.vector, h0, if_false]
    have := Serializer.withElements_ofPieces (T := (t.impl E).toSerializable) (f := rawEnc t)
      (impl_capacity E t hf.1) (xs := v)
      (fun x hx => raw_serialize E t x hl.2 hf.1 (hv.2 x hx) (hs.2 x hx)) []
    rw [show ({} : Serializer) = Serializer.ofPieces [] from rfl, this]
    simp only [List.nil_append, impl_isVar, BufM.ofRes_ok_bind]
    exact Serializer.serialize_ofPieces E _ hs1 buf
  | .list t n, v, hl, hf, hv, hs => fun buf => by
    have hs1 : (rawEnc (.list t n) v).length < maxLen := by
      rw [rawEnc_length _ _ (stored_of_proper (.list t n) v hv)]; exact hs.1
    have h0 : ¬ List.length v > n := by have := hv.1; omega
    show (Serializable.list E (t.impl E).toSerializable n).serialize v buf = _
    simp only [Serializable.list, h0, if_false]
    have := Serializer.withElements_ofPieces (T := (t.impl E).toSerializable) (f := rawEnc t)
      (impl_capacity E t hf) (xs := v)
      (fun x hx => raw_serialize E t x hl hf (hv.2 x hx) (hs.2 x hx)) []
    rw [show ({} : Serializer) = Serializer.ofPieces [] from rfl, this]
    simp only [List.nil_append, impl_isVar, BufM.ofRes_ok_bind]
    exact Serializer.serialize_ofPieces E _ hs1 buf
  | .bitvector n, v, hl, _, hv, _ => fun buf => Bitvector.serialize_eq hl hv buf
  | .bitlist n, v, _, _, hv, _ => fun buf => Bitlist.serialize_exact hv.1 (bits_wf hv.2) buf
  | .option t, v, hl, hf, hv, hs => fun buf => by
    show (Serializable.option (t.impl E).toSerializable).serialize v buf = _
    cases (v : Option t.Val) with
    | none =>
      show (Serializable.uint .u8).serialize (0 : BitVec 8) buf = _
      rw [uint_serialize]; rfl
    | some x =>
      show serializeWithSelector (t.impl E).toSerializable 1 x buf = _
      rw [selector_ser 1 (raw_serialize E t x hl hf (hv x rfl) (hs x rfl))]
      rfl
  | .newtype t, v, hl, hf, hv, hs => raw_serialize E t v hl hf hv hs
  | .container fs, v, hl, hf, hv, hs => fun buf => by
    have hs1 : (rawEnc (.container fs) v).length < maxLen := by
      rw [rawEnc_length _ _ (stored_of_proper (.container fs) v hv)]; exact hs.1
    show (SimpleSerialize.container E (fs.impls E)).serialize v buf = _
    simp only [SimpleSerialize.container]
    rw [show ({} : Serializer) = Serializer.ofPieces [] from rfl,
      raw_withElements E fs v hl.2.2 hf.1 hv hs.2 []]
    simp only [List.nil_append, BufM.ofRes_ok_bind]
    exact Serializer.serialize_ofPieces E _ hs1 buf
  | .union vs, v, hl, hf, hv, hs => fun buf =>
    raw_serializeV E vs v (by
      cases vs with
      | nil => exact hl.1.elim
      | unit rest => exact Or.inr ⟨rfl, hl.1.1⟩
      | data t rest => exact Or.inl hl.1.1) hl.2 hf hv hs buf

theorem raw_withElements (E : Env) : ∀ (fs : Fields) (v : fs.Val), LegalF fs → FitsF fs →
    ProperF fs v → SmallF fs v → ∀ ps, (fs.impls E).withElements v (Serializer.ofPieces ps) =
      .ok (Serializer.ofPieces (ps ++ rawPiecesF fs v))
  | .nil, _, _, _, _, _, ps => by simp [Fields.impls, FieldImpls.withElements, rawPiecesF]
  | .cons _ t rest, v, hl, hf, hv, hs, ps => by
    show ((Serializer.ofPieces ps).withElement (t.impl E).toSerializable v.1 >>= fun s' =>
      (rest.impls E).withElements v.2 s') = _
    rw [Serializer.withElement_ofPieces (impl_capacity E t hf.1)
      (raw_serialize E t v.1 hl.1 hf.1 hv.1 hs.1)]
    simp only [Res.ok_bind]
    rw [raw_withElements E rest v.2 hl.2 hf.2 hv.2 hs.2, impl_isVar]
    simp [rawPiecesF]

theorem raw_serializeV (E : Env) : ∀ (vs : Variants) {i : Nat} (v : vs.Val),
    (noUnitV vs = true ∨ i = 0 ∧ noUnitV (match vs with | .unit r => r | .data _ r => r | .nil => .nil) = true) →
    LegalV vs → FitsV vs → ProperV vs v → SmallV vs v → ∀ buf,
    (vs.impls E).serialize i v buf = (buf ++ rawEncV vs i v, .ok (rawEncV vs i v).length)
  | .nil, _, v, _, _, _, _, _, _ => Empty.elim v
  | .unit rest, i, .inl _, hn, _, _, _, _, buf => by
    have hi : i = 0 := by
      rcases hn with h | h
      · simp [noUnitV] at h
      · exact h.1
    subst hi
    show (Serializable.uint .u8).serialize (0 : BitVec 8) buf = _
    rw [uint_serialize]; rfl
  | .unit rest, i, .inr v, hn, hl, hf, hv, hs, buf =>
    raw_serializeV E rest (i := i + 1) v (by
      rcases hn with h | h
      · simp [noUnitV] at h
      · exact Or.inl h.2) hl hf hv hs buf
  | .data t rest, i, .inl v, _, hl, hf, hv, hs, buf => by
    show serializeWithSelector (t.impl E).toSerializable i v buf = _
    rw [selector_ser i (raw_serialize E t v hl.1 hf.1 hv hs)]
    rfl
  | .data t rest, i, .inr v, hn, hl, hf, hv, hs, buf =>
    raw_serializeV E rest (i := i + 1) v (by
      rcases hn with h | h
      · exact Or.inl h
      · exact Or.inl h.2) hl.2 hf.2 hv hs buf

end

/-! ## Roots -/

def rawParts (t : Ty) (vs : List t.Val) : List MTree :=
  if packs t then leaves (vs.flatMap (enc t)) else vs.map (rawTree t)

theorem rawParts_length {t : Ty} (vs : List t.Val) :
    (rawParts t vs).length = chunkCountBy packs t vs.length := by
  by_cases hp : packs t = true
  · have := partsOf_length (t := t) (vs := vs) (fun v _ => packs_valid v hp)
    rw [partsOf, if_pos hp] at this
    rw [rawParts, if_pos hp, this]
  · rw [rawParts, if_neg hp, chunkCountBy, if_neg hp, List.length_map]

theorem raw_assembleChunks (E : Env) {t : Ty} {vs : List t.Val} (hl : Legal t)
    (hs : packs t = true → fixedLen t < 2 ^ 32) 
    (hh : held t vs.length)
    (hr : ∀ v ∈ vs, (t.impl E).hashTreeRoot v = .ok ((rawTree t v).root E.sha256)) :
    assembleChunks E (t.impl E) vs = .ok (flat ((rawParts t vs).map (·.root E.sha256))) := by
  unfold assembleChunks rawParts
  rw [impl_isComposite]
  by_cases hp : packs t = true
  · rw [hp]
    simp only [Bool.not_true, Bool.false_eq_true, if_false, if_true]
    unfold pack
    rw [packLoop_ok vs [] (fun v hx => packs_serialize E hp hl (hs hp) (packs_valid v hp)), Res.map_ok,
      packBytes_eq, leaves_root]
    rfl
  · simp only [hp, Bool.not_false, if_true, Bool.false_eq_true, if_false]
    rw [elementsToChunks_ok hh.1 hr, List.map_map]
    rfl

theorem raw_vector_htr (E : Env) {t : Ty} {n : Nat} {vs : List t.Val} (hl : Legal t)
    (hs : packs t = true → fixedLen t < 2 ^ 32) 
    (hh : held t vs.length) (hn : vs.length = n)
    (hr : ∀ v ∈ vs, (t.impl E).hashTreeRoot v = .ok ((rawTree t v).root E.sha256)) :
    (assembleChunks E (t.impl E) vs >>= fun chunks => merkleize E chunks none) =
      .ok ((full (depthFor (chunkCountBy packs t n)) (rawParts t vs)).root E.sha256) := by
  have h1 := rawParts_length vs
  have h2 := held_chunks hh
  rw [raw_assembleChunks E hl hs hh hr, Res.ok_bind,
    merkleize_none_ok _ _ (by rw [List.length_map, h1]; omega), full_root_eq, List.length_map, h1, hn]

theorem raw_list_htr (E : Env) {t : Ty} {n : Nat} {vs : List t.Val} (hl : Legal t)
    (hs : packs t = true → fixedLen t < 2 ^ 32)
    (hb : if packs t then n * fixedLen t < 2 ^ 64 else n ≤ 2 ^ 63)
    (hh : held t vs.length) (hn : vs.length ≤ n)
    (hr : ∀ v ∈ vs, (t.impl E).hashTreeRoot v = .ok ((rawTree t v).root E.sha256)) :
    (SimpleSerialize.list E (t.impl E) n).hashTreeRoot vs =
      .ok ((MTree.node (full (depthFor (chunkCountBy packs t n)) (rawParts t vs))
        (numLeaf vs.length)).root E.sha256) := by
  have h1 := rawParts_length vs
  have h2 : chunkCountBy packs t vs.length ≤ chunkCountBy packs t n := chunkCountBy_le hn
  have h3 : vs.length < 2 ^ 64 := Nat.lt_of_lt_of_le hh.1 (by decide)
  have hroot : (if (t.impl E).isCompositeType then
        merkleize E (flat ((rawParts t vs).map (·.root E.sha256))) (some n)
      else do
        let count ← (listChunkCount E (t.impl E) n).lift
        merkleize E (flat ((rawParts t vs).map (·.root E.sha256))) (some count)) =
      .ok ((full (depthFor (chunkCountBy packs t n)) (rawParts t vs)).root E.sha256) := by
    rw [impl_isComposite]
    by_cases hp : packs t = true
    · rw [if_pos hp] at hb
      have h4 : chunkCountBy packs t n ≤ 2 ^ 63 := by
        rw [chunkCountBy, if_pos hp]; omega
      simp only [hp, Bool.not_true, Bool.false_eq_true, if_false]
      rw [listChunkCount_ok E hl hp (hs hp) hb, Res.lift_ok, Res.ok_bind,
        merkleize_some_ok _ _ (by rw [List.length_map, h1]; exact h2) h4, full_root_eq]
    · rw [if_neg hp] at hb
      have h4 : chunkCountBy packs t n = n := by rw [chunkCountBy, if_neg hp]
      simp only [hp, Bool.not_false, if_true]
      rw [merkleize_some_ok _ _ (by rw [List.length_map, h1]; omega) hb, full_root_eq, h4]
  simp only [SimpleSerialize.list]
  rw [raw_assembleChunks E hl hs hh hr, Res.ok_bind]
  split at hroot
  · rw [if_pos (by assumption), hroot, Res.ok_bind, mixInDecoration_ok E h3]
    rfl
  · rw [if_neg (by assumption)]
    obtain ⟨c, h5, h6⟩ := Res.bind_eq_ok.mp hroot
    rw [h5, Res.ok_bind, h6, Res.ok_bind, mixInDecoration_ok E h3]
    rfl

theorem rawTreesF_length : ∀ (fs : Fields) (v : fs.Val),
    (rawTreesF fs v).length = countF fs
  | .nil, _ => rfl
  | .cons _ _ rest, v => congrArg (· + 1) (rawTreesF_length rest v.2)

theorem raw_container_htr (E : Env) {fs : Fields} {v : fs.Val} (hc : countF fs ≤ 2 ^ 58)
    (h : (fs.impls E).assembleChunks v = .ok (flat ((rawTreesF fs v).map (·.root E.sha256)))) :
    (SimpleSerialize.container E (fs.impls E)).hashTreeRoot v =
      .ok ((full (depthFor (countF fs)) (rawTreesF fs v)).root E.sha256) := by
  show ((fs.impls E).assembleChunks v >>= fun chunks => merkleize E chunks none) = _
  have h1 := rawTreesF_length fs v
  rw [h, Res.ok_bind, merkleize_none_ok _ _ (by rw [List.length_map, h1]; omega), full_root_eq,
    List.length_map, h1]

mutual

theorem raw_htr (E : Env) : ∀ (t : Ty) (v : t.Val), Legal t → Bounded t → Proper t v →
    InMemory t v → (t.impl E).hashTreeRoot v = .ok ((rawTree t v).root E.sha256)
  | .uint u, v, _, _, _, _ => by
    have h : uintChunks u v = .ok (pad32 (enc (.uint u) v)).1 := by
      show Res.ok (packBytes ([] ++ toLeBytes (bitsToBytes u.bits) v.toNat)) = _
      rw [toLeBytes_eq, List.nil_append]
      simp only [enc]
      congr 1
      rw [pad32_short (by cases u <;> simp [UintTy.bits])]
      cases u <;> simp [packBytes, bitsToBytes, UintTy.bits]
    show (uintChunks u v >>= fun root => toNode root) = _
    rw [h, Res.ok_bind, toNode_node]
    rfl
  | .u256, v, _, _, _, _ => by
    have h : toLeBytes 32 (BitVec.toNat v) = (pad32 (enc .u256 v)).1 := by
      rw [toLeBytes_eq, pad32_full (by simp [enc])]
      rfl
    show toNode (toLeBytes 32 (BitVec.toNat v)) = _
    rw [h, toNode_node]
    rfl
  | .bool, v, _, _, _, _ => by
    have h : boolChunks v = (pad32 (enc .bool v)).1 := by
      cases v <;> rfl
    show toNode (boolChunks v) = _
    rw [h, toNode_node]
    rfl
  | .node, v, _, _, _, _ => toNode_node _
  | .array t n, v, hl, hb, hv, hm =>
    raw_vector_htr E hl.2 hb.2 hm.1 v.2 (fun x hx => raw_htr E t x hl.2 hb.1 (hv x hx) (hm.2 x hx))
  | .vector t n, v, hl, hb, hv, hm =>
    raw_vector_htr E hl.2 hb.2 hm.1 hv.1
      (fun x hx => raw_htr E t x hl.2 hb.1 (hv.2 x hx) (hm.2 x hx))
  | .list t n, v, hl, hb, hv, hm =>
    raw_list_htr E hl hb.2.1 hb.2.2 hm.1 hv.1
      (fun x hx => raw_htr E t x hl hb.1 (hv.2 x hx) (hm.2 x hx))
  | .bitvector n, v, hl, hb, hv, _ => by
    show (Bitvector.packBits n v >>= fun chunks => merkleize E chunks (some (bitsChunkCount n))) = _
    simp only [Proper] at hv
    simp only [Bounded] at hb
    rw [Bitvector.packBits_ok hl hv, Res.ok_bind, merkleize_some_ok _ _
      (by rw [chunkify_bits_length, hv]; rfl) (by unfold bitsChunkCount; omega)]
    rw [← leaves_root E.sha256, full_root_eq]
    rfl
  | .bitlist n, v, hl, hb, hv, _ => bitlist_root_exact E hb hv.1 (bits_wf hv.2)
  | .option t, v, hl, hb, hv, hm => by
    match v with
    | none =>
      show (toNode (List.replicate 32 0) >>= fun chunks => mixInDecoration E chunks 0) = _
      rw [show List.replicate 32 (0 : Byte) = zeroNode.1 by rfl, toNode_node, Res.ok_bind,
        mixInDecoration_ok E (by decide)]
      rfl
    | some x =>
      show (((t.impl E).hashTreeRoot x).map (·.1) >>= fun bytes => toNode bytes >>= fun chunks =>
        mixInDecoration E chunks 1) = _
      rw [raw_htr E t x hl hb (hv x rfl) (hm x rfl), Res.map_ok, Res.ok_bind, toNode_node,
        Res.ok_bind, mixInDecoration_ok E (by decide)]
      rfl
  | .newtype t, v, hl, hb, hv, hm => by
    show ((t.impl E).hashTreeRoot v >>= fun chunk =>
      copyInto (List.replicate (1 * 32) 0) (0 * 32) ((0 + 1) * 32) chunk.1 >>= fun chunks =>
      merkleize E chunks none) = _
    rw [raw_htr E t v hl hb hv hm, Res.ok_bind, ← flat_replicate,
      copyInto_flat (ns := List.replicate 1 zeroNode) (i := 0) ((rawTree t v).root E.sha256)
        (by simp) rfl rfl rfl, Res.ok_bind, merkleize_none_ok _ _ (by simp)]
    simp [depthFor, rootD, rawTree]
  | .container fs, v, hl, hb, hv, hm => by
    refine raw_container_htr E hb.2 ?_
    unfold FieldImpls.assembleChunks
    rw [count_impls, ← flat_replicate]
    exact raw_htrF E fs v [] hl.2.2 hb.1 hv hm
  | .union vs, v, hl, hb, hv, hm => by
    have h : (vs.impls E).hashTreeRoot E 0 v = .ok ((rawTreeV vs 0 v).root E.sha256) :=
      raw_htrV E vs 0 v hl.2 hb hv hm (unitOk_of_shape hl.1) (by
        obtain ⟨hs, -⟩ := hl
        cases vs with
        | nil => exact hs.elim
        | unit rest => obtain ⟨_, _, h⟩ := hs; simp only [countV]; omega
        | data t rest => obtain ⟨_, h⟩ := hs; simp only [countV]; omega)
    exact h

theorem raw_htrF (E : Env) : ∀ (fs : Fields) (v : fs.Val) (pre : List Node), LegalF fs →
    BoundedF fs → ProperF fs v → InMemoryF fs v →
    (fs.impls E).assembleLoop v pre.length (flat (pre ++ List.replicate (countF fs) zeroNode)) =
      .ok (flat (pre ++ (rawTreesF fs v).map (·.root E.sha256)))
  | .nil, _, pre, _, _, _, _ => by
    simp [Fields.impls, FieldImpls.assembleLoop, countF, rawTreesF]
  | .cons name t rest, v, pre, hl, hb, hv, hm => by
    show ((t.impl E).hashTreeRoot v.1 >>= fun chunk =>
      copyInto (flat (pre ++ List.replicate (countF rest + 1) zeroNode)) (pre.length * 32)
        ((pre.length + 1) * 32) chunk.1 >>= fun chunks' =>
      (rest.impls E).assembleLoop v.2 (pre.length + 1) chunks') = _
    rw [raw_htr E t v.1 hl.1 hb.1 hv.1 hm.1, Res.ok_bind,
      copyInto_flat (ns := pre ++ List.replicate (countF rest + 1) zeroNode) (i := pre.length)
        ((rawTree t v.1).root E.sha256) (by simp) rfl rfl rfl, Res.ok_bind]
    have := raw_htrF E rest v.2 (pre ++ [(rawTree t v.1).root E.sha256]) hl.2 hb.2 hv.2 hm.2
    rw [List.length_append, List.length_singleton, List.append_assoc, List.append_assoc] at this
    rw [List.set_append_right _ _ (Nat.le_refl _), Nat.sub_self,
      List.replicate_succ, List.set_cons_zero]
    exact this

theorem raw_htrV (E : Env) : ∀ (vs : Variants) (i : Nat) (v : vs.Val), LegalV vs → BoundedV vs →
    ProperV vs v → InMemoryV vs v → UnitOk i vs → i + countV vs < 2 ^ 64 →
    (vs.impls E).hashTreeRoot E i v = .ok ((rawTreeV vs i v).root E.sha256)
  | .nil, _, v, _, _, _, _, _, _ => v.elim
  | .unit rest, i, .inl _, _, _, _, _, hu, _ => by
    obtain ⟨rfl, _⟩ := hu
    show mixInDecoration E zeroNode 0 = _
    rw [mixInDecoration_ok E (by decide)]
    rfl
  | .unit rest, i, .inr v, hl, hb, hv, hm, hu, hc =>
    raw_htrV E rest (i + 1) v hl hb hv hm (unitOk_of_noUnit hu.2) (by simp only [countV] at hc; omega)
  | .data t rest, i, .inl v, hl, hb, hv, hm, hu, hc => by
    show ((t.impl E).hashTreeRoot v >>= fun chunks => mixInDecoration E chunks i) = _
    rw [raw_htr E t v hl.1 hb.1 hv hm, Res.ok_bind, mixInDecoration_ok E (by omega)]
    rfl
  | .data t rest, i, .inr v, hl, hb, hv, hm, hu, hc =>
    raw_htrV E rest (i + 1) v hl.2 hb.2 hv hm (unitOk_of_noUnit hu)
      (by simp only [countV] at hc; omega)

end

/-! ## Equal roots -/

theorem packs_tidy : ∀ {t : Ty} (v : t.Val), packs t = true → tidy t v = norm t v
  | .uint _, _, _ => rfl
  | .u256, _, _ => rfl
  | .bool, _, _ => rfl
  | .node, _, _ => rfl
  | .array _ _, _, h => Subtype.ext (List.map_congr_left fun x _ => packs_tidy x h)
  | .vector _ _, _, h => nomatch h
  | .list _ _, _, h => nomatch h
  | .bitvector _, _, h => nomatch h
  | .bitlist _, _, h => nomatch h
  | .option _, _, h => nomatch h
  | .newtype _, _, h => nomatch h
  | .container _, _, h => nomatch h
  | .union _, _, h => nomatch h

theorem packs_tidy_inj {t : Ty} (hp : packs t = true) (hl : Legal t) (hs : fixedLen t < 2 ^ 32)
    {v w : t.Val} (hv : Valid t v) (hw : Valid t w) (h : enc t v = enc t w) :
    tidy t v = tidy t w := by
  rw [packs_tidy v hp, packs_tidy w hp, packs_enc_inj hp hl hs hv hw h]

theorem raw_parts_bind {H : Bytes → Node} {t : Ty} {d : Nat} {xs ys : List t.Val} (hl : Legal t)
    (hs : packs t = true → fixedLen t < 2 ^ 32) (hlen : xs.length = ys.length)
    (hd : chunkCountBy packs t xs.length ≤ 2 ^ d)
    (hi : ∀ x ∈ xs, ∀ y ∈ ys, (rawTree t x).root H = (rawTree t y).root H →
      tidy t x = tidy t y ∨ Collide H (rawTree t x) (rawTree t y))
    (h : (full d (rawParts t xs)).root H = (full d (rawParts t ys)).root H) :
    xs.map (tidy t) = ys.map (tidy t) ∨ Collide H (full d (rawParts t xs)) (full d (rawParts t ys)) := by
  have l1 := rawParts_length xs
  have l2 := rawParts_length ys
  rcases full_bind (by rw [l1, l2, hlen]) (by rw [l1]; exact hd) h with he | c
  · by_cases hp : packs t = true
    · left
      unfold rawParts at he
      rw [if_pos hp, if_pos hp, leaves_root, leaves_root] at he
      have he := chunkify_inj (by
        rw [flatMap_enc_length hp fun x _ => packs_valid x hp, flatMap_enc_length hp fun x _ => packs_valid x hp, hlen]) he
      exact flatMap_inj (k := fixedLen t) hlen
        (fun x hx' => enc_length t x (packs_fixed hp) (packs_valid x hp))
        (fun y hy' => enc_length t y (packs_fixed hp) (packs_valid y hp))
        (fun x hx' y hy' e => packs_tidy_inj hp hl (hs hp) (packs_valid x hp) (packs_valid y hp) e) he
    · have e1 : rawParts t xs = xs.map (rawTree t) := by rw [rawParts, if_neg hp]
      have e2 : rawParts t ys = ys.map (rawTree t) := by rw [rawParts, if_neg hp]
      rw [e1, e2] at he
      rcases map_bind (g := tidy t) hi he with e | ⟨x, hx', y, hy', c⟩
      · exact Or.inl e
      · right
        refine collide_mono c (inputs_full (by rw [l1]; exact hd) ?_)
          (inputs_full (by rw [l2, ← hlen]; exact hd) ?_)
        · rw [e1]; exact List.mem_map.mpr ⟨x, hx', rfl⟩
        · rw [e2]; exact List.mem_map.mpr ⟨y, hy', rfl⟩
  · exact Or.inr c

/-- The tree of an enum value has the position of the variant on its right. -/
theorem rawTreeV_node : ∀ (vs : Variants) (i : Nat) (v : vs.Val),
    ∃ l j, i ≤ j ∧ j < i + countV vs ∧ rawTreeV vs i v = .node l (numLeaf j)
  | .nil, _, v => v.elim
  | .unit rest, i, .inl _ => ⟨_, i, Nat.le_refl _, by simp [countV], rfl⟩
  | .unit rest, i, .inr v => by
    obtain ⟨l, j, h1, h2, h3⟩ := rawTreeV_node rest (i + 1) v
    exact ⟨l, j, by omega, by simp only [countV]; omega, h3⟩
  | .data t rest, i, .inl v => ⟨_, i, Nat.le_refl _, by simp [countV], rfl⟩
  | .data t rest, i, .inr v => by
    obtain ⟨l, j, h1, h2, h3⟩ := rawTreeV_node rest (i + 1) v
    exact ⟨l, j, by omega, by simp only [countV]; omega, h3⟩

theorem bits_ext {v w : Bits} (h1 : v.live = w.live) (h2 : v.dead = w.dead) : v = w := by
  obtain ⟨_, _⟩ := v
  obtain ⟨_, _⟩ := w
  simp only at h1 h2
  rw [h1, h2]

mutual

theorem raw_bind (H : Bytes → Node) : ∀ (t : Ty) (v w : t.Val), Legal t → Ranged t → Proper t v →
    Proper t w → InMemory t v → InMemory t w →
    (rawTree t v).root H = (rawTree t w).root H →
    tidy t v = tidy t w ∨ Collide H (rawTree t v) (rawTree t w)
  | .uint u, v, w, _, _, _, _, _, _, h => by
    left
    have h : pad32 (enc (.uint u) v) = pad32 (enc (.uint u) w) := h
    have h := pad32_inj (by simp [enc]) (by simp only [enc, leBytes_length]; cases u <;> decide) h
    exact packs_enc_inj (t := .uint u) rfl trivial (by cases u <;> decide) trivial trivial h
  | .u256, v, w, _, _, _, _, _, _, h => by
    left
    have h : pad32 (enc .u256 v) = pad32 (enc .u256 w) := h
    have h := pad32_inj (by simp [enc]) (by simp [enc]) h
    exact packs_enc_inj (t := .u256) rfl trivial (by decide) trivial trivial h
  | .bool, v, w, _, _, _, _, _, _, h => by
    left
    have h : pad32 (enc .bool v) = pad32 (enc .bool w) := h
    have h := pad32_inj (by simp [enc]) (by simp [enc]) h
    exact packs_enc_inj (t := .bool) rfl trivial (by decide) trivial trivial h
  | .node, v, w, _, _, _, _, _, _, h => Or.inl h
  | .array t n, v, w, hl, hb, hv, hw, hmv, hmw, h => by
    rcases raw_parts_bind hl.2 hb.2 (by rw [v.2, w.2]) (by rw [v.2]; exact le_pow_depthFor _)
      (fun x hx y hy => raw_bind H t x y hl.2 hb.1 (hv x hx) (hw y hy) (hmv.2 x hx) (hmw.2 y hy)) h
      with e | c
    · exact Or.inl (Subtype.ext e)
    · exact Or.inr c
  | .vector t n, v, w, hl, hb, hv, hw, hmv, hmw, h => by
    have e1 : List.length v = n := hv.1
    have e2 : List.length w = n := hw.1
    exact raw_parts_bind hl.2 hb.2 (by rw [e1, e2]) (by rw [e1]; exact le_pow_depthFor _)
      (fun x hx y hy => raw_bind H t x y hl.2 hb.1 (hv.2 x hx) (hw.2 y hy) (hmv.2 x hx) (hmw.2 y hy))
      h
  | .list t n, v, w, hl, hb, hv, hw, hmv, hmw, h => by
    have e1 : List.length v ≤ n := hv.1
    rcases node_bind h with ⟨h1, h2⟩ | c
    · have hlen := numLeaf_bind (Nat.lt_of_lt_of_le hmv.1.1 (by decide))
        (Nat.lt_of_lt_of_le hmw.1.1 (by decide)) h2
      rcases raw_parts_bind (t := t) hl hb.2 hlen
        (Nat.le_trans (chunkCountBy_le e1) (le_pow_depthFor _))
        (fun x hx y hy => raw_bind H t x y hl hb.1 (hv.2 x hx) (hw.2 y hy) (hmv.2 x hx) (hmw.2 y hy))
        h1 with e | c
      · exact Or.inl e
      · exact Or.inr (collide_mono c inputs_left inputs_left)
    · exact Or.inr c
  | .bitvector n, v, w, hl, hb, hv, hw, _, _, h => by
    have e1 : v.live.length = n := hv
    have e2 : w.live.length = n := hw
    rcases full_bind (by rw [leaves_length, leaves_length, packBits_length, packBits_length, e1, e2])
      (by
        have := le_pow_depthFor ((n + 255) / 256)
        rw [leaves_length, packBits_length, e1]; omega) h with e | c
    · left
      rw [leaves_root, leaves_root] at e
      exact norm_bits (packBits_inj (by rw [e1, e2])
        (chunkify_inj (by rw [packBits_length, packBits_length, e1, e2]) e))
    · exact Or.inr c
  | .bitlist n, v, w, hl, hb, hv, hw, _, _, h => by
    have e1 : v.live.length ≤ n := hv.1
    have e2 : w.live.length ≤ n := hw.1
    have hb : n < 2 ^ 64 := hb
    have hwv : v.WF := bits_wf hv.2
    have hww : w.WF := bits_wf hw.2
    rcases node_bind h with ⟨h1, h2⟩ | c
    · have hlen := numLeaf_bind (by omega) (by omega) h2
      simp only [Bits.WF] at hwv hww
      have hall : (v.live ++ v.dead).length = (w.live ++ w.dead).length := by
        rw [List.length_append, List.length_append, hwv, hww, hlen]
      rcases full_bind (by rw [leaves_length, leaves_length, packBits_length, packBits_length, hall])
        (by
          have := le_pow_depthFor ((n + 255) / 256)
          rw [leaves_length, packBits_length, List.length_append]; omega) h1 with e | c
      · left
        rw [leaves_root, leaves_root] at e
        obtain ⟨i1, i2⟩ := List.append_inj (packBits_inj hall
          (chunkify_inj (by rw [packBits_length, packBits_length, hall]) e)) hlen
        exact bits_ext i1 i2
      · exact Or.inr (collide_mono c inputs_left inputs_left)
    · exact Or.inr c
  | .option t, v, w, hl, hb, hv, hw, hmv, hmw, h => by
    match v, w with
    | none, none => exact Or.inl rfl
    | none, some y =>
      rcases node_bind (l := .leaf zeroNode) (r := numLeaf 0) (l' := rawTree t y)
        (r' := numLeaf 1) h with ⟨_, h2⟩ | c
      · have := numLeaf_bind (by decide) (by decide) h2; omega
      · exact Or.inr c
    | some x, none =>
      rcases node_bind (l := rawTree t x) (r := numLeaf 1) (l' := .leaf zeroNode)
        (r' := numLeaf 0) h with ⟨_, h2⟩ | c
      · have := numLeaf_bind (by decide) (by decide) h2; omega
      · exact Or.inr c
    | some x, some y =>
      rcases node_bind (l := rawTree t x) (r := numLeaf 1) (l' := rawTree t y)
        (r' := numLeaf 1) h with ⟨h1, _⟩ | c
      · rcases raw_bind H t x y hl hb (hv x rfl) (hw y rfl) (hmv x rfl) (hmw y rfl) h1 with e | c
        · exact Or.inl (congrArg some e)
        · exact Or.inr (collide_mono c inputs_left inputs_left)
      · exact Or.inr c
  | .newtype t, v, w, hl, hb, hv, hw, hmv, hmw, h => raw_bind H t v w hl hb hv hw hmv hmw h
  | .container fs, v, w, hl, hb, hv, hw, hmv, hmw, h => by
    have l1 := rawTreesF_length fs v
    have l2 := rawTreesF_length fs w
    have d1 : (rawTreesF fs v).length ≤ 2 ^ depthFor (countF fs) :=
      Nat.le_trans (Nat.le_of_eq l1) (le_pow_depthFor _)
    have d2 : (rawTreesF fs w).length ≤ 2 ^ depthFor (countF fs) :=
      Nat.le_trans (Nat.le_of_eq l2) (le_pow_depthFor _)
    rcases full_bind (l1.trans l2.symm) d1 h with e | c
    · rcases raw_bindF H fs v w hl.2.2 hb.1 hv hw hmv hmw e with e | ⟨x, hx, y, hy, c⟩
      · exact Or.inl e
      · exact Or.inr (collide_mono c
          (inputs_full d1 hx)
          (inputs_full d2 hy))
    · exact Or.inr c
  | .union vs, v, w, hl, hb, hv, hw, hmv, hmw, h =>
    raw_bindV H vs 0 v w hl.2 hb hv hw hmv hmw (by
        obtain ⟨hs, -⟩ := hl
        cases vs with
        | nil => exact hs.elim
        | unit rest => obtain ⟨_, _, h⟩ := hs; simp only [countV]; omega
        | data t rest => obtain ⟨_, h⟩ := hs; simp only [countV]; omega) h

theorem raw_bindF (H : Bytes → Node) : ∀ (fs : Fields) (v w : fs.Val), LegalF fs → RangedF fs →
    ProperF fs v → ProperF fs w → InMemoryF fs v → InMemoryF fs w →
    (rawTreesF fs v).map (·.root H) = (rawTreesF fs w).map (·.root H) →
    tidyF fs v = tidyF fs w ∨
      ∃ x ∈ rawTreesF fs v, ∃ y ∈ rawTreesF fs w, Collide H x y
  | .nil, _, _, _, _, _, _, _, _, _ => Or.inl rfl
  | .cons name t rest, v, w, hl, hb, hv, hw, hmv, hmw, h => by
    simp only [rawTreesF, List.map_cons, List.cons.injEq] at h
    rcases raw_bind H t v.1 w.1 hl.1 hb.1 hv.1 hw.1 hmv.1 hmw.1 h.1 with e | c
    · rcases raw_bindF H rest v.2 w.2 hl.2 hb.2 hv.2 hw.2 hmv.2 hmw.2 h.2 with e' | ⟨x, hx, y, hy, c⟩
      · exact Or.inl (Prod.ext e e')
      · exact Or.inr ⟨x, List.mem_cons_of_mem _ hx, y, List.mem_cons_of_mem _ hy, c⟩
    · exact Or.inr ⟨_, List.mem_cons_self, _, List.mem_cons_self, c⟩

theorem raw_bindV (H : Bytes → Node) : ∀ (vs : Variants) (i : Nat) (v w : vs.Val), LegalV vs →
    RangedV vs → ProperV vs v → ProperV vs w → InMemoryV vs v → InMemoryV vs w →
    i + countV vs < 2 ^ 64 →
    (rawTreeV vs i v).root H = (rawTreeV vs i w).root H →
    tidyV vs v = tidyV vs w ∨ Collide H (rawTreeV vs i v) (rawTreeV vs i w)
  | .nil, _, v, _, _, _, _, _, _, _, _, _ => v.elim
  | .unit _, _, .inl _, .inl _, _, _, _, _, _, _, _, _ => Or.inl rfl
  | .unit rest, i, .inl _, .inr w, _, _, _, _, _, _, hc, h => by
    simp only [countV] at hc
    obtain ⟨l', j, hj, hj2, e⟩ := rawTreeV_node rest (i + 1) w
    have h : (MTree.node (.leaf zeroNode) (numLeaf i)).root H = (rawTreeV rest (i + 1) w).root H :=
      h
    show _ ∨ Collide H (.node (.leaf zeroNode) (numLeaf i)) (rawTreeV rest (i + 1) w)
    rw [e] at h ⊢
    rcases node_bind h with ⟨_, h2⟩ | c
    · have := numLeaf_bind (by omega) (by omega) h2; omega
    · exact Or.inr c
  | .unit rest, i, .inr v, .inl _, _, _, _, _, _, _, hc, h => by
    simp only [countV] at hc
    obtain ⟨l', j, hj, hj2, e⟩ := rawTreeV_node rest (i + 1) v
    have h : (rawTreeV rest (i + 1) v).root H = (MTree.node (.leaf zeroNode) (numLeaf i)).root H :=
      h
    show _ ∨ Collide H (rawTreeV rest (i + 1) v) (.node (.leaf zeroNode) (numLeaf i))
    rw [e] at h ⊢
    rcases node_bind h with ⟨_, h2⟩ | c
    · have := numLeaf_bind (by omega) (by omega) h2; omega
    · exact Or.inr c
  | .unit rest, i, .inr v, .inr w, hl, hb, hv, hw, hmv, hmw, hc, h => by
    simp only [countV] at hc
    rcases raw_bindV H rest (i + 1) v w hl hb hv hw hmv hmw (by omega) h with e | c
    · exact Or.inl (congrArg Sum.inr e)
    · exact Or.inr c
  | .data t rest, i, .inl v, .inl w, hl, hb, hv, hw, hmv, hmw, hc, h => by
    rcases node_bind (l := rawTree t v) (r := numLeaf i) (l' := rawTree t w)
      (r' := numLeaf i) h with ⟨h1, _⟩ | c
    · rcases raw_bind H t v w hl.1 hb.1 hv hw hmv hmw h1 with e | c
      · exact Or.inl (congrArg Sum.inl e)
      · exact Or.inr (collide_mono c inputs_left inputs_left)
    · exact Or.inr c
  | .data t rest, i, .inl v, .inr w, hl, hb, hv, hw, hmv, hmw, hc, h => by
    simp only [countV] at hc
    obtain ⟨l', j, hj, hj2, e⟩ := rawTreeV_node rest (i + 1) w
    have h : (MTree.node (rawTree t v) (numLeaf i)).root H =
      (rawTreeV rest (i + 1) w).root H := h
    show _ ∨ Collide H (.node (rawTree t v) (numLeaf i)) (rawTreeV rest (i + 1) w)
    rw [e] at h ⊢
    rcases node_bind h with ⟨_, h2⟩ | c
    · have := numLeaf_bind (by omega) (by omega) h2; omega
    · exact Or.inr c
  | .data t rest, i, .inr v, .inl w, hl, hb, hv, hw, hmv, hmw, hc, h => by
    simp only [countV] at hc
    obtain ⟨l', j, hj, hj2, e⟩ := rawTreeV_node rest (i + 1) v
    have h : (rawTreeV rest (i + 1) v).root H =
      (MTree.node (rawTree t w) (numLeaf i)).root H := h
    show _ ∨ Collide H (rawTreeV rest (i + 1) v) (.node (rawTree t w) (numLeaf i))
    rw [e] at h ⊢
    rcases node_bind h with ⟨_, h2⟩ | c
    · have := numLeaf_bind (by omega) (by omega) h2; omega
    · exact Or.inr c
  | .data t rest, i, .inr v, .inr w, hl, hb, hv, hw, hmv, hmw, hc, h => by
    simp only [countV] at hc
    rcases raw_bindV H rest (i + 1) v w hl.2 hb.2 hv hw hmv hmw (by omega) h with e | c
    · exact Or.inl (congrArg Sum.inr e)
    · exact Or.inr c

end

/-! ## Equal encodings of equal values -/

theorem heads_tails_inj : ∀ {ps qs : List Piece} {off : Nat},
    ps.map (fun p => (p.1, p.2.length)) = qs.map (fun p => (p.1, p.2.length)) →
    heads off ps = heads off qs → tails ps = tails qs → ps = qs
  | [], [], _, _, _, _ => rfl
  | [], _ :: _, _, h, _, _ => by simp at h
  | _ :: _, [], _, h, _, _ => by simp at h
  | (true, a) :: ps, (true, b) :: qs, off, h, hh, ht => by
    simp only [List.map_cons, List.cons.injEq, Prod.mk.injEq, true_and] at h
    simp only [heads, h.1, List.append_cancel_left_eq] at hh
    simp only [tails, List.flatMap_cons, if_true] at ht
    obtain ⟨h1, h2⟩ := List.append_inj ht h.1
    rw [h1, heads_tails_inj h.2 hh h2]
  | (false, a) :: ps, (false, b) :: qs, off, h, hh, ht => by
    simp only [List.map_cons, List.cons.injEq, Prod.mk.injEq, true_and] at h
    simp only [heads] at hh
    simp only [tails, List.flatMap_cons, Bool.false_eq_true, if_false, List.nil_append] at ht
    obtain ⟨h1, h2⟩ := List.append_inj hh h.1
    rw [h1, heads_tails_inj h.2 h2 ht]
  | (true, _) :: _, (false, _) :: _, _, h, _, _ => by simp at h
  | (false, _) :: _, (true, _) :: _, _, h, _, _ => by simp at h

theorem assemble_iff {ps qs : List Piece}
    (h : ps.map (fun p => (p.1, p.2.length)) = qs.map (fun p => (p.1, p.2.length))) :
    assemble ps = assemble qs ↔ ps = qs := by
  refine ⟨fun he => ?_, fun he => by rw [he]⟩
  have hl : headLen ps = headLen qs := by
    have hh : ∀ rs : List Piece, headLen rs =
        ((rs.map fun p => (p.1, p.2.length)).map fun q => if q.1 then 4 else q.2).sum := by
      intro rs
      simp only [headLen, List.map_map]
      rfl
    rw [hh ps, hh qs, h]
  rw [assemble, assemble, hl] at he
  obtain ⟨h1, h2⟩ := List.append_inj he (by rw [heads_length, heads_length, hl])
  exact heads_tails_inj h h1 h2

theorem map_iff {α β γ δ : Type} {k : α → δ} {f : α → β} {g : α → γ} : ∀ {xs ys : List α},
    xs.map k = ys.map k →
    (∀ x ∈ xs, ∀ y ∈ ys, k x = k y → (f x = f y ↔ g x = g y)) →
    (xs.map f = ys.map f ↔ xs.map g = ys.map g)
  | [], [], _, _ => by simp
  | [], _ :: _, h, _ => by simp at h
  | _ :: _, [], h, _ => by simp at h
  | x :: xs, y :: ys, h, hi => by
    simp only [List.map_cons, List.cons.injEq] at h ⊢
    rw [hi x (by simp) y (by simp) h.1,
      map_iff h.2 fun a ha b hb => hi a (by simp [ha]) b (by simp [hb])]

/-- Equal values have encodings of the same length. -/
theorem rawEnc_length_norm {t : Ty} {v w : t.Val} (hv : Stored t v) (hw : Stored t w)
    (h : norm t v = norm t w) : (rawEnc t v).length = (rawEnc t w).length := by
  rw [rawEnc_length t v hv, rawEnc_length t w hw, ← enc_norm t v, ← enc_norm t w, h]

theorem collection_iff {t : Ty} {xs ys : List t.Val} (hx : Each (Stored t) xs)
    (hy : Each (Stored t) ys) (h : xs.map (norm t) = ys.map (norm t))
    (hi : ∀ x ∈ xs, ∀ y ∈ ys, norm t x = norm t y → (rawEnc t x = rawEnc t y ↔ trim t x = trim t y)) :
    assemble (xs.map fun x => (isVar t, rawEnc t x)) = assemble (ys.map fun x => (isVar t, rawEnc t x)) ↔
      xs.map (trim t) = ys.map (trim t) := by
  rw [assemble_iff, map_iff h fun x hx' y hy' he => ?_]
  · rw [← hi x hx' y hy' he, Prod.mk.injEq]
    simp
  · rw [List.map_map, List.map_map]
    refine (map_iff h (g := fun _ => ()) fun x hx' y hy' he => ?_).2 ?_
    · simp only [iff_true, Function.comp]
      rw [rawEnc_length_norm (hx x hx') (hy y hy') he]
    · have := congrArg List.length h
      rw [List.length_map, List.length_map] at this
      rw [List.map_const', List.map_const', this]

theorem bits_trim_iff {v w : Bits} (hl : v.live = w.live) (hd : v.dead.length = w.dead.length) :
    packBits (v.live ++ true :: v.dead.tail) = packBits (w.live ++ true :: w.dead.tail) ↔
      (⟨v.live, List.replicate (min v.dead.length 1) false ++ v.dead.tail⟩ : Bits) =
        ⟨w.live, List.replicate (min w.dead.length 1) false ++ w.dead.tail⟩ := by
  obtain ⟨live, dead⟩ := v
  obtain ⟨live', dead'⟩ := w
  simp only at hl hd
  subst hl
  simp only [Bits.mk.injEq, true_and, hd, List.append_cancel_left_eq]
  refine ⟨fun h => ?_, fun h => by rw [h]⟩
  have := packBits_inj (by simp [hd]) h
  rw [List.append_cancel_left_eq, List.cons.injEq] at this
  exact this.2

mutual

/-- Equal values are written alike exactly if they agree in all unused bits but the first ones. -/
theorem rawEnc_iff : ∀ (t : Ty) (v w : t.Val), Stored t v → Stored t w → norm t v = norm t w →
    (rawEnc t v = rawEnc t w ↔ trim t v = trim t w)
  | .uint u, v, w, _, _, h => by
    have h : v = w := h
    subst h
    simp
  | .u256, v, w, _, _, h => by
    have h : v = w := h
    subst h
    simp
  | .bool, v, w, _, _, h => by
    have h : v = w := h
    subst h
    simp
  | .node, v, w, _, _, h => by
    have h : v = w := h
    subst h
    simp
  | .array t _, v, w, hv, hw, h =>
    (collection_iff hv hw (congrArg Subtype.val h) fun x hx y hy he =>
      rawEnc_iff t x y (hv x hx) (hw y hy) he).trans
      ⟨fun e => Subtype.ext e, fun e => congrArg Subtype.val e⟩
  | .vector t _, v, w, hv, hw, h =>
    collection_iff hv hw h fun x hx y hy he => rawEnc_iff t x y (hv x hx) (hw y hy) he
  | .list t _, v, w, hv, hw, h =>
    collection_iff hv hw h fun x hx y hy he => rawEnc_iff t x y (hv x hx) (hw y hy) he
  | .bitvector _, v, w, _, _, h => by
    have hl : v.live = w.live := (Bits.mk.inj h).1
    refine ⟨fun _ => h, fun _ => ?_⟩
    simp only [rawEnc, hl]
  | .bitlist _, v, w, hv, hw, h => by
    have hl : v.live = w.live := (Bits.mk.inj h).1
    have hv : v.dead.length = (padBits v.live.length).length := hv
    have hw : w.dead.length = (padBits w.live.length).length := hw
    exact bits_trim_iff hl (by rw [hv, hw, hl])
  | .option t, v, w, hv, hw, h => by
    match v, w, hv, hw, h with
    | none, none, _, _, _ => simp
    | none, some y, _, _, h => cases (show none = some (norm t y) from h)
    | some x, none, _, _, h => cases (show some (norm t x) = none from h)
    | some x, some y, hv, hw, h =>
      have h : some (norm t x) = some (norm t y) := h
      have ih := rawEnc_iff t x y (hv x rfl) (hw y rfl) (Option.some.inj h)
      refine ⟨fun e => ?_, fun e => ?_⟩
      · exact congrArg some (ih.1 (List.cons.inj e).2)
      · exact congrArg (List.cons 1) (ih.2 (Option.some.inj e))
  | .newtype t, v, w, hv, hw, h => rawEnc_iff t v w hv hw h
  | .container fs, v, w, hv, hw, h => by
    obtain ⟨h1, h2⟩ := rawPiecesF_iff fs v w hv hw h
    exact (assemble_iff h2).trans h1
  | .union vs, v, w, hv, hw, h => rawEncV_iff vs 0 v w hv hw h

theorem rawPiecesF_iff : ∀ (fs : Fields) (v w : fs.Val), StoredF fs v → StoredF fs w →
    normF fs v = normF fs w →
    (rawPiecesF fs v = rawPiecesF fs w ↔ trimF fs v = trimF fs w) ∧
      (rawPiecesF fs v).map (fun p => (p.1, p.2.length)) =
        (rawPiecesF fs w).map (fun p => (p.1, p.2.length))
  | .nil, _, _, _, _, _ => ⟨⟨fun _ => rfl, fun _ => rfl⟩, rfl⟩
  | .cons _ t rest, v, w, hv, hw, h => by
    have h : (norm t v.1, normF rest v.2) = (norm t w.1, normF rest w.2) := h
    rw [Prod.mk.injEq] at h
    have i1 := rawEnc_iff t v.1 w.1 hv.1 hw.1 h.1
    obtain ⟨i2, i3⟩ := rawPiecesF_iff rest v.2 w.2 hv.2 hw.2 h.2
    constructor
    · show (isVar t, rawEnc t v.1) :: rawPiecesF rest v.2 =
        (isVar t, rawEnc t w.1) :: rawPiecesF rest w.2 ↔
        (trim t v.1, trimF rest v.2) = (trim t w.1, trimF rest w.2)
      rw [List.cons.injEq, Prod.mk.injEq, Prod.mk.injEq, i1, i2]
      simp
    · simp only [rawPiecesF, List.map_cons]
      rw [i3, rawEnc_length_norm hv.1 hw.1 h.1]

theorem rawEncV_iff : ∀ (vs : Variants) (i : Nat) (v w : vs.Val), StoredV vs v → StoredV vs w →
    normV vs v = normV vs w → (rawEncV vs i v = rawEncV vs i w ↔ trimV vs v = trimV vs w)
  | .nil, _, v, _, _, _, _ => v.elim
  | .unit _, _, .inl _, .inl _, _, _, _ => ⟨fun _ => rfl, fun _ => rfl⟩
  | .unit rest, _, .inl _, .inr w, _, _, h => by
    cases (show Sum.inl () = Sum.inr (normV rest w) from h)
  | .unit rest, _, .inr v, .inl _, _, _, h => by
    cases (show Sum.inr (normV rest v) = Sum.inl () from h)
  | .unit rest, i, .inr v, .inr w, hv, hw, h =>
    (rawEncV_iff rest (i + 1) v w hv hw (Sum.inr.inj h)).trans
      ⟨fun e => congrArg Sum.inr e, fun e => Sum.inr.inj e⟩
  | .data t _, i, .inl v, .inl w, hv, hw, h => by
    have ih := rawEnc_iff t v w hv hw (Sum.inl.inj h)
    exact ⟨fun e => congrArg Sum.inl (ih.1 (List.cons.inj e).2),
      fun e => congrArg (List.cons _) (ih.2 (Sum.inl.inj e))⟩
  | .data t rest, _, .inl v, .inr w, _, _, h => by
    cases (show Sum.inl (norm t v) = Sum.inr (normV rest w) from h)
  | .data t rest, _, .inr v, .inl w, _, _, h => by
    cases (show Sum.inr (normV rest v) = Sum.inl (norm t w) from h)
  | .data _ rest, i, .inr v, .inr w, hv, hw, h =>
    (rawEncV_iff rest (i + 1) v w hv hw (Sum.inr.inj h)).trans
      ⟨fun e => congrArg Sum.inr e, fun e => Sum.inr.inj e⟩

end

/-! ## The same storage -/

theorem node_congr {a b c d : MTree} (h : a = b) (h' : c = d) : MTree.node a c = .node b d := by
  rw [h, h']

theorem rawParts_tidy {t : Ty} {xs : List t.Val}
    (h : ∀ x ∈ xs, rawTree t (tidy t x) = rawTree t x) :
    rawParts t (xs.map (tidy t)) = rawParts t xs := by
  unfold rawParts
  split
  · rename_i hp
    rw [List.flatMap_map]
    congr 1
    refine congrArg List.flatten (List.map_congr_left fun x _ => ?_)
    rw [packs_tidy x hp, enc_norm]
  · rw [List.map_map]
    exact List.map_congr_left h

mutual

/-- The tree does not depend on the unused bits of `Bitvector`s. -/
theorem rawTree_tidy : ∀ (t : Ty) (v : t.Val), rawTree t (tidy t v) = rawTree t v
  | .uint _, _ => rfl
  | .u256, _ => rfl
  | .bool, _ => rfl
  | .node, _ => rfl
  | .array t n, v => congrArg (full _) (rawParts_tidy (fun x _ => rawTree_tidy t x))
  | .vector t n, v => congrArg (full _) (rawParts_tidy (fun x _ => rawTree_tidy t x))
  | .list t n, v => node_congr (congrArg (full _)
      (rawParts_tidy (fun x _ => rawTree_tidy t x))) (congrArg numLeaf (List.length_map ..))
  | .bitvector _, _ => rfl
  | .bitlist _, _ => rfl
  | .option t, v => by
    match v with
    | none => rfl
    | some x => exact congrArg (fun s => MTree.node s (numLeaf 1)) (rawTree_tidy t x)
  | .newtype t, v => rawTree_tidy t v
  | .container fs, v => congrArg (full _) (rawTreesF_tidy fs v)
  | .union vs, v => rawTreeV_tidy vs 0 v

theorem rawTreesF_tidy : ∀ (fs : Fields) (v : fs.Val), rawTreesF fs (tidyF fs v) = rawTreesF fs v
  | .nil, _ => rfl
  | .cons _ t rest, v => by
    show rawTree t (tidy t v.1) :: rawTreesF rest (tidyF rest v.2) = _
    rw [rawTree_tidy t v.1, rawTreesF_tidy rest v.2]
    rfl

theorem rawTreeV_tidy : ∀ (vs : Variants) (i : Nat) (v : vs.Val),
    rawTreeV vs i (tidyV vs v) = rawTreeV vs i v
  | .nil, _, v => v.elim
  | .unit _, _, .inl _ => rfl
  | .unit rest, i, .inr v => rawTreeV_tidy rest (i + 1) v
  | .data t _, i, .inl v => congrArg (fun s => MTree.node s (numLeaf i)) (rawTree_tidy t v)
  | .data _ rest, i, .inr v => rawTreeV_tidy rest (i + 1) v

end

/-! ## Clearing all unused bits -/

mutual

/-- A value with clear unused bits is written as specified. -/
theorem rawEnc_norm : ∀ (t : Ty) (v : t.Val), rawEnc t (norm t v) = enc t v
  | .uint _, _ => rfl
  | .u256, _ => rfl
  | .bool, _ => rfl
  | .node, _ => rfl
  | .array t _, v => congrArg assemble ((List.map_map ..).trans
      (List.map_congr_left fun x _ => congrArg (Prod.mk _) (rawEnc_norm t x)))
  | .vector t _, v => congrArg assemble ((List.map_map ..).trans
      (List.map_congr_left fun x _ => congrArg (Prod.mk _) (rawEnc_norm t x)))
  | .list t _, v => congrArg assemble ((List.map_map ..).trans
      (List.map_congr_left fun x _ => congrArg (Prod.mk _) (rawEnc_norm t x)))
  | .bitvector _, _ => rfl
  | .bitlist _, v => by
    refine (stale_encoding_iff (v := ⟨v.live, padBits v.live.length⟩) ?_).2 fun x hx => ?_
    · simp [Bits.WF, padBits]
    · exact (List.mem_replicate.1 (List.mem_of_mem_tail hx)).2
  | .option t, v => by
    match v with
    | none => rfl
    | some x => exact congrArg (List.cons 1) (rawEnc_norm t x)
  | .newtype t, v => rawEnc_norm t v
  | .container fs, v => congrArg assemble (rawPiecesF_norm fs v)
  | .union vs, v => rawEncV_norm vs 0 v

theorem rawPiecesF_norm : ∀ (fs : Fields) (v : fs.Val), rawPiecesF fs (normF fs v) = piecesF fs v
  | .nil, _ => rfl
  | .cons _ t rest, v => by
    show (isVar t, rawEnc t (norm t v.1)) :: rawPiecesF rest (normF rest v.2) = _
    rw [rawEnc_norm t v.1, rawPiecesF_norm rest v.2]
    rfl

theorem rawEncV_norm : ∀ (vs : Variants) (i : Nat) (v : vs.Val),
    rawEncV vs i (normV vs v) = encV vs i v
  | .nil, _, v => v.elim
  | .unit _, _, .inl _ => rfl
  | .unit rest, i, .inr v => rawEncV_norm rest (i + 1) v
  | .data t _, _, .inl v => congrArg (List.cons _) (rawEnc_norm t v)
  | .data _ rest, i, .inr v => rawEncV_norm rest (i + 1) v

end

theorem padBits_trim (n : Nat) :
    List.replicate (min (padBits n).length 1) false ++ (padBits n).tail = padBits n := by
  unfold padBits
  cases (8 - n % 8) % 8 with
  | zero => rfl
  | succ k => simp [List.replicate_succ]

mutual

theorem trim_norm : ∀ (t : Ty) (v : t.Val), trim t (norm t v) = norm t v
  | .uint _, _ => rfl
  | .u256, _ => rfl
  | .bool, _ => rfl
  | .node, _ => rfl
  | .array t _, v => Subtype.ext ((List.map_map ..).trans
      (List.map_congr_left fun x _ => trim_norm t x))
  | .vector t _, v => (List.map_map ..).trans (List.map_congr_left fun x _ => trim_norm t x)
  | .list t _, v => (List.map_map ..).trans (List.map_congr_left fun x _ => trim_norm t x)
  | .bitvector _, _ => rfl
  | .bitlist _, v => bits_ext rfl (padBits_trim _)
  | .option t, v => by
    match v with
    | none => rfl
    | some x => exact congrArg some (trim_norm t x)
  | .newtype t, v => trim_norm t v
  | .container fs, v => trimF_norm fs v
  | .union vs, v => trimV_norm vs v

theorem trimF_norm : ∀ (fs : Fields) (v : fs.Val), trimF fs (normF fs v) = normF fs v
  | .nil, _ => rfl
  | .cons _ t rest, v => Prod.ext (trim_norm t v.1) (trimF_norm rest v.2)

theorem trimV_norm : ∀ (vs : Variants) (v : vs.Val), trimV vs (normV vs v) = normV vs v
  | .nil, v => v.elim
  | .unit _, .inl _ => rfl
  | .unit rest, .inr v => congrArg Sum.inr (trimV_norm rest v)
  | .data t _, .inl v => congrArg Sum.inl (trim_norm t v)
  | .data _ rest, .inr v => congrArg Sum.inr (trimV_norm rest v)

end

mutual

theorem valid_norm : ∀ (t : Ty) (v : t.Val), Proper t v → Valid t (norm t v)
  | .uint _, _, _ => trivial
  | .u256, _, _ => trivial
  | .bool, _, _ => trivial
  | .node, _, _ => trivial
  | .array t _, v, h => fun y hy => by
    obtain ⟨x, hx, rfl⟩ := List.mem_map.1 hy
    exact valid_norm t x (h x hx)
  | .vector t _, v, h => ⟨(List.length_map ..).trans h.1, fun y hy => by
    obtain ⟨x, hx, rfl⟩ := List.mem_map.1 hy
    exact valid_norm t x (h.2 x hx)⟩
  | .list t _, v, h => ⟨Nat.le_trans (Nat.le_of_eq (List.length_map ..)) h.1, fun y hy => by
    obtain ⟨x, hx, rfl⟩ := List.mem_map.1 hy
    exact valid_norm t x (h.2 x hx)⟩
  | .bitvector _, _, h => h
  | .bitlist _, _, h => ⟨h.1, rfl⟩
  | .option t, v, h => fun y hy => by
    match v, h with
    | none, _ => cases (show none = some y from hy)
    | some x, h =>
      have hy : some (norm t x) = some y := hy
      rw [← Option.some.inj hy]
      exact valid_norm t x (h x rfl)
  | .newtype t, v, h => valid_norm t v h
  | .container fs, v, h => valid_normF fs v h
  | .union vs, v, h => valid_normV vs v h

theorem valid_normF : ∀ (fs : Fields) (v : fs.Val), ProperF fs v → ValidF fs (normF fs v)
  | .nil, _, _ => trivial
  | .cons _ t rest, v, h => ⟨valid_norm t v.1 h.1, valid_normF rest v.2 h.2⟩

theorem valid_normV : ∀ (vs : Variants) (v : vs.Val), ProperV vs v → ValidV vs (normV vs v)
  | .nil, v, _ => v.elim
  | .unit _, .inl _, _ => trivial
  | .unit rest, .inr v, h => valid_normV rest v h
  | .data t _, .inl v, h => valid_norm t v h
  | .data _ rest, .inr v, h => valid_normV rest v h

end

mutual

theorem noEmptyVarList_norm : ∀ (t : Ty) (v : t.Val), NoEmptyVarList t v →
    NoEmptyVarList t (norm t v)
  | .uint _, _, _ => trivial
  | .u256, _, _ => trivial
  | .bool, _, _ => trivial
  | .node, _, _ => trivial
  | .array t _, v, h => fun y hy => by
    obtain ⟨x, hx, rfl⟩ := List.mem_map.1 hy
    exact noEmptyVarList_norm t x (h x hx)
  | .vector t _, v, h => fun y hy => by
    obtain ⟨x, hx, rfl⟩ := List.mem_map.1 hy
    exact noEmptyVarList_norm t x (h x hx)
  | .list t _, v, h => ⟨fun hv he => h.1 hv (List.map_eq_nil_iff.1 he), fun y hy => by
    obtain ⟨x, hx, rfl⟩ := List.mem_map.1 hy
    exact noEmptyVarList_norm t x (h.2 x hx)⟩
  | .bitvector _, _, _ => trivial
  | .bitlist _, _, _ => trivial
  | .option t, v, h => fun y hy => by
    match v, h with
    | none, _ => cases (show none = some y from hy)
    | some x, h =>
      have hy : some (norm t x) = some y := hy
      rw [← Option.some.inj hy]
      exact noEmptyVarList_norm t x (h x rfl)
  | .newtype t, v, h => noEmptyVarList_norm t v h
  | .container fs, v, h => noEmptyVarList_normF fs v h
  | .union vs, v, h => noEmptyVarList_normV vs v h

theorem noEmptyVarList_normF : ∀ (fs : Fields) (v : fs.Val), NoEmptyVarListF fs v →
    NoEmptyVarListF fs (normF fs v)
  | .nil, _, _ => trivial
  | .cons _ t rest, v, h => ⟨noEmptyVarList_norm t v.1 h.1, noEmptyVarList_normF rest v.2 h.2⟩

theorem noEmptyVarList_normV : ∀ (vs : Variants) (v : vs.Val), NoEmptyVarListV vs v →
    NoEmptyVarListV vs (normV vs v)
  | .nil, v, _ => v.elim
  | .unit _, .inl _, _ => trivial
  | .unit rest, .inr v, h => noEmptyVarList_normV rest v h
  | .data t _, .inl v, h => noEmptyVarList_norm t v h
  | .data _ rest, .inr v, h => noEmptyVarList_normV rest v h

end

/-- A value with clear unused bits is written back exactly if all unused bits of its `Bitlist`s but
the first ones are clear. -/
theorem rawEnc_enc_iff {t : Ty} {v : t.Val} (h : Stored t v) (hn : Stored t (norm t v)) :
    rawEnc t v = enc t v ↔ trim t v = norm t v := by
  rw [← rawEnc_norm t v, rawEnc_iff t v (norm t v) h hn (norm_norm t v).symm, trim_norm]

end Ssz
