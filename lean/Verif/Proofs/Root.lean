import Verif.Proofs.Merkleize
import Verif.Proofs.Facts

/-!
# `hash_tree_root` computes the root of the Merkle tree of the value
-/

namespace Ssz

open Spec

/-! ## Chunks -/

theorem pad32_full {b : Bytes} (h : b.length = 32) : (pad32 b).1 = b := by
  simp only [pad32]
  rw [List.take_append, h, Nat.sub_self, List.take_zero, List.append_nil,
    List.take_of_length_le (by omega)]

theorem pad32_short {b : Bytes} (h : b.length ≤ 32) :
    (pad32 b).1 = b ++ List.replicate (32 - b.length) 0 := by
  simp only [pad32]
  rw [List.take_append, List.take_of_length_le h, List.take_replicate]
  congr 2
  omega

theorem pad32_take (b : Bytes) (h : 32 ≤ b.length) : (pad32 b).1 = b.take 32 := by
  simp only [pad32]
  rw [List.take_append_of_le_length h]

theorem chunkify_nil : chunkify [] = [] := rfl

theorem chunkify_cons (b : Bytes) (h : b ≠ []) : chunkify b = pad32 b :: chunkify (b.drop 32) := by
  have hl : 0 < b.length := List.length_pos_iff.mpr h
  have e : (b.length + 31) / 32 = ((b.drop 32).length + 31) / 32 + 1 := by
    rw [List.length_drop]; omega
  unfold chunkify
  rw [e, List.range_succ_eq_map, List.map_cons, List.map_map]
  congr 1
  apply List.map_congr_left
  intro i _
  simp [List.drop_drop, Nat.mul_succ, Nat.add_comm]

theorem chunkify_length (b : Bytes) : (chunkify b).length = (b.length + 31) / 32 := by
  simp [chunkify]

theorem packBytes_eq (b : Bytes) : packBytes b = flat (chunkify b) := by
  induction hn : b.length using Nat.strongRecOn generalizing b with
  | ind n ih =>
    subst hn
    by_cases h0 : b = []
    · subst h0; rfl
    · have hl : 0 < b.length := List.length_pos_iff.mpr h0
      rw [chunkify_cons b h0, flat_cons, ← ih _ (by rw [List.length_drop]; omega) (b.drop 32) rfl]
      by_cases h32 : b.length < 32
      · rw [pad32_short (by omega), List.drop_eq_nil_of_le (by omega)]
        simp [packBytes, Nat.mod_eq_of_lt h32, h0]
      · rw [pad32_take _ (by omega)]
        unfold packBytes
        simp only [List.length_drop]
        have e : (b.length - 32) % 32 = b.length % 32 := by omega
        rw [e]
        split
        · rw [← List.append_assoc, List.take_append_drop]
        · rw [List.take_append_drop]

theorem chunkify_flat (ns : List Node) : chunkify (flat ns) = ns := by
  induction ns with
  | nil => rfl
  | cons n ns ih =>
    have h : flat (n :: ns) ≠ [] := by
      intro h
      have := congrArg List.length h
      rw [flat_length] at this
      simp at this
    rw [chunkify_cons _ h, flat_cons, List.drop_append, n.2,
      List.drop_eq_nil_of_le (by rw [n.2]), Nat.sub_self, List.drop_zero, List.nil_append, ih]
    congr 1
    apply Subtype.ext
    rw [pad32_take _ (by rw [List.length_append, n.2]; omega), List.take_append, n.2,
      List.take_of_length_le (by rw [n.2])]
    simp

theorem leaves_root (H : Bytes → Node) (b : Bytes) : (leaves b).map (·.root H) = chunkify b := by
  rw [leaves, List.map_map]
  exact (List.map_congr_left (fun _ _ => rfl)).trans (List.map_id _)

theorem leaves_length (b : Bytes) : (leaves b).length = (b.length + 31) / 32 := by
  rw [leaves, List.length_map, chunkify_length]

/-! ## Mixing in a number -/

theorem leBytes_zeros (n : Nat) : leBytes n 0 = List.replicate n 0 := by
  induction n with
  | zero => rfl
  | succ n ih => rw [leBytes_succ, Nat.zero_div, ih]; rfl

theorem leBytes_widen (k m x : Nat) (h : x < 256 ^ k) :
    leBytes (k + m) x = leBytes k x ++ List.replicate m 0 := by
  induction k generalizing x with
  | zero =>
    obtain rfl : x = 0 := by simpa using h
    simp [leBytes_zeros]
  | succ k ih =>
    rw [show k + 1 + m = (k + m) + 1 by omega, leBytes_succ, leBytes_succ,
      ih _ (by rw [Nat.pow_succ] at h; omega)]
    rfl

theorem numLeaf_root (H : Bytes → Node) (n : Nat) :
    ((numLeaf n).root H).1 = leBytes 32 n := by
  rw [numLeaf, MTree.root, pad32_full (by simp)]

theorem usizeHashTreeRoot_ok {n : Nat} (h : n < 2 ^ 64) (H : Bytes → Node) :
    usizeHashTreeRoot n = .ok ((numLeaf n).root H) := by
  have hx : (BitVec.ofNat 64 n).toNat = n := by simp; omega
  have h1 : uintChunks .usize (BitVec.ofNat 64 n) = .ok ((numLeaf n).root H).1 := by
    show Res.ok (packBytes ([] ++ toLeBytes 8 (BitVec.ofNat 64 n).toNat)) = _
    rw [hx, toLeBytes_eq, numLeaf_root, show (32 : Nat) = 8 + 24 by rfl,
      leBytes_widen 8 24 n (by omega)]
    simp [packBytes]
  show (uintChunks .usize (BitVec.ofNat 64 n) >>= fun root => toNode root) = _
  rw [h1, Res.ok_bind, toNode_node]

theorem mixInDecoration_ok (E : Env) {n : Nat} (h : n < 2 ^ 64) (r : Node) :
    mixInDecoration E r n = .ok (E.sha256 (r.1 ++ ((numLeaf n).root E.sha256).1)) := by
  rw [mixInDecoration, usizeHashTreeRoot_ok h E.sha256]
  exact toNode_node _

/-! ## Packing -/

theorem packs_fixed : ∀ {t : Ty}, packs t = true → isVar t = false
  | .uint _, _ => rfl
  | .u256, _ => rfl
  | .bool, _ => rfl
  | .node, _ => rfl
  | .array t _, h => packs_fixed (t := t) h

theorem packs_valid : ∀ {t : Ty} (v : t.Val), packs t = true → Valid t v
  | .uint _, _, _ => trivial
  | .u256, _, _ => trivial
  | .bool, _, _ => trivial
  | .node, _, _ => trivial
  | .array t _, _, h => fun x _ => packs_valid (t := t) x h

theorem packs_fits : ∀ {t : Ty}, packs t = true → Legal t → fixedLen t < 2 ^ 32 → Fits t
  | .uint _, _, _, _ => trivial
  | .u256, _, _, _ => trivial
  | .bool, _, _, _ => trivial
  | .node, _, _, _ => trivial
  | .array t n, h, hl, hs => by
    simp only [fixedLen] at hs
    have : fixedLen t ≤ fixedLen t * n := Nat.le_mul_of_pos_right _ hl.1
    exact ⟨packs_fits (t := t) h hl.2 (by omega), by omega⟩

theorem packs_serialize (E : Env) {t : Ty} (hp : packs t = true) (hl : Legal t)
    (hs : fixedLen t < 2 ^ 32) {v : t.Val} (hv : Valid t v) :
    SerOk (t.impl E).toSerializable v (enc t v) :=
  impl_serialize E t v hl (packs_fits hp hl hs) hv
    (small_of_length t v (by rw [enc_length t v (packs_fixed hp) hv]; exact hs))

theorem impl_isComposite (E : Env) : ∀ t : Ty, (t.impl E).isCompositeType = !packs t
  | .uint _ => rfl
  | .u256 => rfl
  | .bool => rfl
  | .node => rfl
  | .array t _ => impl_isComposite E t
  | .vector _ _ => rfl
  | .list _ _ => rfl
  | .bitvector _ => rfl
  | .bitlist _ => rfl
  | .option _ => rfl
  | .newtype _ => rfl
  | .container _ => rfl
  | .union _ => rfl

theorem packLoop_ok {α : Type} {T : Serializable α} {f : α → Bytes} (vs : List α) (buf : Bytes)
    (h : ∀ v ∈ vs, SerOk T v (f v)) :
    packLoop T vs buf = .ok (buf ++ vs.flatMap f) := by
  induction vs generalizing buf with
  | nil => simp [packLoop]
  | cons v vs ih =>
    rw [packLoop, h v (by simp) buf]
    dsimp only
    rw [ih _ (fun w hw => h w (by simp [hw]))]
    simp

theorem elementsToChunksLoop_ok {α : Type} {f : α → Res MerkError Node} {r : α → Node}
    (xs : List α) (pre : List Node) (h : ∀ x ∈ xs, f x = .ok (r x)) :
    elementsToChunksLoop f pre.length xs (flat (pre ++ List.replicate xs.length zeroNode)) =
      .ok (flat (pre ++ xs.map r)) := by
  induction xs generalizing pre with
  | nil => simp [elementsToChunksLoop]
  | cons x xs ih =>
    rw [elementsToChunksLoop, h x (by simp), Res.ok_bind,
      copyInto_flat (ns := pre ++ List.replicate (x :: xs).length zeroNode) (i := pre.length) (r x)
        (by simp) rfl rfl rfl, Res.ok_bind]
    have := ih (pre ++ [r x]) (fun y hy => h y (by simp [hy]))
    rw [List.length_append, List.length_singleton, List.append_assoc, List.append_assoc] at this
    rw [List.set_append_right _ _ (Nat.le_refl _), Nat.sub_self, List.length_cons,
      List.replicate_succ, List.set_cons_zero]
    exact this

theorem elementsToChunks_ok {α : Type} {E : Env} {f : α → Res MerkError Node} {r : α → Node}
    {xs : List α} (hn : xs.length < 2 ^ 58) (h : ∀ x ∈ xs, f x = .ok (r x)) :
    elementsToChunks E f xs xs.length = .ok (flat (xs.map r)) := by
  have h1 : xs.length * 32 < usizeMod := by simp only [usizeMod]; omega
  have h2 : xs.length * 32 < isizeMax1 := by simp only [isizeMax1]; omega
  rw [elementsToChunks, Env.mul_eq_ok h1, Res.lift_ok, Res.ok_bind, zeros, if_pos h2, Res.ok_bind,
    ← flat_replicate]
  exact elementsToChunksLoop_ok xs [] h

/-- The trees hashed into the chunks of a collection. -/
def partsOf (t : Ty) (vs : List t.Val) : List MTree :=
  if packs t then leaves (vs.flatMap (enc t)) else vs.map (treeBy packs t)

theorem flatMap_enc_length {t : Ty} {vs : List t.Val} (hp : packs t = true)
    (hv : ∀ v ∈ vs, Valid t v) : (vs.flatMap (enc t)).length = vs.length * fixedLen t := by
  induction vs with
  | nil => simp
  | cons v vs ih =>
    rw [List.flatMap_cons, List.length_append, ih (fun w hw => hv w (by simp [hw])),
      enc_length t v (packs_fixed hp) (hv v (by simp)), List.length_cons, Nat.succ_mul, Nat.add_comm]

theorem partsOf_length {t : Ty} {vs : List t.Val} (hv : ∀ v ∈ vs, Valid t v) :
    (partsOf t vs).length = chunkCountBy packs t vs.length := by
  unfold partsOf chunkCountBy
  split
  · rw [leaves_length, flatMap_enc_length (by assumption) hv]
  · simp

theorem chunkCountBy_le {t : Ty} {n m : Nat} (h : n ≤ m) :
    chunkCountBy packs t n ≤ chunkCountBy packs t m := by
  unfold chunkCountBy
  split
  · have := Nat.mul_le_mul_right (fixedLen t) h
    omega
  · exact h

theorem held_chunks {t : Ty} {n : Nat} (h : held t n) : chunkCountBy packs t n ≤ 2 ^ 58 := by
  unfold chunkCountBy
  split
  · have := h.2 (by assumption); omega
  · have := h.1; omega

theorem assembleChunks_ok (E : Env) {t : Ty} {vs : List t.Val} (hl : Legal t)
    (hs : packs t = true → fixedLen t < 2 ^ 32) (hv : ∀ v ∈ vs, Valid t v)
    (hh : held t vs.length)
    (hr : ∀ v ∈ vs, (t.impl E).hashTreeRoot v = .ok ((treeBy packs t v).root E.sha256)) :
    assembleChunks E (t.impl E) vs = .ok (flat ((partsOf t vs).map (·.root E.sha256))) := by
  unfold assembleChunks partsOf
  rw [impl_isComposite]
  by_cases hp : packs t = true
  · rw [hp]
    simp only [Bool.not_true, Bool.false_eq_true, if_false, if_true]
    unfold pack
    rw [packLoop_ok vs [] (fun v hx => packs_serialize E hp hl (hs hp) (hv v hx)), Res.map_ok,
      packBytes_eq, leaves_root]
    rfl
  · simp only [hp, Bool.not_false, if_true, Bool.false_eq_true, if_false]
    rw [elementsToChunks_ok hh.1 hr, List.map_map]
    rfl

theorem full_root_eq (E : Env) (d : Nat) (ts : List MTree) :
    rootD E.sha256 zeroNode d (ts.map (·.root E.sha256)) = (full d ts).root E.sha256 :=
  (full_root E.sha256 d ts).symm

/-! ## Vectors and lists -/

theorem vector_htr (E : Env) {t : Ty} {n : Nat} {vs : List t.Val} (hl : Legal t)
    (hs : packs t = true → fixedLen t < 2 ^ 32) (hv : ∀ v ∈ vs, Valid t v)
    (hh : held t vs.length) (hn : vs.length = n)
    (hr : ∀ v ∈ vs, (t.impl E).hashTreeRoot v = .ok ((treeBy packs t v).root E.sha256)) :
    (assembleChunks E (t.impl E) vs >>= fun chunks => merkleize E chunks none) =
      .ok ((full (depthFor (chunkCountBy packs t n)) (partsOf t vs)).root E.sha256) := by
  have h1 := partsOf_length hv
  have h2 := held_chunks hh
  rw [assembleChunks_ok E hl hs hv hh hr, Res.ok_bind,
    merkleize_none_ok _ _ (by rw [List.length_map, h1]; omega), full_root_eq, List.length_map, h1, hn]

theorem listChunkCount_ok (E : Env) {t : Ty} {n : Nat} (hl : Legal t) (hp : packs t = true)
    (hs : fixedLen t < 2 ^ 32) (hb : n * fixedLen t < 2 ^ 64) :
    listChunkCount E (t.impl E) n = .ok (chunkCountBy packs t n) := by
  unfold listChunkCount
  rw [impl_sizeHint E t (packs_fits hp hl hs), Res.ok_bind, Env.mul_eq_ok hb, Res.ok_bind,
    chunkCountBy, if_pos hp]

theorem list_htr (E : Env) {t : Ty} {n : Nat} {vs : List t.Val} (hl : Legal t)
    (hs : packs t = true → fixedLen t < 2 ^ 32)
    (hb : if packs t then n * fixedLen t < 2 ^ 64 else n ≤ 2 ^ 63)
    (hv : ∀ v ∈ vs, Valid t v) (hh : held t vs.length) (hn : vs.length ≤ n)
    (hr : ∀ v ∈ vs, (t.impl E).hashTreeRoot v = .ok ((treeBy packs t v).root E.sha256)) :
    (SimpleSerialize.list E (t.impl E) n).hashTreeRoot vs =
      .ok ((MTree.node (full (depthFor (chunkCountBy packs t n)) (partsOf t vs))
        (numLeaf vs.length)).root E.sha256) := by
  have h1 := partsOf_length hv
  have h2 : chunkCountBy packs t vs.length ≤ chunkCountBy packs t n := chunkCountBy_le hn
  have h3 : vs.length < 2 ^ 64 := Nat.lt_of_lt_of_le hh.1 (by decide)
  have hroot : (if (t.impl E).isCompositeType then
        merkleize E (flat ((partsOf t vs).map (·.root E.sha256))) (some n)
      else do
        let count ← (listChunkCount E (t.impl E) n).lift
        merkleize E (flat ((partsOf t vs).map (·.root E.sha256))) (some count)) =
      .ok ((full (depthFor (chunkCountBy packs t n)) (partsOf t vs)).root E.sha256) := by
    rw [impl_isComposite]
    by_cases hp : packs t = true
    · rw [if_pos hp] at hb
      have h4 : chunkCountBy packs t n ≤ 2 ^ 63 := by
        rw [chunkCountBy, if_pos hp]; omega
      simp only [hp, Bool.not_true, Bool.false_eq_true, if_false]
      rw [listChunkCount_ok E hl hp (hs hp) hb, Res.lift_ok, Res.ok_bind,
        merkleize_some_ok _ _ (by rw [List.length_map, h1]; exact h2) h4, full_root_eq]
    · rw [if_neg hp] at hb
      have h4 : chunkCountBy packs t n = n := by rw [chunkCountBy, if_neg hp]
      simp only [hp, Bool.not_false, if_true]
      rw [merkleize_some_ok _ _ (by rw [List.length_map, h1]; omega) hb, full_root_eq, h4]
  simp only [SimpleSerialize.list]
  rw [assembleChunks_ok E hl hs hv hh hr, Res.ok_bind]
  split at hroot
  · rw [if_pos (by assumption), hroot, Res.ok_bind, mixInDecoration_ok E h3]
    rfl
  · rw [if_neg (by assumption)]
    obtain ⟨c, h5, h6⟩ := Res.bind_eq_ok.mp hroot
    rw [h5, Res.ok_bind, h6, Res.ok_bind, mixInDecoration_ok E h3]
    rfl

/-! ## Bits -/

theorem Bitvector.packBits_ok {n : Nat} (hn : 0 < n) {v : Bits} (h : v.live.length = n) :
    Bitvector.packBits n v = .ok (flat (chunkify (Spec.packBits v.live))) := by
  rw [Bitvector.packBits, Bitvector.serialize_eq hn h]
  simp only [List.nil_append, packBytes_eq]

theorem Bitlist.packBits_ok {n : Nat} {v : Bits} (h : v.live.length ≤ n) (hc : v.Clean) :
    Bitlist.packBits n v = .ok (flat (chunkify (Spec.packBits v.live))) := by
  have h1 : ¬ v.len > n := by simp only [Bits.len]; omega
  simp only [Bitlist.packBits, Bitlist.serializeWithLength, h1, if_false, Bool.false_eq_true,
    Bits.rawSlice_clean hc, List.nil_append, packBytes_eq]

theorem chunkify_bits_length (bits : List Bool) :
    (chunkify (Spec.packBits bits)).length = (bits.length + 255) / 256 := by
  rw [chunkify_length, packBits_length]; omega

/-! ## All types -/

theorem count_impls (E : Env) : ∀ fs : Fields, (fs.impls E).count = countF fs
  | .nil => rfl
  | .cons _ _ rest => by
    show 1 + (rest.impls E).count = _
    rw [count_impls E rest, countF, Nat.add_comm]

theorem treesByF_length (pk : Ty → Bool) : ∀ (fs : Fields) (v : fs.Val),
    (treesByF pk fs v).length = countF fs
  | .nil, _ => rfl
  | .cons _ _ rest, v => congrArg (· + 1) (treesByF_length pk rest v.2)

theorem container_htr (E : Env) {fs : Fields} {v : fs.Val} (hc : countF fs ≤ 2 ^ 58)
    (h : (fs.impls E).assembleChunks v = .ok (flat ((treesByF packs fs v).map (·.root E.sha256)))) :
    (SimpleSerialize.container E (fs.impls E)).hashTreeRoot v =
      .ok ((full (depthFor (countF fs)) (treesByF packs fs v)).root E.sha256) := by
  show ((fs.impls E).assembleChunks v >>= fun chunks => merkleize E chunks none) = _
  have h1 := treesByF_length packs fs v
  rw [h, Res.ok_bind, merkleize_none_ok _ _ (by rw [List.length_map, h1]; omega), full_root_eq,
    List.length_map, h1]

mutual

theorem htr_ok (E : Env) : ∀ (t : Ty) (v : t.Val), Legal t → Bounded t → Valid t v →
    InMemory t v → (t.impl E).hashTreeRoot v = .ok ((treeBy packs t v).root E.sha256)
  | .uint u, v, _, _, _, _ => by
    have h : uintChunks u v = .ok (pad32 (enc (.uint u) v)).1 := by
      show Res.ok (packBytes ([] ++ toLeBytes (bitsToBytes u.bits) v.toNat)) = _
      rw [toLeBytes_eq, List.nil_append]
      simp only [enc]
      congr 1
      rw [pad32_short (by cases u <;> simp [UintTy.bits])]
      cases u <;> simp [packBytes, bitsToBytes, UintTy.bits]
    show (uintChunks u v >>= fun root => toNode root) = _
    rw [h, Res.ok_bind, toNode_node]
    rfl
  | .u256, v, _, _, _, _ => by
    have h : toLeBytes 32 (BitVec.toNat v) = (pad32 (enc .u256 v)).1 := by
      rw [toLeBytes_eq, pad32_full (by simp [enc])]
      rfl
    show toNode (toLeBytes 32 (BitVec.toNat v)) = _
    rw [h, toNode_node]
    rfl
  | .bool, v, _, _, _, _ => by
    have h : boolChunks v = (pad32 (enc .bool v)).1 := by
      cases v <;> rfl
    show toNode (boolChunks v) = _
    rw [h, toNode_node]
    rfl
  | .node, v, _, _, _, _ => toNode_node _
  | .array t n, v, hl, hb, hv, hm =>
    vector_htr E hl.2 hb.2 hv hm.1 v.2 (fun x hx => htr_ok E t x hl.2 hb.1 (hv x hx) (hm.2 x hx))
  | .vector t n, v, hl, hb, hv, hm =>
    vector_htr E hl.2 hb.2 hv.2 hm.1 hv.1
      (fun x hx => htr_ok E t x hl.2 hb.1 (hv.2 x hx) (hm.2 x hx))
  | .list t n, v, hl, hb, hv, hm =>
    list_htr E hl hb.2.1 hb.2.2 hv.2 hm.1 hv.1
      (fun x hx => htr_ok E t x hl hb.1 (hv.2 x hx) (hm.2 x hx))
  | .bitvector n, v, hl, hb, hv, _ => by
    show (Bitvector.packBits n v >>= fun chunks => merkleize E chunks (some (bitsChunkCount n))) = _
    simp only [Valid] at hv
    simp only [Bounded] at hb
    rw [Bitvector.packBits_ok hl hv, Res.ok_bind, merkleize_some_ok _ _
      (by rw [chunkify_bits_length, hv]; rfl) (by unfold bitsChunkCount; omega)]
    rw [← leaves_root E.sha256, full_root_eq]
    rfl
  | .bitlist n, v, hl, hb, hv, _ => by
    show (Bitlist.packBits n v >>= fun chunks => merkleize E chunks (some (bitsChunkCount n)) >>=
      fun dataRoot => mixInDecoration E dataRoot v.len) = _
    obtain ⟨hv, hc⟩ := hv
    simp only [Bounded] at hb
    rw [Bitlist.packBits_ok hv hc, Res.ok_bind, merkleize_some_ok _ _
      (by rw [chunkify_bits_length, bitsChunkCount]; omega) (by unfold bitsChunkCount; omega),
      Res.ok_bind, mixInDecoration_ok E (by simp only [Bits.len]; omega)]
    rw [← leaves_root E.sha256, full_root_eq]
    rfl
  | .option t, v, hl, hb, hv, hm => by
    match v with
    | none =>
      show (toNode (List.replicate 32 0) >>= fun chunks => mixInDecoration E chunks 0) = _
      rw [show List.replicate 32 (0 : Byte) = zeroNode.1 by rfl, toNode_node, Res.ok_bind,
        mixInDecoration_ok E (by decide)]
      rfl
    | some x =>
      show (((t.impl E).hashTreeRoot x).map (·.1) >>= fun bytes => toNode bytes >>= fun chunks =>
        mixInDecoration E chunks 1) = _
      rw [htr_ok E t x hl hb (hv x rfl) (hm x rfl), Res.map_ok, Res.ok_bind, toNode_node,
        Res.ok_bind, mixInDecoration_ok E (by decide)]
      rfl
  | .newtype t, v, hl, hb, hv, hm => by
    show ((t.impl E).hashTreeRoot v >>= fun chunk =>
      copyInto (List.replicate (1 * 32) 0) (0 * 32) ((0 + 1) * 32) chunk.1 >>= fun chunks =>
      merkleize E chunks none) = _
    rw [htr_ok E t v hl hb hv hm, Res.ok_bind, ← flat_replicate,
      copyInto_flat (ns := List.replicate 1 zeroNode) (i := 0) ((treeBy packs t v).root E.sha256)
        (by simp) rfl rfl rfl, Res.ok_bind, merkleize_none_ok _ _ (by simp)]
    simp [depthFor, rootD, treeBy]
  | .container fs, v, hl, hb, hv, hm => by
    refine container_htr E hb.2 ?_
    unfold FieldImpls.assembleChunks
    rw [count_impls, ← flat_replicate]
    exact htrF_ok E fs v [] hl.2.2 hb.1 hv hm
  | .union vs, v, hl, hb, hv, hm => by
    have h : (vs.impls E).hashTreeRoot E 0 v = .ok ((treeByV packs vs 0 v).root E.sha256) :=
      htrV_ok E vs 0 v hl.2 hb hv hm (unitOk_of_shape hl.1) (by
        obtain ⟨hs, -⟩ := hl
        cases vs with
        | nil => exact hs.elim
        | unit rest => obtain ⟨_, _, h⟩ := hs; simp only [countV]; omega
        | data t rest => obtain ⟨_, h⟩ := hs; simp only [countV]; omega)
    exact h

theorem htrF_ok (E : Env) : ∀ (fs : Fields) (v : fs.Val) (pre : List Node), LegalF fs →
    BoundedF fs → ValidF fs v → InMemoryF fs v →
    (fs.impls E).assembleLoop v pre.length (flat (pre ++ List.replicate (countF fs) zeroNode)) =
      .ok (flat (pre ++ (treesByF packs fs v).map (·.root E.sha256)))
  | .nil, _, pre, _, _, _, _ => by
    simp [Fields.impls, FieldImpls.assembleLoop, countF, treesByF]
  | .cons name t rest, v, pre, hl, hb, hv, hm => by
    show ((t.impl E).hashTreeRoot v.1 >>= fun chunk =>
      copyInto (flat (pre ++ List.replicate (countF rest + 1) zeroNode)) (pre.length * 32)
        ((pre.length + 1) * 32) chunk.1 >>= fun chunks' =>
      (rest.impls E).assembleLoop v.2 (pre.length + 1) chunks') = _
    rw [htr_ok E t v.1 hl.1 hb.1 hv.1 hm.1, Res.ok_bind,
      copyInto_flat (ns := pre ++ List.replicate (countF rest + 1) zeroNode) (i := pre.length)
        ((treeBy packs t v.1).root E.sha256) (by simp) rfl rfl rfl, Res.ok_bind]
    have := htrF_ok E rest v.2 (pre ++ [(treeBy packs t v.1).root E.sha256]) hl.2 hb.2 hv.2 hm.2
    rw [List.length_append, List.length_singleton, List.append_assoc, List.append_assoc] at this
    rw [List.set_append_right _ _ (Nat.le_refl _), Nat.sub_self,
      List.replicate_succ, List.set_cons_zero]
    exact this

theorem htrV_ok (E : Env) : ∀ (vs : Variants) (i : Nat) (v : vs.Val), LegalV vs → BoundedV vs →
    ValidV vs v → InMemoryV vs v → UnitOk i vs → i + countV vs < 2 ^ 64 →
    (vs.impls E).hashTreeRoot E i v = .ok ((treeByV packs vs i v).root E.sha256)
  | .nil, _, v, _, _, _, _, _, _ => v.elim
  | .unit rest, i, .inl _, _, _, _, _, hu, _ => by
    obtain ⟨rfl, _⟩ := hu
    show mixInDecoration E zeroNode 0 = _
    rw [mixInDecoration_ok E (by decide)]
    rfl
  | .unit rest, i, .inr v, hl, hb, hv, hm, hu, hc =>
    htrV_ok E rest (i + 1) v hl hb hv hm (unitOk_of_noUnit hu.2) (by simp only [countV] at hc; omega)
  | .data t rest, i, .inl v, hl, hb, hv, hm, hu, hc => by
    show ((t.impl E).hashTreeRoot v >>= fun chunks => mixInDecoration E chunks i) = _
    rw [htr_ok E t v hl.1 hb.1 hv hm, Res.ok_bind, mixInDecoration_ok E (by omega)]
    rfl
  | .data t rest, i, .inr v, hl, hb, hv, hm, hu, hc =>
    htrV_ok E rest (i + 1) v hl.2 hb.2 hv hm (unitOk_of_noUnit hu)
      (by simp only [countV] at hc; omega)

end

end Ssz
