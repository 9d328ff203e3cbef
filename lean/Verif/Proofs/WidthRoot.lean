import Verif.Model.WidthRoot
import Verif.Spec.WidthRoot
import Verif.Proofs.Overflow
import Verif.Proofs.Width

/-!
# Roots on targets with a smaller `usize`
-/

namespace Ssz

open Spec

/-! ## 64 bits -/

theorem layersLoopW_64 (E : Env) (height k last : Nat) (layer : Bytes) :
    layersLoopW 64 E height k last layer = layersLoop E height k last layer := by
  induction k generalizing last layer with
  | zero => rfl
  | succ k ih =>
    rw [layersLoopW, layersLoop, show (E.on 64).pow2 (k + 1) = E.pow2 (k + 1) from rfl]
    simp only [ih]

theorem virtualW_64 (E : Env) (chunks : Bytes) (n : Nat) :
    merkleizeChunksWithVirtualPaddingW 64 E chunks n = merkleizeChunksWithVirtualPadding E chunks n := by
  unfold merkleizeChunksWithVirtualPaddingW merkleizeChunksWithVirtualPadding
  simp only [layersLoopW_64]
  rfl

theorem merkleizeW_64 (E : Env) (chunks : Bytes) (limit : Option Nat) :
    merkleizeW 64 E chunks limit = merkleize E chunks limit := by
  unfold merkleizeW merkleize
  simp only [virtualW_64]
  rfl

theorem assembleChunksW_64 {α : Type} (E : Env) (T : SimpleSerialize α) {root : α → Res MerkError Node}
    (h : ∀ x, root x = T.hashTreeRoot x) (xs : List α) :
    assembleChunksW 64 E T root xs = assembleChunks E T xs := by
  have : root = T.hashTreeRoot := funext h
  subst this
  rfl

mutual

theorem rootW_64 (E : Env) : ∀ (t : Ty) (v : t.Val), t.rootW 64 E v = (t.impl E).hashTreeRoot v
  | .uint _, _ => rfl
  | .u256, _ => rfl
  | .bool, _ => rfl
  | .node, _ => rfl
  | .array t n, v => by
    show _ = (assembleChunks E (t.impl E) v.1 >>= fun c => merkleize E c none)
    rw [Ty.rootW]
    simp only [assembleChunksW_64 E (t.impl E) (rootW_64 E t), merkleizeW_64]
  | .vector t n, v => by
    show _ = (assembleChunks E (t.impl E) v >>= fun c => merkleize E c none)
    rw [Ty.rootW]
    simp only [merkleizeW_64]
    rw [show assembleChunksW 64 E (t.impl E) (fun x => t.rootW 64 E x) v = _ from
      assembleChunksW_64 E (t.impl E) (rootW_64 E t) v]
  | .list t n, v => by
    show _ = (SimpleSerialize.list E (t.impl E) n).hashTreeRoot v
    rw [Ty.rootW]
    simp only [SimpleSerialize.list, merkleizeW_64]
    rw [show assembleChunksW 64 E (t.impl E) (fun x => t.rootW 64 E x) v = _ from
      assembleChunksW_64 E (t.impl E) (rootW_64 E t) v]
    rfl
  | .bitvector n, v => by
    show _ = (SimpleSerialize.bitvector E n).hashTreeRoot v
    rw [Ty.rootW]
    simp only [SimpleSerialize.bitvector, merkleizeW_64]
  | .bitlist n, v => by
    show _ = (SimpleSerialize.bitlist E n).hashTreeRoot v
    rw [Ty.rootW]
    simp only [SimpleSerialize.bitlist, merkleizeW_64]
  | .option t, v => by
    show _ = (SimpleSerialize.option E (t.impl E)).hashTreeRoot v
    cases v with
    | none => rfl
    | some x =>
      simp only [Ty.rootW, SimpleSerialize.option, optionChunks, rootW_64 E t x]
      cases (t.impl E).hashTreeRoot x <;> rfl
  | .newtype t, v => by
    show _ = (SimpleSerialize.newtype E (t.impl E)).hashTreeRoot v
    simp only [Ty.rootW, SimpleSerialize.newtype, merkleizeW_64, rootW_64 E t v]
  | .container fs, v => by
    show _ = (SimpleSerialize.container E (fs.impls E)).hashTreeRoot v
    simp only [Ty.rootW, SimpleSerialize.container, FieldImpls.assembleChunks, merkleizeW_64,
      chunksW_64 E fs v, countW_fields E fs]
  | .union vs, v => rootWV_64 E vs 0 v

theorem chunksW_64 (E : Env) : ∀ (fs : Fields) (v : fs.Val) (i : Nat) (c : Bytes),
    fs.chunksW 64 E v i c = (fs.impls E).assembleLoop v i c
  | .nil, _, _, _ => rfl
  | .cons _ t rest, v, i, c => by
    simp only [Fields.chunksW, Fields.impls, FieldImpls.assembleLoop, rootW_64 E t v.1,
      chunksW_64 E rest v.2]

theorem rootWV_64 (E : Env) : ∀ (vs : Variants) (i : Nat) (v : vs.Val),
    vs.rootW 64 E i v = (vs.impls E).hashTreeRoot E i v
  | .nil, _, v => Empty.elim v
  | .unit _, _, .inl _ => rfl
  | .unit rest, i, .inr v => rootWV_64 E rest (i + 1) v
  | .data t _, i, .inl v => by
    simp only [Variants.rootW, Variants.impls, VariantImpls.hashTreeRoot, rootW_64 E t v]
  | .data _ rest, i, .inr v => rootWV_64 E rest (i + 1) v

end

/-! ## Arithmetic -/

theorem pow_parts {b : Nat} (h : 32 ≤ b) : 2 ^ b = 64 * 2 ^ (b - 6) ∧ 2 ^ (b - 1) = 32 * 2 ^ (b - 6) := by
  obtain ⟨k, rfl⟩ := Nat.exists_eq_add_of_le h
  have e1 : 32 + k = 6 + (32 + k - 6) := by omega
  have e2 : 32 + k - 1 = 5 + (32 + k - 6) := by omega
  constructor
  · conv_lhs => rw [e1, Nat.pow_add]
  · rw [e2, Nat.pow_add]

theorem pow_le_64 {b : Nat} (h : b ≤ 64) : 2 ^ b ≤ 2 ^ 64 := Nat.pow_le_pow_right (by decide) h

theorem nextW_ok {b : Nat} {E : Env} {x : Nat} (hb : 0 < b) (h : x ≤ 2 ^ (b - 1)) :
    (E.on b).nextPowerOfTwo x = .ok (2 ^ depthFor x) := by
  have hd : depthFor x ≤ b - 1 := depthFor_le h
  have hlt : 2 ^ depthFor x < 2 ^ b := Nat.pow_lt_pow_right (by decide) (by omega)
  simp only [Target.nextPowerOfTwo, nextPow_eq, if_pos hlt]

theorem nextW_overflow {b : Nat} {E : Env} {x : Nat} (hb : 0 < b) (h : 2 ^ (b - 1) < x) :
    (E.on b).nextPowerOfTwo x = if E.debug then .panic else .ok 0 := by
  have hd : b - 1 < depthFor x := (Nat.lt_clog_iff_pow_lt (by decide)).mpr h
  have hlt : ¬ 2 ^ depthFor x < 2 ^ b := Nat.not_lt.mpr (Nat.pow_le_pow_right (by decide) (by omega))
  simp only [Target.nextPowerOfTwo, nextPow_eq, if_neg hlt]

/-! ## Trees -/

theorem layersLoopW_eq (E : Env) {b : Nat} (h64 : b ≤ 64) (height k last : Nat) (layer : Bytes) (hk : k < b) :
    layersLoopW b E height k last layer = layersLoop E height k last layer := by
  induction k generalizing last layer with
  | zero => rfl
  | succ k ih =>
    have e1 : (E.on b).pow2 (k + 1) = .ok (2 ^ (k + 1)) := if_pos hk
    have e2 : E.pow2 (k + 1) = .ok (2 ^ (k + 1)) := if_pos (by omega)
    rw [layersLoopW, layersLoop, e1, e2]
    simp only [fun l m => ih l m (by omega)]

theorem virtualW_ok (E : Env) {b : Nat} (h64 : b ≤ 64) (ns : List Node) {D : Nat} (hD : D < b)
    (h : ns.length ≤ 2 ^ D) :
    merkleizeChunksWithVirtualPaddingW b E (flat ns) (2 ^ D) = .ok (rootD E.sha256 zeroNode D ns) := by
  have key : merkleizeChunksWithVirtualPaddingW b E (flat ns) (2 ^ D) =
      merkleizeChunksWithVirtualPadding E (flat ns) (2 ^ D) := by
    have e0 : depthFor (2 ^ D) = D := by unfold depthFor; rw [Nat.clog_pow _ _ (by decide)]
    have e1 : (E.on b).nextPowerOfTwo (2 ^ D) = .ok (2 ^ D) := by
      rw [nextW_ok (by omega) (Nat.pow_le_pow_right (by decide) (by omega)), e0]
    have e2 : E.nextPowerOfTwo (2 ^ D) = .ok (2 ^ D) := by
      rw [nextPowerOfTwo_ok (Nat.pow_le_pow_right (by decide) (by omega)), e0]
    have e3 : (E.on b).trailingZeros (2 ^ D) = D := trailingZerosAux_pow b D hD
    have e4 : trailingZeros (2 ^ D) = D := trailingZeros_pow (by omega)
    unfold merkleizeChunksWithVirtualPaddingW merkleizeChunksWithVirtualPadding
    simp only [e1, e2, e3, e4, Nat.add_sub_cancel, fun l m => layersLoopW_eq E h64 (D + 1) D l m hD]
  rw [key]
  exact merkleizeVirtual_ok E ns (by omega) h

theorem merkleizeW_none_ok {b : Nat} (hb : 0 < b) (h64 : b ≤ 64) (E : Env) (ns : List Node)
    (h : ns.length ≤ 2 ^ (b - 1)) :
    merkleizeW b E (flat ns) none = .ok (rootD E.sha256 zeroNode (depthFor ns.length) ns) := by
  have h32 : 32 * ns.length / 32 = ns.length := by omega
  have hm : ((flat ns).length % 32 == 0) = true := by rw [flat_length]; simp
  rw [merkleizeW, hm, Env.debugAssert_true, Res.lift_ok, Res.ok_bind]
  simp only [flat_length, h32]
  rw [nextW_ok hb h, Res.lift_ok, Res.ok_bind]
  have := depthFor_le h
  exact virtualW_ok E h64 ns (by omega) (le_pow_depthFor _)

theorem merkleizeW_some_ok {b : Nat} (hb : 0 < b) (h64 : b ≤ 64) (E : Env) (ns : List Node) {l : Nat}
    (h : ns.length ≤ l) (hl : l ≤ 2 ^ (b - 1)) :
    merkleizeW b E (flat ns) (some l) = .ok (rootD E.sha256 zeroNode (depthFor l) ns) := by
  have h32 : 32 * ns.length / 32 = ns.length := by omega
  have hm : ((flat ns).length % 32 == 0) = true := by rw [flat_length]; simp
  rw [merkleizeW, hm, Env.debugAssert_true, Res.lift_ok, Res.ok_bind]
  simp only [flat_length, h32]
  rw [nextW_ok hb (Nat.le_trans h hl), Res.lift_ok, Res.ok_bind]
  rw [if_neg (by omega), nextW_ok hb hl, Res.lift_ok, Res.ok_bind]
  have := depthFor_le hl
  exact virtualW_ok E h64 ns (by omega) (Nat.le_trans h (le_pow_depthFor _))

theorem merkleizeW_exceeds {b : Nat} (hb : 0 < b) (E : Env) (ns : List Node) {l : Nat} (h : l < ns.length)
    (hn : ns.length ≤ 2 ^ (b - 1)) :
    merkleizeW b E (flat ns) (some l) = .err (.inputExceedsLimit l) := by
  have h32 : 32 * ns.length / 32 = ns.length := by omega
  have hm : ((flat ns).length % 32 == 0) = true := by rw [flat_length]; simp
  rw [merkleizeW, hm, Env.debugAssert_true, Res.lift_ok, Res.ok_bind]
  simp only [flat_length, h32]
  rw [nextW_ok hb hn, Res.lift_ok, Res.ok_bind, if_pos h]

/-- With overflow checks, a limit above `2^(b-1)` panics. -/
theorem merkleizeW_huge_debug {b : Nat} (hb : 0 < b) (E : Env) (hE : E.debug = true) (ns : List Node)
    {l : Nat} (hn : ns.length ≤ 2 ^ (b - 1)) (hl : 2 ^ (b - 1) < l) :
    merkleizeW b E (flat ns) (some l) = .panic := by
  have h32 : 32 * ns.length / 32 = ns.length := by omega
  have hm : ((flat ns).length % 32 == 0) = true := by rw [flat_length]; simp
  rw [merkleizeW, hm, Env.debugAssert_true, Res.lift_ok, Res.ok_bind]
  simp only [flat_length, h32]
  rw [nextW_ok hb hn, Res.lift_ok, Res.ok_bind, if_neg (by omega), nextW_overflow hb hl, hE]
  rfl

/-! ## Collections -/

theorem packs_no_overflowW (b : Nat) : ∀ {t : Ty} (v : t.Val), packs t = true → ¬ OverflowsW b t v
  | .uint _, _, _ => fun h => h
  | .u256, _, _ => fun h => h
  | .bool, _, _ => fun h => h
  | .node, _, _ => fun h => h
  | .array t _, _, h => fun ⟨x, _, hx⟩ => packs_no_overflowW b (t := t) x h hx

theorem heldW_chunks {b : Nat} (h32 : 32 ≤ b) {t : Ty} {n : Nat} (h : heldW b t n) :
    chunkCountBy packs t n ≤ 2 ^ (b - 6) := by
  obtain ⟨p1, p2⟩ := pow_parts h32
  unfold chunkCountBy
  split
  · have := h.2 (by assumption); omega
  · have := h.1; omega

theorem elementsToChunksW_start {α : Type} {b : Nat} (h32 : 32 ≤ b) {E : Env}
    {f : α → Res MerkError Node} {xs : List α} (hn : xs.length < 2 ^ (b - 6)) :
    elementsToChunksW b E f xs xs.length =
      elementsToChunksLoop f 0 xs (flat (List.replicate xs.length zeroNode)) := by
  obtain ⟨p1, p2⟩ := pow_parts h32
  have h1 : (E.on b).mul xs.length 32 = .ok (xs.length * 32) := mul_fits (by show _ < 2 ^ b; omega)
  rw [elementsToChunksW, h1, Res.lift_ok, Res.ok_bind, zerosW, if_pos (by omega), Res.ok_bind,
    ← flat_replicate]

theorem assembleChunksW_ok {b : Nat} (h32 : 32 ≤ b) (E : Env) {t : Ty} {vs : List t.Val} (hl : Legal t)
    (hs : packs t = true → fixedLen t < 2 ^ 32) (hv : ∀ v ∈ vs, Valid t v)
    (hh : heldW b t vs.length)
    (hr : ∀ v ∈ vs, t.rootW b E v = .ok ((treeBy packs t v).root E.sha256)) :
    assembleChunksW b E (t.impl E) (fun x => t.rootW b E x) vs =
      .ok (flat ((partsOf t vs).map (·.root E.sha256))) := by
  unfold assembleChunksW partsOf
  rw [impl_isComposite]
  by_cases hp : packs t = true
  · rw [hp]
    simp only [Bool.not_true, Bool.false_eq_true, if_false, if_true]
    unfold pack
    rw [packLoop_ok vs [] (fun v hx => packs_serialize E hp hl (hs hp) (hv v hx)), Res.map_ok,
      packBytes_eq, leaves_root]
    rfl
  · simp only [hp, Bool.not_false, if_true, Bool.false_eq_true, if_false]
    rw [elementsToChunksW_start h32 hh.1, List.map_map]
    exact elementsToChunksLoop_ok vs [] hr

/-- With overflow checks, the chunks of a collection panic if an element does. -/
theorem assembleChunks_panicW {b : Nat} (h32 : 32 ≤ b) (E : Env) {t : Ty} {vs : List t.Val}
    (hh : heldW b t vs.length)
    (h : ∀ v ∈ vs, (¬ OverflowsW b t v → t.rootW b E v = .ok ((treeBy packs t v).root E.sha256)) ∧
      (OverflowsW b t v → t.rootW b E v = .panic))
    (ho : Any (OverflowsW b t) vs) :
    assembleChunksW b E (t.impl E) (fun x => t.rootW b E x) vs = .panic := by
  obtain ⟨x, hx, hxo⟩ := ho
  have hp : packs t = false := by
    cases hp : packs t with
    | false => rfl
    | true => exact absurd hxo (packs_no_overflowW b x hp)
  unfold assembleChunksW
  rw [impl_isComposite, hp]
  simp only [Bool.not_false, if_true]
  rw [elementsToChunksW_start h32 hh.1]
  refine elementsLoop_panic vs [] (r := fun v => (treeBy packs t v).root E.sha256) (fun v hv => ?_)
    ⟨x, hx, (h x hx).2 hxo⟩
  by_cases hov : OverflowsW b t v
  · exact .inr ((h v hv).2 hov)
  · exact .inl ((h v hv).1 hov)

theorem vector_htrW {b : Nat} (h32 : 32 ≤ b) (h64 : b ≤ 64) (E : Env) {t : Ty} {n : Nat} {vs : List t.Val}
    (hl : Legal t) (hs : elementW t) (hv : ∀ v ∈ vs, Valid t v)
    (hh : heldW b t vs.length) (hn : vs.length = n)
    (hr : ∀ v ∈ vs, t.rootW b E v = .ok ((treeBy packs t v).root E.sha256)) :
    (assembleChunksW b E (t.impl E) (fun x => t.rootW b E x) vs >>= fun chunks =>
      merkleizeW b E chunks none) =
      .ok ((full (depthFor (chunkCountBy packs t n)) (partsOf t vs)).root E.sha256) := by
  obtain ⟨p1, p2⟩ := pow_parts h32
  have h1 := partsOf_length hv
  have h2 := heldW_chunks h32 hh
  rw [assembleChunksW_ok h32 E hl hs.2 hv hh hr, Res.ok_bind,
    merkleizeW_none_ok (by omega) h64 _ _ (by rw [List.length_map, h1]; omega), full_root_eq,
    List.length_map, h1, hn]

theorem listChunkCountW_ok {b : Nat} (E : Env) {t : Ty} {n : Nat} (hl : Legal t) (hp : packs t = true)
    (hs : fixedLen t < 2 ^ 32) (hb : n * fixedLen t < 2 ^ b) :
    listChunkCountW b E (t.impl E) n = .ok (chunkCountBy packs t n) := by
  unfold listChunkCountW
  rw [impl_sizeHint E t (packs_fits hp hl hs), Res.ok_bind, mul_fits (by exact hb), Res.ok_bind,
    chunkCountBy, if_pos hp]

theorem listChunkCountW_wraps {b : Nat} (E : Env) {t : Ty} {n : Nat} (hl : Legal t) (hp : packs t = true)
    (hs : fixedLen t < 2 ^ 32) (hb : 2 ^ b ≤ n * fixedLen t) :
    listChunkCountW b E (t.impl E) n =
      if E.debug then .panic else .ok ((n * fixedLen t % 2 ^ b + 31) / 32) := by
  unfold listChunkCountW
  rw [impl_sizeHint E t (packs_fits hp hl hs), Res.ok_bind, Target.mul,
    if_neg (by show ¬ _ < 2 ^ b; omega)]
  show ((if E.debug then Res.panic else .ok (n * fixedLen t % 2 ^ b)) >>= _) = _
  cases E.debug <;> rfl

/-- What is done with the chunks of a list. -/
theorem list_rootW (b : Nat) (E : Env) (t : Ty) (n : Nat) (vs : (Ty.list t n).Val) :
    (Ty.list t n).rootW b E vs =
      (assembleChunksW b E (t.impl E) (fun x => t.rootW b E x) vs >>= fun chunks =>
        (if (t.impl E).isCompositeType then merkleizeW b E chunks (some n)
        else (listChunkCountW b E (t.impl E) n).lift >>= fun count => merkleizeW b E chunks (some count)) >>=
        fun dataRoot => mixInDecoration E dataRoot (List.length vs)) := by
  rw [Ty.rootW]
  cases (t.impl E).isCompositeType with
  | true => rfl
  | false =>
    simp only [Bool.false_eq_true, if_false, Res.bind_assoc]

theorem list_rootW' (b : Nat) (E : Env) (t : Ty) (n : Nat) (vs : List t.Val) :
    (Ty.list t n).rootW b E vs =
      (assembleChunksW b E (t.impl E) (fun x => t.rootW b E x) vs >>= fun chunks =>
        (if (t.impl E).isCompositeType then merkleizeW b E chunks (some n)
        else (listChunkCountW b E (t.impl E) n).lift >>= fun count => merkleizeW b E chunks (some count)) >>=
        fun dataRoot => mixInDecoration E dataRoot vs.length) :=
  list_rootW b E t n vs

theorem list_htrW {b : Nat} (h32 : 32 ≤ b) (h64 : b ≤ 64) (E : Env) {t : Ty} {n : Nat} {vs : List t.Val}
    (hl : Legal t) (hs : elementW t)
    (hb : if packs t then n * fixedLen t < 2 ^ b else n ≤ 2 ^ (b - 1))
    (hv : ∀ v ∈ vs, Valid t v) (hh : heldW b t vs.length) (hn : vs.length ≤ n)
    (hr : ∀ v ∈ vs, t.rootW b E v = .ok ((treeBy packs t v).root E.sha256)) :
    (Ty.list t n).rootW b E vs =
      .ok ((MTree.node (full (depthFor (chunkCountBy packs t n)) (partsOf t vs))
        (numLeaf vs.length)).root E.sha256) := by
  obtain ⟨p1, p2⟩ := pow_parts h32
  have p3 := pow_le_64 h64
  have h1 := partsOf_length hv
  have h2 : chunkCountBy packs t vs.length ≤ chunkCountBy packs t n := chunkCountBy_le hn
  have h3 : vs.length < 2 ^ 64 := by have := hh.1; omega
  have hroot : (if (t.impl E).isCompositeType then
        merkleizeW b E (flat ((partsOf t vs).map (·.root E.sha256))) (some n)
      else (listChunkCountW b E (t.impl E) n).lift >>= fun count =>
        merkleizeW b E (flat ((partsOf t vs).map (·.root E.sha256))) (some count)) =
      .ok ((full (depthFor (chunkCountBy packs t n)) (partsOf t vs)).root E.sha256) := by
    rw [impl_isComposite]
    by_cases hp : packs t = true
    · rw [if_pos hp] at hb
      have h4 : chunkCountBy packs t n ≤ 2 ^ (b - 1) := by
        rw [chunkCountBy, if_pos hp]; omega
      simp only [hp, Bool.not_true, Bool.false_eq_true, if_false]
      rw [listChunkCountW_ok E hl hp (hs.2 hp) hb, Res.lift_ok, Res.ok_bind,
        merkleizeW_some_ok (by omega) h64 _ _ (by rw [List.length_map, h1]; exact h2) h4, full_root_eq]
    · rw [if_neg hp] at hb
      have h4 : chunkCountBy packs t n = n := by rw [chunkCountBy, if_neg hp]
      simp only [hp, Bool.not_false, if_true]
      rw [merkleizeW_some_ok (by omega) h64 _ _ (by rw [List.length_map, h1]; omega) hb, full_root_eq, h4]
  refine (list_rootW' b E t n vs).trans ?_
  rw [assembleChunksW_ok h32 E hl hs.2 hv hh hr, Res.ok_bind, hroot, Res.ok_bind,
    mixInDecoration_ok E h3]
  rfl

theorem list_huge_debugW {b : Nat} (h32 : 32 ≤ b) (E : Env) (hE : E.debug = true) {t : Ty}
    {n : Nat} {vs : List t.Val}
    (hl : Legal t) (hs : elementW t) (hv : ∀ v ∈ vs, Valid t v)
    (hh : heldW b t vs.length) (hn : HugeW b t n)
    (hr : ∀ v ∈ vs, t.rootW b E v = .ok ((treeBy packs t v).root E.sha256)) :
    (Ty.list t n).rootW b E vs = .panic := by
  obtain ⟨p1, p2⟩ := pow_parts h32
  have h1 := partsOf_length hv
  have h2 := heldW_chunks h32 hh
  refine (list_rootW' b E t n vs).trans ?_
  rw [assembleChunksW_ok h32 E hl hs.2 hv hh hr, Res.ok_bind, impl_isComposite]
  by_cases hp : packs t = true
  · rw [HugeW, if_pos hp] at hn
    simp only [hp, Bool.not_true, Bool.false_eq_true, if_false,
      listChunkCountW_wraps E hl hp (hs.2 hp) hn, hE]
    rfl
  · rw [HugeW, if_neg hp] at hn
    simp only [hp, Bool.not_false, if_true]
    rw [merkleizeW_huge_debug (by omega) E hE _ (by rw [List.length_map, h1]; omega) hn]
    rfl

theorem not_hugeW {b : Nat} {t : Ty} {n : Nat} (h : ¬ HugeW b t n) :
    if packs t then n * fixedLen t < 2 ^ b else n ≤ 2 ^ (b - 1) := by
  unfold HugeW at h
  split <;> rename_i hp
  · rw [if_pos hp] at h; omega
  · rw [if_neg hp] at h; omega

theorem countW_countF : ∀ fs : Fields, fs.countW = countF fs
  | .nil => rfl
  | .cons _ _ rest => congrArg (· + 1) (countW_countF rest)

theorem container_htrW {b : Nat} (h32 : 32 ≤ b) (h64 : b ≤ 64) (E : Env) {fs : Fields} {v : fs.Val}
    (hc : countF fs ≤ 2 ^ (b - 6))
    (h : fs.chunksW b E v 0 (List.replicate (fs.countW * 32) 0) =
      .ok (flat ((treesByF packs fs v).map (·.root E.sha256)))) :
    (Ty.container fs).rootW b E v =
      .ok ((full (depthFor (countF fs)) (treesByF packs fs v)).root E.sha256) := by
  obtain ⟨p1, p2⟩ := pow_parts h32
  show (fs.chunksW b E v 0 (List.replicate (fs.countW * 32) 0) >>= fun chunks => merkleizeW b E chunks none) = _
  have h1 := treesByF_length packs fs v
  rw [h, Res.ok_bind, merkleizeW_none_ok (by omega) h64 _ _ (by rw [List.length_map, h1]; omega),
    full_root_eq, List.length_map, h1]

mutual

theorem htrW_rooted {b : Nat} (h32 : 32 ≤ b) (h64 : b ≤ 64) (E : Env) : ∀ (t : Ty) (v : t.Val), Legal t → RangedW b t → Valid t v →
    InMemoryW b t v → Rooted E (OverflowsW b t v) (t.rootW b E v) (treeBy packs t v)
  | .uint u, v, _, _, _, _ =>
    ⟨fun _ => htr_ok E (.uint u) v trivial trivial trivial trivial, fun _ h => h.elim⟩
  | .u256, v, _, _, _, _ =>
    ⟨fun _ => htr_ok E .u256 v trivial trivial trivial trivial, fun _ h => h.elim⟩
  | .bool, v, _, _, _, _ =>
    ⟨fun _ => htr_ok E .bool v trivial trivial trivial trivial, fun _ h => h.elim⟩
  | .node, v, _, _, _, _ =>
    ⟨fun _ => htr_ok E .node v trivial trivial trivial trivial, fun _ h => h.elim⟩
  | .array t n, v, hl, hb, hv, hm =>
    ⟨fun ho => vector_htrW h32 h64 E hl.2 hb.2 hv hm.1 v.2 fun x hx =>
        (htrW_rooted h32 h64 E t x hl.2 hb.1 (hv x hx) (hm.2 x hx)).1 (not_any ho x hx),
      fun hE ho => by
        show (assembleChunksW b E (t.impl E) (fun x => t.rootW b E x) v.1 >>= fun chunks => merkleizeW b E chunks none) = _
        rw [assembleChunks_panicW h32 E hm.1 (fun x hx =>
          (htrW_rooted h32 h64 E t x hl.2 hb.1 (hv x hx) (hm.2 x hx)).both hE) ho]
        rfl⟩
  | .vector t n, v, hl, hb, hv, hm =>
    ⟨fun ho => vector_htrW h32 h64 E hl.2 hb.2 hv.2 hm.1 hv.1 fun x hx =>
        (htrW_rooted h32 h64 E t x hl.2 hb.1 (hv.2 x hx) (hm.2 x hx)).1 (not_any ho x hx),
      fun hE ho => by
        show (assembleChunksW b E (t.impl E) (fun x => t.rootW b E x) v >>= fun chunks => merkleizeW b E chunks none) = _
        rw [assembleChunks_panicW h32 E hm.1 (fun x hx =>
          (htrW_rooted h32 h64 E t x hl.2 hb.1 (hv.2 x hx) (hm.2 x hx)).both hE) ho]
        rfl⟩
  | .list t n, v, hl, hb, hv, hm => by
    have hr : ∀ x ∈ (show List t.Val from v), _ := fun x hx =>
      htrW_rooted h32 h64 E t x hl hb.1 (hv.2 x hx) (hm.2 x hx)
    refine ⟨fun ho => list_htrW h32 h64 E hl hb.2 (not_hugeW fun h => ho (.inl h)) hv.2 hm.1 hv.1 fun x hx =>
        (hr x hx).1 (not_any (fun h => ho (.inr h)) x hx), fun hE ho => ?_⟩
    by_cases ha : Any (OverflowsW b t) v
    · show (assembleChunksW b E (t.impl E) (fun x => t.rootW b E x) v >>= fun chunks => _) = _
      rw [assembleChunks_panicW h32 E hm.1 (fun x hx => (hr x hx).both hE) ha]
      rfl
    · exact list_huge_debugW h32 E hE hl hb.2 hv.2 hm.1 (ho.resolve_right ha) fun x hx =>
        (hr x hx).1 (not_any ha x hx)
  | .bitvector n, v, hl, hb, hv, _ => by
    refine ⟨fun _ => ?_, fun _ h => h.elim⟩
    show (Bitvector.packBits n v >>= fun chunks => merkleizeW b E chunks (some (bitsChunkCount n))) = _
    simp only [Valid] at hv
    simp only [RangedW] at hb
    obtain ⟨p1, p2⟩ := pow_parts h32
    rw [Bitvector.packBits_ok hl hv, Res.ok_bind, merkleizeW_some_ok (by omega) h64 E _
      (by rw [chunkify_bits_length, hv]; rfl) (by unfold bitsChunkCount; omega)]
    rw [← leaves_root E.sha256, full_root_eq]
    rfl
  | .bitlist n, v, hl, hb, hv, _ => by
    refine ⟨fun _ => ?_, fun _ h => h.elim⟩
    show (Bitlist.packBits n v >>= fun chunks => merkleizeW b E chunks (some (bitsChunkCount n)) >>=
      fun dataRoot => mixInDecoration E dataRoot v.len) = _
    obtain ⟨hv, hc⟩ := hv
    simp only [RangedW] at hb
    obtain ⟨p1, p2⟩ := pow_parts h32
    have p3 := pow_le_64 h64
    rw [Bitlist.packBits_ok hv hc, Res.ok_bind, merkleizeW_some_ok (by omega) h64 E _
      (by rw [chunkify_bits_length, bitsChunkCount]; omega) (by unfold bitsChunkCount; omega),
      Res.ok_bind, mixInDecoration_ok E (by simp only [Bits.len]; omega)]
    rw [← leaves_root E.sha256, full_root_eq]
    rfl
  | .option t, v, hl, hb, hv, hm => by
    match v with
    | none =>
      refine ⟨fun _ => ?_, fun _ ⟨_, h, _⟩ => nomatch h⟩
      show (toNode (List.replicate 32 0) >>= fun chunks => mixInDecoration E chunks 0) = _
      rw [show List.replicate 32 (0 : Byte) = zeroNode.1 by rfl, toNode_node, Res.ok_bind,
        mixInDecoration_ok E (by decide)]
      rfl
    | some x =>
      have hr := htrW_rooted h32 h64 E t x hl hb (hv x rfl) (hm x rfl)
      constructor
      · intro ho
        show (t.rootW b E x >>= fun node => toNode node.1 >>= fun chunks =>
          mixInDecoration E chunks 1) = _
        rw [hr.1 (fun h => ho ⟨x, rfl, h⟩), Res.ok_bind, toNode_node,
          Res.ok_bind, mixInDecoration_ok E (by decide)]
        rfl
      · rintro hE ⟨y, hy, ho⟩
        injection hy with hy
        subst hy
        show (t.rootW b E x >>= fun node => toNode node.1 >>= fun chunks =>
          mixInDecoration E chunks 1) = _
        rw [hr.2 hE ho]
        rfl
  | .newtype t, v, hl, hb, hv, hm => by
    have hr := htrW_rooted h32 h64 E t v hl hb hv hm
    constructor
    · intro ho
      show (t.rootW b E v >>= fun chunk =>
        copyInto (List.replicate (1 * 32) 0) (0 * 32) ((0 + 1) * 32) chunk.1 >>= fun chunks =>
        merkleizeW b E chunks none) = _
      rw [hr.1 ho, Res.ok_bind, ← flat_replicate,
        copyInto_flat (ns := List.replicate 1 zeroNode) (i := 0) ((treeBy packs t v).root E.sha256)
          (by simp) rfl rfl rfl, Res.ok_bind, merkleizeW_none_ok (by omega) h64 E _ (by simp; exact Nat.one_le_two_pow)]
      simp [depthFor, rootD, treeBy]
    · intro hE ho
      show (t.rootW b E v >>= fun chunk => _) = _
      rw [hr.2 hE ho]
      rfl
  | .container fs, v, hl, hb, hv, hm => by
    have hr := htrWF_rooted h32 h64 E fs v [] hl.2.2 hb.1 hv hm
    have e : fs.chunksW b E v 0 (List.replicate (fs.countW * 32) 0) = fs.chunksW b E v ([] : List Node).length
        (flat ([] ++ List.replicate (countF fs) zeroNode)) := by
      rw [countW_countF, ← flat_replicate]
      rfl
    refine ⟨fun ho => container_htrW h32 h64 E hb.2 (e.trans (hr.1 ho)), fun hE ho => ?_⟩
    show (fs.chunksW b E v 0 (List.replicate (fs.countW * 32) 0) >>= fun chunks => merkleizeW b E chunks none) = _
    rw [e, hr.2 hE ho]
    rfl
  | .union vs, v, hl, hb, hv, hm =>
    htrWV_rooted h32 h64 E vs 0 v hl.2 hb hv hm (unitOk_of_shape hl.1) (by
      obtain ⟨hs, -⟩ := hl
      cases vs with
      | nil => exact hs.elim
      | unit rest => obtain ⟨_, _, h⟩ := hs; simp only [countV]; omega
      | data t rest => obtain ⟨_, h⟩ := hs; simp only [countV]; omega)

theorem htrWF_rooted {b : Nat} (h32 : 32 ≤ b) (h64 : b ≤ 64) (E : Env) : ∀ (fs : Fields) (v : fs.Val) (pre : List Node), LegalF fs →
    RangedWF b fs → ValidF fs v → InMemoryWF b fs v →
    (¬ OverflowsWF b fs v →
      fs.chunksW b E v pre.length (flat (pre ++ List.replicate (countF fs) zeroNode)) =
        .ok (flat (pre ++ (treesByF packs fs v).map (·.root E.sha256)))) ∧
    (E.debug = true → OverflowsWF b fs v →
      fs.chunksW b E v pre.length (flat (pre ++ List.replicate (countF fs) zeroNode)) =
        .panic)
  | .nil, _, pre, _, _, _, _ =>
    ⟨fun _ => by simp [Fields.chunksW, countF, treesByF], fun _ h => h.elim⟩
  | .cons name t rest, v, pre, hl, hb, hv, hm => by
    have hr := htrW_rooted h32 h64 E t v.1 hl.1 hb.1 hv.1 hm.1
    have ih := htrWF_rooted h32 h64 E rest v.2 (pre ++ [(treeBy packs t v.1).root E.sha256]) hl.2 hb.2 hv.2 hm.2
    have step : ¬ OverflowsW b t v.1 → Fields.chunksW b E (.cons name t rest) v pre.length
        (flat (pre ++ List.replicate (countF (.cons name t rest)) zeroNode)) =
        rest.chunksW b E v.2 (pre ++ [(treeBy packs t v.1).root E.sha256]).length
          (flat ((pre ++ [(treeBy packs t v.1).root E.sha256]) ++
            List.replicate (countF rest) zeroNode)) := by
      intro ho
      show (t.rootW b E v.1 >>= fun chunk =>
        copyInto (flat (pre ++ List.replicate (countF rest + 1) zeroNode)) (pre.length * 32)
          ((pre.length + 1) * 32) chunk.1 >>= fun chunks' =>
        rest.chunksW b E v.2 (pre.length + 1) chunks') = _
      rw [hr.1 ho, Res.ok_bind,
        copyInto_flat (ns := pre ++ List.replicate (countF rest + 1) zeroNode) (i := pre.length)
          ((treeBy packs t v.1).root E.sha256) (by simp) rfl rfl rfl, Res.ok_bind]
      rw [List.set_append_right _ _ (Nat.le_refl _), Nat.sub_self,
        List.replicate_succ, List.set_cons_zero, List.length_append, List.length_singleton,
        List.append_assoc]
      rfl
    constructor
    · intro ho
      rw [step fun h => ho (.inl h), ih.1 fun h => ho (.inr h), List.append_assoc]
      rfl
    · intro hE ho
      by_cases h1 : OverflowsW b t v.1
      · show (t.rootW b E v.1 >>= fun chunk => _) = _
        rw [hr.2 hE h1]
        rfl
      · rw [step h1, ih.2 hE (ho.resolve_left h1)]

theorem htrWV_rooted {b : Nat} (h32 : 32 ≤ b) (h64 : b ≤ 64) (E : Env) : ∀ (vs : Variants) (i : Nat) (v : vs.Val), LegalV vs → RangedWV b vs →
    ValidV vs v → InMemoryWV b vs v → UnitOk i vs → i + countV vs < 2 ^ 64 →
    Rooted E (OverflowsWV b vs v) (vs.rootW b E i v) (treeByV packs vs i v)
  | .nil, _, v, _, _, _, _, _, _ => v.elim
  | .unit rest, i, .inl _, _, _, _, _, hu, _ => by
    obtain ⟨rfl, _⟩ := hu
    refine ⟨fun _ => ?_, fun _ h => h.elim⟩
    show mixInDecoration E zeroNode 0 = _
    rw [mixInDecoration_ok E (by decide)]
    rfl
  | .unit rest, i, .inr v, hl, hb, hv, hm, hu, hc =>
    htrWV_rooted h32 h64 E rest (i + 1) v hl hb hv hm (unitOk_of_noUnit hu.2)
      (by simp only [countV] at hc; omega)
  | .data t rest, i, .inl v, hl, hb, hv, hm, hu, hc => by
    have hr := htrW_rooted h32 h64 E t v hl.1 hb.1 hv hm
    constructor
    · intro ho
      show (t.rootW b E v >>= fun chunks => mixInDecoration E chunks i) = _
      rw [hr.1 ho, Res.ok_bind, mixInDecoration_ok E (by omega)]
      rfl
    · intro hE ho
      show (t.rootW b E v >>= fun chunks => mixInDecoration E chunks i) = _
      rw [hr.2 hE ho]
      rfl
  | .data t rest, i, .inr v, hl, hb, hv, hm, hu, hc =>
    htrWV_rooted h32 h64 E rest (i + 1) v hl.2 hb.2 hv hm (unitOk_of_noUnit hu)
      (by simp only [countV] at hc; omega)

end

/-! ## Without overflow checks -/

theorem trailingZerosAux_zero (f : Nat) : trailingZerosAux f 0 = f := by
  induction f with
  | zero => rfl
  | succ f ih => rw [trailingZerosAux, if_neg (by decide), Nat.zero_div, ih]; omega

/-- Without overflow checks, a limit above `2^(b-1)` gives the root of a tree of depth `b-1` over the
first half of the chunks, padded with roots of pairs of zero chunks. -/
theorem merkleizeW_huge_release {b : Nat} (hb : 0 < b) (h64 : b ≤ 64) (E : Env) (hE : E.debug = false)
    (ns : List Node) {l : Nat} (hn : ns.length ≤ 2 ^ (b - 1)) (h0 : ns ≠ []) (hl : 2 ^ (b - 1) < l) :
    merkleizeW b E (flat ns) (some l) =
      .ok (rootD E.sha256 (zeroRoot E.sha256 1) (b - 1) (ns.take ((ns.length + 1) / 2))) := by
  have h32 : 32 * ns.length / 32 = ns.length := by omega
  have hm : ((flat ns).length % 32 == 0) = true := by rw [flat_length]; simp
  have hpos : 0 < ns.length := List.length_pos_iff.mpr h0
  have h5 : (E.on b).trailingZeros 0 = b := trailingZerosAux_zero b
  rw [merkleizeW, hm, Env.debugAssert_true, Res.lift_ok, Res.ok_bind]
  simp only [flat_length, h32]
  rw [nextW_ok hb hn, Res.lift_ok, Res.ok_bind, if_neg (by omega), nextW_overflow hb hl, hE]
  simp only [Bool.false_eq_true, if_false, Res.lift_ok, Res.ok_bind,
    merkleizeChunksWithVirtualPaddingW, hE, h5, Env.debugAssert, Bool.false_and, flat_length, h32]
  rw [if_neg (by omega)]
  obtain ⟨ns', h1, h2, h3⟩ := layersLoop_ok E b (b - 1) ((ns.length - 1) / 2) ns (by omega) (by omega)
    h64 (by omega) (by omega)
  have h6 : layersLoopW b E (b + 1) b (ns.length - 1) (flat ns) = .ok (flat ns') := by
    obtain ⟨c, rfl⟩ : ∃ c, b = c + 1 := ⟨b - 1, by omega⟩
    rw [layersLoopW, Target.pow2, if_neg (by show ¬ c + 1 < c + 1; omega)]
    show ((if E.debug then Res.panic else .ok 0 : Calc Nat).lift >>= _) = _
    rw [hE]
    simp only [Bool.false_eq_true, if_false, Res.lift_ok, Res.ok_bind]
    rw [layerLoop, dif_neg (by decide), Res.ok_bind, layersLoopW_eq E h64 _ _ _ _ (by omega)]
    exact h1
  show (layersLoopW b E (b + 1) b (ns.length - 1) (flat ns) >>= fun layer => slice layer 0 32 >>=
    fun root => toNode root) = _
  rw [h6, Res.ok_bind, slice_flat (i := 0) (by rw [← List.head?_eq_getElem?]; exact h3) rfl rfl,
    Res.ok_bind, toNode_node, show (ns.length - 1) / 2 + 1 = (ns.length + 1) / 2 by omega,
    show b - (b - 1) = 1 by omega]

/-- The root of a list with a limit above `2^(b-1)`, without overflow checks. -/
theorem list_huge_releaseW {b : Nat} (h32 : 32 ≤ b) (h64 : b ≤ 64) (E : Env) (hE : E.debug = false)
    {t : Ty} {n : Nat} {vs : List t.Val}
    (hl : Legal t) (hp : packs t = false) (hv : ∀ v ∈ vs, Valid t v) (hh : heldW b t vs.length)
    (h0 : vs ≠ []) (hn : 2 ^ (b - 1) < n)
    (hr : ∀ v ∈ vs, t.rootW b E v = .ok ((treeBy packs t v).root E.sha256)) :
    (Ty.list t n).rootW b E vs =
      .ok (E.sha256 ((rootD E.sha256 (zeroRoot E.sha256 1) (b - 1)
        ((vs.take ((vs.length + 1) / 2)).map fun v => (treeBy packs t v).root E.sha256)).1 ++
        ((numLeaf vs.length).root E.sha256).1)) := by
  have hlen := hh.1
  obtain ⟨p1, p2⟩ := pow_parts h32
  have p3 := pow_le_64 h64
  have hs : packs t = true → fixedLen t < 2 ^ 32 := fun h => by rw [hp] at h; cases h
  refine (list_rootW' b E t n vs).trans ?_
  rw [assembleChunksW_ok h32 E hl hs hv hh hr, Res.ok_bind, impl_isComposite]
  have e : partsOf t vs = vs.map (treeBy packs t) := by simp [partsOf, hp]
  simp only [hp, Bool.not_false, if_true]
  rw [merkleizeW_huge_release (by omega) h64 E hE _ (by rw [e]; simp; omega) (by rw [e]; simpa using h0) hn,
    Res.ok_bind, mixInDecoration_ok E (by omega), e]
  simp only [List.length_map, List.map_map, ← List.map_take]
  rfl

/-- Without overflow checks, the limit of a list of packed elements counts modulo `2^b` bytes. -/
theorem list_aliasedW {b : Nat} (E : Env) (hE : E.debug = false) {t : Ty} {n m : Nat} (vs : List t.Val)
    (hl : Legal t) (hp : packs t = true) (hs : fixedLen t < 2 ^ 32)
    (hnm : n * fixedLen t % 2 ^ b = m * fixedLen t % 2 ^ b) :
    (Ty.list t n).rootW b E vs = (Ty.list t m).rootW b E vs := by
  have key : ∀ k, listChunkCountW b E (t.impl E) k = .ok ((k * fixedLen t % 2 ^ b + 31) / 32) := fun k => by
    by_cases h : k * fixedLen t < 2 ^ b
    · rw [listChunkCountW_ok E hl hp hs h, Nat.mod_eq_of_lt h, chunkCountBy, if_pos hp]
    · rw [listChunkCountW_wraps E hl hp hs (by omega), hE]
      rfl
  refine (list_rootW' b E t n vs).trans (Eq.trans ?_ (list_rootW' b E t m vs).symm)
  rw [impl_isComposite, hp]
  simp only [Bool.not_true, Bool.false_eq_true, if_false, key, hnm]

end Ssz
