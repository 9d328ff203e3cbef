import Verif.Spec.Overflow
import Verif.Proofs.Root

/-!
# Roots of values with lists whose limit is out of range
-/

namespace Ssz

open Spec

theorem packs_no_overflow : ∀ {t : Ty} (v : t.Val), packs t = true → ¬ Overflows t v
  | .uint _, _, _ => fun h => h
  | .u256, _, _ => fun h => h
  | .bool, _, _ => fun h => h
  | .node, _, _ => fun h => h
  | .array t _, _, h => fun ⟨x, _, hx⟩ => packs_no_overflow (t := t) x h hx

/-- If the result of every element is `ok` or a panic, and one of them is a panic, the loop panics. -/
theorem elementsLoop_panic {α : Type} {f : α → Res MerkError Node} {r : α → Node}
    (xs : List α) (pre : List Node) (h : ∀ x ∈ xs, f x = .ok (r x) ∨ f x = .panic)
    (hp : ∃ x ∈ xs, f x = .panic) :
    elementsToChunksLoop f pre.length xs (flat (pre ++ List.replicate xs.length zeroNode)) = .panic := by
  induction xs generalizing pre with
  | nil => obtain ⟨_, hx, _⟩ := hp; cases hx
  | cons x xs ih =>
    rcases h x (by simp) with hx | hx
    · rw [elementsToChunksLoop, hx, Res.ok_bind,
        copyInto_flat (ns := pre ++ List.replicate (x :: xs).length zeroNode) (i := pre.length) (r x)
          (by simp) rfl rfl rfl, Res.ok_bind]
      have hp' : ∃ x ∈ xs, f x = .panic := by
        obtain ⟨y, hy, hpy⟩ := hp
        rcases List.mem_cons.mp hy with rfl | hy
        · rw [hx] at hpy; cases hpy
        · exact ⟨y, hy, hpy⟩
      have := ih (pre ++ [r x]) (fun y hy => h y (by simp [hy])) hp'
      rw [List.length_append, List.length_singleton, List.append_assoc] at this
      rw [List.set_append_right _ _ (Nat.le_refl _), Nat.sub_self, List.length_cons,
        List.replicate_succ, List.set_cons_zero]
      exact this
    · rw [elementsToChunksLoop, hx, Res.panic_bind]

/-- The chunks of a collection: right if no element overflows, a panic otherwise (with overflow
checks). -/
theorem assembleChunks_panic (E : Env) {t : Ty} {vs : List t.Val} (hh : held t vs.length)
    (h : ∀ v ∈ vs, (¬ Overflows t v →
        (t.impl E).hashTreeRoot v = .ok ((treeBy packs t v).root E.sha256)) ∧
      (Overflows t v → (t.impl E).hashTreeRoot v = .panic))
    (ho : Any (Overflows t) vs) : assembleChunks E (t.impl E) vs = .panic := by
  obtain ⟨x, hx, hxo⟩ := ho
  have hp : packs t = false := by
    cases hp : packs t with
    | false => rfl
    | true => exact absurd hxo (packs_no_overflow x hp)
  unfold assembleChunks
  rw [impl_isComposite, hp]
  simp only [Bool.not_false, if_true, elementsToChunks]
  have h0 := hh.1
  have h1 : vs.length * 32 < usizeMod := by simp only [usizeMod]; omega
  have h2 : vs.length * 32 < isizeMax1 := by simp only [isizeMax1]; omega
  rw [Env.mul_eq_ok h1, Res.lift_ok, Res.ok_bind, zeros, if_pos h2, Res.ok_bind, ← flat_replicate]
  refine elementsLoop_panic vs [] (r := fun v => (treeBy packs t v).root E.sha256) (fun v hv => ?_)
    ⟨x, hx, (h x hx).2 hxo⟩
  by_cases hov : Overflows t v
  · exact .inr ((h v hv).2 hov)
  · exact .inl ((h v hv).1 hov)

/-- With overflow checks, a limit above `2^63` panics. -/
theorem merkleize_huge_debug (E : Env) (hE : E.debug = true) (ns : List Node) {l : Nat}
    (hn : ns.length ≤ 2 ^ 63) (hl : 2 ^ 63 < l) : merkleize E (flat ns) (some l) = .panic := by
  have h32 : 32 * ns.length / 32 = ns.length := by omega
  have hm : ((flat ns).length % 32 == 0) = true := by rw [flat_length]; simp
  rw [merkleize, hm, Env.debugAssert_true, Res.lift_ok, Res.ok_bind]
  simp only [flat_length, h32]
  rw [nextPowerOfTwo_ok hn, Res.lift_ok, Res.ok_bind, if_neg (by omega), nextPowerOfTwo_overflow hl,
    hE]
  rfl

theorem list_huge_debug (E : Env) (hE : E.debug = true) {t : Ty} {n : Nat} {vs : List t.Val}
    (hl : Legal t) (hs : packs t = true → fixedLen t < 2 ^ 32) (hv : ∀ v ∈ vs, Valid t v)
    (hh : held t vs.length) (hn : Huge t n)
    (hr : ∀ v ∈ vs, (t.impl E).hashTreeRoot v = .ok ((treeBy packs t v).root E.sha256)) :
    (SimpleSerialize.list E (t.impl E) n).hashTreeRoot vs = .panic := by
  have h1 := partsOf_length hv
  have h2 := held_chunks hh
  simp only [SimpleSerialize.list]
  rw [assembleChunks_ok E hl hs hv hh hr, Res.ok_bind, impl_isComposite]
  by_cases hp : packs t = true
  · rw [Huge, if_pos hp] at hn
    have h3 : listChunkCount E (t.impl E) n = .panic := by
      unfold listChunkCount
      rw [impl_sizeHint E t (packs_fits hp hl (hs hp)), Res.ok_bind, Env.mul,
        if_neg (by simp only [usizeMod]; omega), hE]
      rfl
    simp only [hp, Bool.not_true, Bool.false_eq_true, if_false, h3]
    rfl
  · rw [Huge, if_neg hp] at hn
    simp only [hp, Bool.not_false, if_true]
    rw [merkleize_huge_debug E hE _ (by rw [List.length_map, h1]; omega) hn]
    rfl

theorem not_huge {t : Ty} {n : Nat} (h : ¬ Huge t n) :
    if packs t then n * fixedLen t < 2 ^ 64 else n ≤ 2 ^ 63 := by
  unfold Huge at h
  split <;> rename_i hp
  · rw [if_pos hp] at h; omega
  · rw [if_neg hp] at h; omega

theorem not_any {α : Type} {P : α → Prop} {l : List α} (h : ¬ Any P l) : ∀ x ∈ l, ¬ P x :=
  fun x hx hp => h ⟨x, hx, hp⟩

/-- What the root of a value is: right if no list in it overflows; a panic otherwise, with overflow
checks. -/
def Rooted (E : Env) (o : Prop) (res : Res MerkError Node) (tree : MTree) : Prop :=
  (¬ o → res = .ok (tree.root E.sha256)) ∧ (E.debug = true → o → res = .panic)

theorem Rooted.both {E : Env} (hE : E.debug = true) {o : Prop} {res : Res MerkError Node} {tree : MTree}
    (h : Rooted E o res tree) : (¬ o → res = .ok (tree.root E.sha256)) ∧ (o → res = .panic) :=
  ⟨h.1, h.2 hE⟩

mutual

theorem htr_rooted (E : Env) : ∀ (t : Ty) (v : t.Val), Legal t → Ranged t → Valid t v →
    InMemory t v → Rooted E (Overflows t v) ((t.impl E).hashTreeRoot v) (treeBy packs t v)
  | .uint u, v, _, _, _, _ =>
    ⟨fun _ => htr_ok E (.uint u) v trivial trivial trivial trivial, fun _ h => h.elim⟩
  | .u256, v, _, _, _, _ =>
    ⟨fun _ => htr_ok E .u256 v trivial trivial trivial trivial, fun _ h => h.elim⟩
  | .bool, v, _, _, _, _ =>
    ⟨fun _ => htr_ok E .bool v trivial trivial trivial trivial, fun _ h => h.elim⟩
  | .node, v, _, _, _, _ =>
    ⟨fun _ => htr_ok E .node v trivial trivial trivial trivial, fun _ h => h.elim⟩
  | .array t n, v, hl, hb, hv, hm =>
    ⟨fun ho => vector_htr E hl.2 hb.2 hv hm.1 v.2 fun x hx =>
        (htr_rooted E t x hl.2 hb.1 (hv x hx) (hm.2 x hx)).1 (not_any ho x hx),
      fun hE ho => by
        show (assembleChunks E (t.impl E) v.1 >>= fun chunks => merkleize E chunks none) = _
        rw [assembleChunks_panic E hm.1 (fun x hx =>
          (htr_rooted E t x hl.2 hb.1 (hv x hx) (hm.2 x hx)).both hE) ho]
        rfl⟩
  | .vector t n, v, hl, hb, hv, hm =>
    ⟨fun ho => vector_htr E hl.2 hb.2 hv.2 hm.1 hv.1 fun x hx =>
        (htr_rooted E t x hl.2 hb.1 (hv.2 x hx) (hm.2 x hx)).1 (not_any ho x hx),
      fun hE ho => by
        show (assembleChunks E (t.impl E) v >>= fun chunks => merkleize E chunks none) = _
        rw [assembleChunks_panic E hm.1 (fun x hx =>
          (htr_rooted E t x hl.2 hb.1 (hv.2 x hx) (hm.2 x hx)).both hE) ho]
        rfl⟩
  | .list t n, v, hl, hb, hv, hm => by
    have hr : ∀ x ∈ (show List t.Val from v), _ := fun x hx =>
      htr_rooted E t x hl hb.1 (hv.2 x hx) (hm.2 x hx)
    refine ⟨fun ho => list_htr E hl hb.2 (not_huge fun h => ho (.inl h)) hv.2 hm.1 hv.1 fun x hx =>
        (hr x hx).1 (not_any (fun h => ho (.inr h)) x hx), fun hE ho => ?_⟩
    by_cases ha : Any (Overflows t) v
    · show (assembleChunks E (t.impl E) v >>= fun chunks => _) = _
      rw [assembleChunks_panic E hm.1 (fun x hx => (hr x hx).both hE) ha]
      rfl
    · exact list_huge_debug E hE hl hb.2 hv.2 hm.1 (ho.resolve_right ha) fun x hx =>
        (hr x hx).1 (not_any ha x hx)
  | .bitvector n, v, hl, hb, hv, hm =>
    ⟨fun _ => htr_ok E (.bitvector n) v hl hb hv hm, fun _ h => h.elim⟩
  | .bitlist n, v, hl, hb, hv, hm =>
    ⟨fun _ => htr_ok E (.bitlist n) v hl hb hv hm, fun _ h => h.elim⟩
  | .option t, v, hl, hb, hv, hm => by
    match v with
    | none =>
      refine ⟨fun _ => ?_, fun _ ⟨_, h, _⟩ => nomatch h⟩
      show (toNode (List.replicate 32 0) >>= fun chunks => mixInDecoration E chunks 0) = _
      rw [show List.replicate 32 (0 : Byte) = zeroNode.1 by rfl, toNode_node, Res.ok_bind,
        mixInDecoration_ok E (by decide)]
      rfl
    | some x =>
      have hr := htr_rooted E t x hl hb (hv x rfl) (hm x rfl)
      constructor
      · intro ho
        show (((t.impl E).hashTreeRoot x).map (·.1) >>= fun bytes => toNode bytes >>= fun chunks =>
          mixInDecoration E chunks 1) = _
        rw [hr.1 (fun h => ho ⟨x, rfl, h⟩), Res.map_ok, Res.ok_bind, toNode_node,
          Res.ok_bind, mixInDecoration_ok E (by decide)]
        rfl
      · rintro hE ⟨y, hy, ho⟩
        injection hy with hy
        subst hy
        show (((t.impl E).hashTreeRoot x).map (·.1) >>= fun bytes => toNode bytes >>= fun chunks =>
          mixInDecoration E chunks 1) = _
        rw [hr.2 hE ho]
        rfl
  | .newtype t, v, hl, hb, hv, hm => by
    have hr := htr_rooted E t v hl hb hv hm
    constructor
    · intro ho
      show ((t.impl E).hashTreeRoot v >>= fun chunk =>
        copyInto (List.replicate (1 * 32) 0) (0 * 32) ((0 + 1) * 32) chunk.1 >>= fun chunks =>
        merkleize E chunks none) = _
      rw [hr.1 ho, Res.ok_bind, ← flat_replicate,
        copyInto_flat (ns := List.replicate 1 zeroNode) (i := 0) ((treeBy packs t v).root E.sha256)
          (by simp) rfl rfl rfl, Res.ok_bind, merkleize_none_ok _ _ (by simp)]
      simp [depthFor, rootD, treeBy]
    · intro hE ho
      show ((t.impl E).hashTreeRoot v >>= fun chunk => _) = _
      rw [hr.2 hE ho]
      rfl
  | .container fs, v, hl, hb, hv, hm => by
    have hr := htrF_rooted E fs v [] hl.2.2 hb.1 hv hm
    have e : (fs.impls E).assembleChunks v = (fs.impls E).assembleLoop v ([] : List Node).length
        (flat ([] ++ List.replicate (countF fs) zeroNode)) := by
      unfold FieldImpls.assembleChunks
      rw [count_impls, ← flat_replicate]
      rfl
    refine ⟨fun ho => container_htr E hb.2 (e.trans (hr.1 ho)), fun hE ho => ?_⟩
    show ((fs.impls E).assembleChunks v >>= fun chunks => merkleize E chunks none) = _
    rw [e, hr.2 hE ho]
    rfl
  | .union vs, v, hl, hb, hv, hm =>
    htrV_rooted E vs 0 v hl.2 hb hv hm (unitOk_of_shape hl.1) (by
      obtain ⟨hs, -⟩ := hl
      cases vs with
      | nil => exact hs.elim
      | unit rest => obtain ⟨_, _, h⟩ := hs; simp only [countV]; omega
      | data t rest => obtain ⟨_, h⟩ := hs; simp only [countV]; omega)

theorem htrF_rooted (E : Env) : ∀ (fs : Fields) (v : fs.Val) (pre : List Node), LegalF fs →
    RangedF fs → ValidF fs v → InMemoryF fs v →
    (¬ OverflowsF fs v →
      (fs.impls E).assembleLoop v pre.length (flat (pre ++ List.replicate (countF fs) zeroNode)) =
        .ok (flat (pre ++ (treesByF packs fs v).map (·.root E.sha256)))) ∧
    (E.debug = true → OverflowsF fs v →
      (fs.impls E).assembleLoop v pre.length (flat (pre ++ List.replicate (countF fs) zeroNode)) =
        .panic)
  | .nil, _, pre, _, _, _, _ =>
    ⟨fun _ => by simp [Fields.impls, FieldImpls.assembleLoop, countF, treesByF], fun _ h => h.elim⟩
  | .cons name t rest, v, pre, hl, hb, hv, hm => by
    have hr := htr_rooted E t v.1 hl.1 hb.1 hv.1 hm.1
    have ih := htrF_rooted E rest v.2 (pre ++ [(treeBy packs t v.1).root E.sha256]) hl.2 hb.2 hv.2 hm.2
    have step : ¬ Overflows t v.1 → (Fields.impls E (.cons name t rest)).assembleLoop v pre.length
        (flat (pre ++ List.replicate (countF (.cons name t rest)) zeroNode)) =
        (rest.impls E).assembleLoop v.2 (pre ++ [(treeBy packs t v.1).root E.sha256]).length
          (flat ((pre ++ [(treeBy packs t v.1).root E.sha256]) ++
            List.replicate (countF rest) zeroNode)) := by
      intro ho
      show ((t.impl E).hashTreeRoot v.1 >>= fun chunk =>
        copyInto (flat (pre ++ List.replicate (countF rest + 1) zeroNode)) (pre.length * 32)
          ((pre.length + 1) * 32) chunk.1 >>= fun chunks' =>
        (rest.impls E).assembleLoop v.2 (pre.length + 1) chunks') = _
      rw [hr.1 ho, Res.ok_bind,
        copyInto_flat (ns := pre ++ List.replicate (countF rest + 1) zeroNode) (i := pre.length)
          ((treeBy packs t v.1).root E.sha256) (by simp) rfl rfl rfl, Res.ok_bind]
      rw [List.set_append_right _ _ (Nat.le_refl _), Nat.sub_self,
        List.replicate_succ, List.set_cons_zero, List.length_append, List.length_singleton,
        List.append_assoc]
      rfl
    constructor
    · intro ho
      rw [step fun h => ho (.inl h), ih.1 fun h => ho (.inr h), List.append_assoc]
      rfl
    · intro hE ho
      by_cases h1 : Overflows t v.1
      · show ((t.impl E).hashTreeRoot v.1 >>= fun chunk => _) = _
        rw [hr.2 hE h1]
        rfl
      · rw [step h1, ih.2 hE (ho.resolve_left h1)]

theorem htrV_rooted (E : Env) : ∀ (vs : Variants) (i : Nat) (v : vs.Val), LegalV vs → RangedV vs →
    ValidV vs v → InMemoryV vs v → UnitOk i vs → i + countV vs < 2 ^ 64 →
    Rooted E (OverflowsV vs v) ((vs.impls E).hashTreeRoot E i v) (treeByV packs vs i v)
  | .nil, _, v, _, _, _, _, _, _ => v.elim
  | .unit rest, i, .inl _, _, _, _, _, hu, _ => by
    obtain ⟨rfl, _⟩ := hu
    refine ⟨fun _ => ?_, fun _ h => h.elim⟩
    show mixInDecoration E zeroNode 0 = _
    rw [mixInDecoration_ok E (by decide)]
    rfl
  | .unit rest, i, .inr v, hl, hb, hv, hm, hu, hc =>
    htrV_rooted E rest (i + 1) v hl hb hv hm (unitOk_of_noUnit hu.2)
      (by simp only [countV] at hc; omega)
  | .data t rest, i, .inl v, hl, hb, hv, hm, hu, hc => by
    have hr := htr_rooted E t v hl.1 hb.1 hv hm
    constructor
    · intro ho
      show ((t.impl E).hashTreeRoot v >>= fun chunks => mixInDecoration E chunks i) = _
      rw [hr.1 ho, Res.ok_bind, mixInDecoration_ok E (by omega)]
      rfl
    · intro hE ho
      show ((t.impl E).hashTreeRoot v >>= fun chunks => mixInDecoration E chunks i) = _
      rw [hr.2 hE ho]
      rfl
  | .data t rest, i, .inr v, hl, hb, hv, hm, hu, hc =>
    htrV_rooted E rest (i + 1) v hl.2 hb.2 hv hm (unitOk_of_noUnit hu)
      (by simp only [countV] at hc; omega)

end

mutual

/-- Types with bounds in the supported range have no overflowing values. -/
theorem bounded_ranged : ∀ (t : Ty), Bounded t → Ranged t ∧ ∀ v : t.Val, ¬ Overflows t v
  | .uint _, _ => ⟨trivial, fun _ h => h⟩
  | .u256, _ => ⟨trivial, fun _ h => h⟩
  | .bool, _ => ⟨trivial, fun _ h => h⟩
  | .node, _ => ⟨trivial, fun _ h => h⟩
  | .array t _, hb => by
    have h := bounded_ranged t hb.1
    exact ⟨⟨h.1, hb.2⟩, fun _ ⟨x, _, hx⟩ => h.2 x hx⟩
  | .vector t _, hb => by
    have h := bounded_ranged t hb.1
    exact ⟨⟨h.1, hb.2⟩, fun _ ⟨x, _, hx⟩ => h.2 x hx⟩
  | .list t n, hb => by
    have h := bounded_ranged t hb.1
    refine ⟨⟨h.1, hb.2.1⟩, fun _ ho => ?_⟩
    rcases ho with ho | ⟨x, _, hx⟩
    · have hb := hb.2.2
      unfold Huge at ho
      split at ho <;> rename_i hp
      · rw [if_pos hp] at hb; omega
      · rw [if_neg hp] at hb; omega
    · exact h.2 x hx
  | .bitvector _, hb => ⟨hb, fun _ h => h⟩
  | .bitlist _, hb => ⟨hb, fun _ h => h⟩
  | .option t, hb => by
    have h := bounded_ranged t hb
    exact ⟨h.1, fun _ ⟨x, _, hx⟩ => h.2 x hx⟩
  | .newtype t, hb => bounded_ranged t hb
  | .container fs, hb => by
    have h := boundedF_ranged fs hb.1
    exact ⟨⟨h.1, hb.2⟩, h.2⟩
  | .union vs, hb => boundedV_ranged vs hb

theorem boundedF_ranged : ∀ (fs : Fields), BoundedF fs → RangedF fs ∧ ∀ v : fs.Val, ¬ OverflowsF fs v
  | .nil, _ => ⟨trivial, fun _ h => h⟩
  | .cons _ t rest, hb => by
    have h := bounded_ranged t hb.1
    have h' := boundedF_ranged rest hb.2
    exact ⟨⟨h.1, h'.1⟩, fun v ho => ho.elim (h.2 v.1) (h'.2 v.2)⟩

theorem boundedV_ranged : ∀ (vs : Variants), BoundedV vs → RangedV vs ∧ ∀ v : vs.Val, ¬ OverflowsV vs v
  | .nil, _ => ⟨trivial, fun v => v.elim⟩
  | .unit rest, hb => by
    have h := boundedV_ranged rest hb
    refine ⟨h.1, fun v ho => ?_⟩
    match v with
    | .inl _ => exact ho
    | .inr v => exact h.2 v ho
  | .data t rest, hb => by
    have h := bounded_ranged t hb.1
    have h' := boundedV_ranged rest hb.2
    refine ⟨⟨h.1, h'.1⟩, fun v ho => ?_⟩
    match v with
    | .inl v => exact h.2 v ho
    | .inr v => exact h'.2 v ho

end

/-! ## Without overflow checks -/

/-- Without overflow checks, a limit above `2^63` gives the root of a tree of depth 63 over the first
half of the chunks, padded with roots of pairs of zero chunks. -/
theorem merkleize_huge_release (E : Env) (hE : E.debug = false) (ns : List Node) {l : Nat}
    (hn : ns.length ≤ 2 ^ 63) (h0 : ns ≠ []) (hl : 2 ^ 63 < l) :
    merkleize E (flat ns) (some l) =
      .ok (rootD E.sha256 (zeroRoot E.sha256 1) 63 (ns.take ((ns.length + 1) / 2))) := by
  have h32 : 32 * ns.length / 32 = ns.length := by omega
  have hm : ((flat ns).length % 32 == 0) = true := by rw [flat_length]; simp
  have hpos : 0 < ns.length := List.length_pos_iff.mpr h0
  have h5 : trailingZeros 0 = 64 := by decide
  rw [merkleize, hm, Env.debugAssert_true, Res.lift_ok, Res.ok_bind]
  simp only [flat_length, h32]
  rw [nextPowerOfTwo_ok hn, Res.lift_ok, Res.ok_bind, if_neg (by omega), nextPowerOfTwo_overflow hl,
    hE]
  simp only [Bool.false_eq_true, if_false, Res.lift_ok, Res.ok_bind,
    merkleizeChunksWithVirtualPadding, hE, h5, Env.debugAssert, Bool.false_and, flat_length, h32]
  rw [if_neg (by omega)]
  obtain ⟨ns', h1, h2, h3⟩ := layersLoop_ok E 64 63 ((ns.length - 1) / 2) ns (by decide) (by decide)
    (by decide) (by omega) (by omega)
  have h6 : layersLoop E 65 64 (ns.length - 1) (flat ns) = .ok (flat ns') := by
    rw [layersLoop, Env.pow2, if_neg (by decide), hE]
    simp only [Bool.false_eq_true, if_false, Res.lift_ok, Res.ok_bind]
    rw [layerLoop, dif_neg (by decide), Res.ok_bind]
    exact h1
  show (layersLoop E 65 64 (ns.length - 1) (flat ns) >>= fun layer => slice layer 0 32 >>= fun root =>
    toNode root) = _
  rw [h6, Res.ok_bind, slice_flat (i := 0) (by rw [← List.head?_eq_getElem?]; exact h3) rfl rfl,
    Res.ok_bind, toNode_node, show (ns.length - 1) / 2 + 1 = (ns.length + 1) / 2 by omega]

/-- A limit above `2^63` panics without chunks. -/
theorem merkleize_huge_nil (E : Env) {l : Nat} (hl : 2 ^ 63 < l) :
    merkleize E [] (some l) = .panic := by
  cases hE : E.debug with
  | true => exact merkleize_huge_debug E hE [] (by simp) hl
  | false =>
    have h3 : E.debugAssert (List.length ([] : Bytes) % 32 == 0) = .ok () := by simp
    have h4 : E.nextPowerOfTwo (List.length ([] : Bytes) / 32) = .ok 1 := by
      rw [nextPowerOfTwo_ok (by simp)]; simp [depthFor]
    simp only [merkleize, h3, h4, Res.lift_ok, Res.ok_bind, nextPowerOfTwo_overflow hl]
    rw [if_neg (by simp), hE]
    have h5 : trailingZeros 0 = 64 := by decide
    simp only [Bool.false_eq_true, if_false, Res.lift_ok, Res.ok_bind,
      merkleizeChunksWithVirtualPadding, hE, h5, Env.debugAssert, Bool.false_and]
    rw [if_pos (by simp), contextIndex_panic E (by decide)]
    rfl

/-- The root of a list with a limit above `2^63`, without overflow checks. -/
theorem list_huge_release (E : Env) (hE : E.debug = false) {t : Ty} {n : Nat} {vs : List t.Val}
    (hl : Legal t) (hp : packs t = false) (hv : ∀ v ∈ vs, Valid t v) (hh : held t vs.length)
    (h0 : vs ≠ []) (hn : 2 ^ 63 < n)
    (hr : ∀ v ∈ vs, (t.impl E).hashTreeRoot v = .ok ((treeBy packs t v).root E.sha256)) :
    (SimpleSerialize.list E (t.impl E) n).hashTreeRoot vs =
      .ok (E.sha256 ((rootD E.sha256 (zeroRoot E.sha256 1) 63
        ((vs.take ((vs.length + 1) / 2)).map fun v => (treeBy packs t v).root E.sha256)).1 ++
        ((numLeaf vs.length).root E.sha256).1)) := by
  have hlen := hh.1
  have hs : packs t = true → fixedLen t < 2 ^ 32 := fun h => by rw [hp] at h; cases h
  simp only [SimpleSerialize.list]
  rw [assembleChunks_ok E hl hs hv hh hr, Res.ok_bind, impl_isComposite]
  have e : partsOf t vs = vs.map (treeBy packs t) := by simp [partsOf, hp]
  simp only [hp, Bool.not_false, if_true]
  rw [merkleize_huge_release E hE _ (by rw [e]; simp; omega) (by rw [e]; simpa using h0) hn,
    Res.ok_bind, mixInDecoration_ok E (by omega), e]
  simp only [List.length_map, List.map_map, ← List.map_take]
  rfl

end Ssz
