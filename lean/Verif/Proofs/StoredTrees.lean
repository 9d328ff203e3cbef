import Verif.Proofs.Stored
import Verif.Proofs.Prove
import Verif.Proofs.PathTree

/-!
# The prover on values whose `Bitlist`s have any unused storage bits
-/

namespace Ssz

open Spec

theorem raw_inner {E : Env} {t : Ty} {n : Nat} {vs : List t.Val} (hn : vs.length ≤ n)
    (ih : ∀ x ∈ vs, HasParts E (t.impl E) x (rawTree t x)) (i : Nat) (s : MTree)
    (hs : (rawParts t vs)[i]? = some s) :
    (∃ n, s = .leaf n) ∨ ProvesBy E (collectionProveElement E (t.impl E) n vs i) s := by
  cases hk : packs t with
  | true =>
    rw [rawParts, if_pos hk] at hs
    exact Or.inl (leaves_leaf hs)
  | false =>
    rw [rawParts, if_neg (by simp [hk]), List.getElem?_map, Option.map_eq_some_iff] at hs
    obtain ⟨x, hx, rfl⟩ := hs
    have hi : i < n := by
      by_contra hc
      rw [List.getElem?_eq_none (by omega)] at hx; cases hx
    refine Or.inr fun pr u hu hg => ?_
    rw [collectionProveElement, if_neg (by omega), index_ok hx, Res.ok_bind]
    exact (ih x (List.mem_of_getElem? hx)).proves pr u hu hg

theorem rawParts_le {t : Ty} {vs : List t.Val} {n : Nat} (hn : vs.length ≤ n) :
    (rawParts t vs).length ≤ 2 ^ depthFor (chunkCountBy packs t n) := by
  rw [rawParts_length]
  exact Nat.le_trans (chunkCountBy_le hn) (le_pow_depthFor _)

/-- Arrays and vectors. -/
theorem raw_vector_parts {α : Type} {E : Env} {T : SimpleSerialize α} {v : α} {t : Ty} {n : Nat}
    {vs : List t.Val} (hl : Legal t) (hs : packs t = true → fixedLen t < 2 ^ 32)
    (hh : held t vs.length) (hn : vs.length = n)
    (hf : flatElem t = true) (hc : itemCount prims t n ≤ 2 ^ 56)
    (hr : ∀ v ∈ vs, (t.impl E).hashTreeRoot v = .ok ((rawTree t v).root E.sha256))
    (ih : ∀ x ∈ vs, HasParts E (t.impl E) x (rawTree t x))
    (h1 : T.chunkCount = itemChunkCount E (t.impl E) n) (h2 : T.decoration v = none)
    (h3 : T.chunks v = assembleChunks E (t.impl E) vs)
    (h4 : T.proveElement v = collectionProveElement E (t.impl E) n vs) :
    HasParts E T v (full (depthFor (chunkCountBy packs t n)) (rawParts t vs)) := by
  refine ⟨rawParts t vs, chunkCountBy packs t n, none,
    ⟨by rw [h1, count_ok E hf hc], by rw [← itemCount_eq hf]; exact hc,
      rawParts_le (Nat.le_of_eq hn), h2, by simp, ?_⟩, ?_, rfl⟩
  · rw [h3, raw_assembleChunks E hl hs hh hr]
  · intro i s h
    rw [h4]
    exact raw_inner (Nat.le_of_eq hn) ih i s h

/-- Lists. -/
theorem raw_list_parts {E : Env} {t : Ty} {n : Nat}
    {vs : List t.Val} (hl : Legal t) (hs : packs t = true → fixedLen t < 2 ^ 32)
    (hh : held t vs.length) (hn : vs.length ≤ n)
    (hf : flatElem t = true) (hc : itemCount prims t n ≤ 2 ^ 56)
    (hr : ∀ v ∈ vs, (t.impl E).hashTreeRoot v = .ok ((rawTree t v).root E.sha256))
    (ih : ∀ x ∈ vs, HasParts E (t.impl E) x (rawTree t x)) :
    HasParts E (SimpleSerialize.list E (t.impl E) n) vs
      (.node (full (depthFor (chunkCountBy packs t n)) (rawParts t vs)) (numLeaf vs.length)) := by
  refine ⟨rawParts t vs, chunkCountBy packs t n, some vs.length,
    ⟨count_ok E hf hc, by rw [← itemCount_eq hf]; exact hc, rawParts_le hn, rfl, ?_, ?_⟩, ?_, rfl⟩
  · intro m hm
    cases hm
    have := hh.1
    omega
  · exact raw_assembleChunks E hl hs hh hr
  · exact raw_inner hn ih

theorem raw_container_parts {E : Env} {fs : Fields} {v : fs.Val} (hs : countF fs ≤ 2 ^ 56)
    (hc : (fs.impls E).assembleChunks v =
      .ok (flat ((rawTreesF fs v).map (·.root E.sha256))))
    (ih : ∀ (i : Nat) (s : MTree), (rawTreesF fs v)[i]? = some s →
      ProvesBy E (fun pr => (fs.impls E).proveField E pr v i) s) :
    HasParts E (SimpleSerialize.container E (fs.impls E)) v
      (full (depthFor (countF fs)) (rawTreesF fs v)) := by
  refine ⟨rawTreesF fs v, countF fs, none, ⟨?_, hs, ?_, rfl, by simp, hc⟩, ?_, rfl⟩
  · show Res.ok (fs.impls E).count = _
    rw [count_impls]
  · rw [rawTreesF_length]; exact le_pow_depthFor _
  · intro i s h
    refine Or.inr fun pr u hu hg => ?_
    have hi : i < countF fs := by
      by_contra hc
      rw [List.getElem?_eq_none (by rw [rawTreesF_length]; omega)] at h; cases h
    show (if i ≥ (fs.impls E).count then _ else _) = _
    rw [count_impls, if_neg (by omega)]
    exact ih i s h pr u hu hg

mutual

theorem raw_has_parts (E : Env) : ∀ (t : Ty) (v : t.Val), Legal t → Bounded t → Shallow t → Flat t →
    Proper t v → InMemory t v → HasParts E (t.impl E) v (rawTree t v)
  | .uint u, v, hl, hb, hs, hf, _, hm => has_parts E (.uint u) v hl hb hs hf trivial hm
  | .u256, v, hl, hb, hs, hf, _, hm => has_parts E .u256 v hl hb hs hf trivial hm
  | .bool, v, hl, hb, hs, hf, _, hm => has_parts E .bool v hl hb hs hf trivial hm
  | .node, v, hl, hb, hs, hf, _, hm => has_parts E .node v hl hb hs hf trivial hm
  | .array t n, v, hl, hb, hs, hf, hv, hm =>
    raw_vector_parts hl.2 hb.2 hm.1 v.2 hf.1 hs.1
      (fun x hx => raw_htr E t x hl.2 hb.1 (hv x hx) (hm.2 x hx))
      (fun x hx => raw_has_parts E t x hl.2 hb.1 hs.2 hf.2 (hv x hx) (hm.2 x hx)) rfl rfl rfl rfl
  | .vector t n, v, hl, hb, hs, hf, hv, hm =>
    raw_vector_parts hl.2 hb.2 hm.1 hv.1 hf.1 hs.1
      (fun x hx => raw_htr E t x hl.2 hb.1 (hv.2 x hx) (hm.2 x hx))
      (fun x hx => raw_has_parts E t x hl.2 hb.1 hs.2 hf.2 (hv.2 x hx) (hm.2 x hx)) rfl rfl rfl rfl
  | .list t n, v, hl, hb, hs, hf, hv, hm =>
    raw_list_parts hl hb.2.1 hm.1 hv.1 hf.1 hs.1
      (fun x hx => raw_htr E t x hl hb.1 (hv.2 x hx) (hm.2 x hx))
      (fun x hx => raw_has_parts E t x hl hb.1 hs.2 hf.2 (hv.2 x hx) (hm.2 x hx))
  | .bitvector n, v, hl, hb, hs, hf, hv, hm => has_parts E (.bitvector n) v hl hb hs hf hv hm
  | .bitlist n, v, _, hb, hs, _, hv, hm => by
    have hlen : (v.live ++ v.dead).length = v.live.length + (padBits v.live.length).length := by
      rw [List.length_append, hv.2]
    rw [padBits, List.length_replicate] at hlen
    refine ⟨leaves (packBits (v.live ++ v.dead)), (n + 255) / 256, some v.live.length,
      ⟨rfl, hs, ?_, rfl, by rintro _ ⟨⟩; exact hm, ?_⟩, fun i s h => Or.inl (leaves_leaf h), rfl⟩
    · refine Nat.le_trans ?_ (le_pow_depthFor _)
      have := hv.1
      rw [leaves_length, packBits_length]; omega
    · rw [leaves_root]
      exact Bitlist.packBits_exact hv.1
  | .option t, v, hl, hb, hs, hf, hv, hm =>
    match v with
    | none => pair_parts (by decide) rfl rfl rfl (Or.inl ⟨_, rfl⟩)
    | some x => by
      refine pair_parts (m := 1) (by decide) rfl rfl ?_
        (Or.inr (raw_has_parts E t x hl hb hs hf (hv x rfl) (hm x rfl)).proves)
      show ((t.impl E).hashTreeRoot x).map (·.1) = _
      rw [raw_htr E t x hl hb (hv x rfl) (hm x rfl), Res.map_ok]
  | .newtype t, v, hl, hb, hs, hf, hv, hm => by
    obtain ⟨ts, c, deco, h1, h2, h3⟩ := raw_has_parts E t v hl hb hs hf hv hm
    exact ⟨ts, c, deco, ⟨h1.count, h1.countLe, h1.length, h1.decoration, h1.decorationLt, h1.chunks⟩,
      h2, h3⟩
  | .container fs, v, hl, hb, hs, hf, hv, hm => by
    have hc : (fs.impls E).assembleChunks v =
        .ok (flat ((rawTreesF fs v).map (·.root E.sha256))) := by
      unfold FieldImpls.assembleChunks
      rw [count_impls, ← flat_replicate]
      exact raw_htrF E fs v [] hl.2.2 hb.1 hv hm
    exact raw_container_parts hs.1 hc (raw_has_partsF E fs v hl.2.2 hb.1 hs.2 hf hv hm)
  | .union vs, v, hl, hb, hs, hf, hv, hm => by
    have hcount : countV vs < 2 ^ 64 := by
      obtain ⟨hs, -⟩ := hl
      cases vs with
      | nil => exact hs.elim
      | unit rest => obtain ⟨_, _, h⟩ := hs; simp only [countV]; omega
      | data t rest => obtain ⟨_, h⟩ := hs; simp only [countV]; omega
    obtain ⟨s, m, h1, h2, h3, h4, h5⟩ := raw_has_partsV E vs 0 v hl.2 hb hs hf hv hm (by omega)
    show HasParts E _ v (rawTreeV vs 0 v)
    rw [h1]
    refine pair_parts h2 rfl (congrArg some h3) h4 ?_
    rcases h5 with h5 | h5
    · exact Or.inl h5
    · refine Or.inr fun pr u hu hg => ?_
      show (if 0 ≥ (vs.impls E).count then _ else _) = _
      rw [if_neg (Nat.not_le.2 (unionCount_pos E vs v))]
      exact h5 pr u hu hg

theorem raw_has_partsF (E : Env) : ∀ (fs : Fields) (v : fs.Val), LegalF fs → BoundedF fs →
    ShallowF fs → FlatF fs → ProperF fs v → InMemoryF fs v → ∀ (i : Nat) (s : MTree),
    (rawTreesF fs v)[i]? = some s → ProvesBy E (fun pr => (fs.impls E).proveField E pr v i) s
  | .nil, _, _, _, _, _, _, _ => by intro i s h; cases h
  | .cons _ t rest, v, hl, hb, hs, hf, hv, hm => by
    intro i s h
    cases i with
    | zero =>
      cases h
      exact (raw_has_parts E t v.1 hl.1 hb.1 hs.1 hf.1 hv.1 hm.1).proves
    | succ i => exact raw_has_partsF E rest v.2 hl.2 hb.2 hs.2 hf.2 hv.2 hm.2 i s h

theorem raw_has_partsV (E : Env) : ∀ (vs : Variants) (i : Nat) (v : vs.Val), LegalV vs → BoundedV vs →
    ShallowV vs → FlatV vs → ProperV vs v → InMemoryV vs v → i + countV vs < 2 ^ 64 →
    ∃ s m, rawTreeV vs i v = .node s (numLeaf m) ∧ m < 2 ^ 64 ∧
      (vs.impls E).decoration i v = m ∧ (vs.impls E).chunks v = .ok (s.root E.sha256).1 ∧
      ((∃ n, s = .leaf n) ∨ ProvesBy E (fun pr => (vs.impls E).proveVariant E pr v) s)
  | .nil, _, v, _, _, _, _, _, _, _ => Empty.elim v
  | .unit rest, i, .inl _, _, _, _, _, _, _, hc =>
    ⟨_, i, rfl, by omega, rfl, rfl, Or.inl ⟨_, rfl⟩⟩
  | .unit rest, i, .inr v, hl, hb, hs, hf, hv, hm, hc =>
    raw_has_partsV E rest (i + 1) v hl hb hs hf hv hm (by simp only [countV] at hc; omega)
  | .data t rest, i, .inl v, hl, hb, hs, hf, hv, hm, hc => by
    refine ⟨rawTree t v, i, rfl, by omega, rfl, ?_,
      Or.inr (raw_has_parts E t v hl.1 hb.1 hs.1 hf.1 hv hm).proves⟩
    show ((t.impl E).hashTreeRoot v).map (·.1) = _
    rw [raw_htr E t v hl.1 hb.1 hv hm, Res.map_ok]
  | .data t rest, i, .inr v, hl, hb, hs, hf, hv, hm, hc =>
    raw_has_partsV E rest (i + 1) v hl.2 hb.2 hs.2 hf.2 hv hm (by simp only [countV] at hc; omega)

end

/-! ## Paths -/

/-- What a path addresses is found at its index. -/
def RawPoints (t : Ty) (v : t.Val) : Prop :=
  ∀ (path : List PathElement) (g : Nat) (w : Ty) (f : Found), walkBy prims t path = some (g, w) →
    rawPart t v path = some f → ∃ u, (rawTree t v).sub g = some u ∧ f.In u

theorem raw_coll_points {t w : Ty} {n i b : Nat} {vs : List t.Val} {x : t.Val} {rest : List PathElement}
    {f : Found} (hf : flatElem t = true) (hn : vs.length ≤ n)
    (hx : vs[i]? = some x) (ih : RawPoints t x) (hw : walkBy prims t rest = some (b, w))
    (hp : (if packs t then bytesPart t x (i * fixedLen t % 32) rest
      else rawPart t x rest) = some f) :
    ∃ u, (full (depthFor (chunkCountBy packs t n)) (rawParts t vs)).sub
      (gcat (2 ^ depthFor (itemCount prims t n) + i * itemLen prims t / 32) b) = some u ∧ f.In u := by
  have hi : i < n := by
    by_contra hc
    rw [List.getElem?_eq_none (by omega)] at hx; cases hx
  have hpos := item_pos (t := t) hi
  have hb := walk_pos hw
  rw [← itemCount_eq hf]
  cases hk : packs t with
  | true =>
    obtain ⟨h1, h2, h3⟩ := packed_item hk hf
    rw [hk, if_pos rfl] at hp
    obtain ⟨s, h4, h5⟩ := packed_elem (f := enc t) (fun y _ => packs_length y hk) hx h2 h3
    rw [packed_walk hk hf hw] at hb ⊢
    refine ⟨s, full_elem hpos hb ?_ (sub_one s), bytes_part hk hp h5⟩
    rw [rawParts, if_pos hk, h1, h4]
  | false =>
    rw [hk, if_neg (by simp)] at hp
    obtain ⟨u, h1, h2⟩ := ih _ _ _ _ hw hp
    refine ⟨u, full_elem hpos hb ?_ h1, h2⟩
    rw [rawParts, if_neg (by simp [hk]), unpacked_item hk, Nat.mul_div_cancel _ (by decide),
      List.getElem?_map, hx]
    rfl

theorem raw_points_nil {t : Ty} {v : t.Val} {g : Nat} {w : Ty} {f : Found}
    (h1 : walkBy prims t [] = some (g, w)) (h2 : some (Found.tree (rawTree t v)) = some f) :
    ∃ u, (rawTree t v).sub g = some u ∧ f.In u := by
  cases h1
  cases h2
  exact ⟨_, sub_one _, rfl⟩

theorem rawTreeV_shape : ∀ (vs : Variants) (i : Nat) (v : vs.Val), ∃ l, rawTreeV vs i v =
    .node l (numLeaf (i + selectorOf vs v))
  | .nil, _, v => Empty.elim v
  | .unit _, i, .inl _ => ⟨_, rfl⟩
  | .data t _, i, .inl v => ⟨_, rfl⟩
  | .unit rest, i, .inr v => by
    obtain ⟨l, h⟩ := rawTreeV_shape rest (i + 1) v
    refine ⟨l, ?_⟩
    show rawTreeV rest (i + 1) v = .node l (numLeaf (i + (selectorOf rest v + 1)))
    rw [h, Nat.add_assoc, Nat.add_comm 1]
  | .data t rest, i, .inr v => by
    obtain ⟨l, h⟩ := rawTreeV_shape rest (i + 1) v
    refine ⟨l, ?_⟩
    show rawTreeV rest (i + 1) v = .node l (numLeaf (i + (selectorOf rest v + 1)))
    rw [h, Nat.add_assoc, Nat.add_comm 1]

theorem raw_basic_points {t : Ty} {v : t.Val} (h1 : ∀ e, stepBy prims t e = none)
    (h2 : ∀ path, rawPart t v path = (Found.tree (rawTree t v)).ending path) :
    RawPoints t v := by
  intro path g w f hw hp
  cases path with
  | nil =>
    rw [h2] at hp
    exact raw_points_nil hw hp
  | cons e l =>
    obtain ⟨_, _, _, h, _⟩ := walk_cons.1 hw
    rw [h1] at h; cases h

mutual

theorem raw_points : ∀ (t : Ty) (v : t.Val), Flat t → Proper t v → RawPoints t v
  | .uint u, v, _, _ => raw_basic_points (fun e => by cases e <;> rfl) fun _ => rfl
  | .u256, v, _, _ => raw_basic_points (fun e => by cases e <;> rfl) fun _ => rfl
  | .bool, v, _, _ => raw_basic_points (fun e => by cases e <;> rfl) fun _ => rfl
  | .node, v, _, _ => raw_basic_points (fun e => by cases e <;> rfl) fun _ => rfl
  | .array t n, v, hf, hv => by
    intro path g w f hw hp
    match path with
    | [] => exact raw_points_nil hw hp
    | .field _ :: _ => cases hp
    | .length :: _ => cases hp
    | .selector :: _ => cases hp
    | .index i :: rest =>
      obtain ⟨a, u, b, h1, h2, rfl⟩ := walk_cons.1 hw
      cases hx : v.1[i]? with
      | none => simp only [rawPart, hx] at hp; cases hp
      | some x =>
        simp only [rawPart, hx] at hp
        have hi : i < n := by
          by_contra hc
          rw [List.getElem?_eq_none (by rw [v.2]; omega)] at hx; cases hx
        rw [stepBy, if_pos hi] at h1
        cases h1
        exact raw_coll_points hf.1 (Nat.le_of_eq v.2) hx
          (raw_points t x hf.2 (hv x (List.mem_of_getElem? hx))) h2 hp
  | .vector t n, v, hf, hv => by
    intro path g w f hw hp
    match path with
    | [] => exact raw_points_nil hw hp
    | .field _ :: _ => cases hp
    | .length :: _ => cases hp
    | .selector :: _ => cases hp
    | .index i :: rest =>
      obtain ⟨a, u, b, h1, h2, rfl⟩ := walk_cons.1 hw
      cases hx : (show List t.Val from v)[i]? with
      | none => simp only [rawPart, hx] at hp; cases hp
      | some x =>
        simp only [rawPart, hx] at hp
        have hlen : List.length (show List t.Val from v) = n := hv.1
        have hi : i < n := by
          by_contra hc
          rw [List.getElem?_eq_none (by omega)] at hx; cases hx
        rw [stepBy, if_pos hi] at h1
        cases h1
        exact raw_coll_points hf.1 (Nat.le_of_eq hlen) hx
          (raw_points t x hf.2 (hv.2 x (List.mem_of_getElem? hx))) h2 hp
  | .list t n, v, hf, hv => by
    intro path g w f hw hp
    match path with
    | [] => exact raw_points_nil hw hp
    | .field _ :: _ => cases hp
    | .selector :: _ => cases hp
    | .length :: rest =>
      obtain ⟨a, u, b, h1, h2, rfl⟩ := walk_cons.1 hw
      cases h1
      exact ending_points node_sub_right h2 hp
    | .index i :: rest =>
      obtain ⟨a, u, b, h1, h2, rfl⟩ := walk_cons.1 hw
      cases hx : (show List t.Val from v)[i]? with
      | none => simp only [rawPart, hx] at hp; cases hp
      | some x =>
        simp only [rawPart, hx] at hp
        have hlen : List.length (show List t.Val from v) ≤ n := hv.1
        have hi : i < n := by
          by_contra hc
          rw [List.getElem?_eq_none (by omega)] at hx; cases hx
        rw [stepBy, if_pos hi] at h1
        cases h1
        obtain ⟨u, h3, h4⟩ := raw_coll_points hf.1 hlen hx
          (raw_points t x hf.2 (hv.2 x (List.mem_of_getElem? hx))) h2 hp
        exact ⟨u, node_elem (item_pos hi) (walk_pos h2) h3, h4⟩
  | .bitvector n, v, hf, hv => by
    intro path g w f hw hp
    match path with
    | [] => exact raw_points_nil hw hp
    | .field _ :: _ => cases hp
    | .length :: _ => cases hp
    | .selector :: _ => cases hp
    | .index i :: rest =>
      obtain ⟨a, u, b, h1, h2, rfl⟩ := walk_cons.1 hw
      have hlen : v.live.length = n := hv
      cases hx : v.live[i]? with
      | none => simp only [rawPart, hx] at hp; cases hp
      | some x =>
        simp only [rawPart, hx] at hp
        have hi : i < n := by
          by_contra hc
          rw [List.getElem?_eq_none (by omega)] at hx; cases hx
        rw [stepBy, if_pos hi] at h1
        cases h1
        cases rest with
        | cons e l => cases hp
        | nil =>
          cases h2; cases hp
          obtain ⟨s, h3, h4⟩ := packed_bit hx
          exact ⟨s, full_elem (bit_pos hi) (Nat.le_refl 1) h3 (sub_one s), h4⟩
  | .bitlist n, v, hf, hv => by
    intro path g w f hw hp
    match path with
    | [] => exact raw_points_nil hw hp
    | .field _ :: _ => cases hp
    | .selector :: _ => cases hp
    | .length :: rest =>
      obtain ⟨a, u, b, h1, h2, rfl⟩ := walk_cons.1 hw
      cases h1
      exact ending_points node_sub_right h2 hp
    | .index i :: rest =>
      obtain ⟨a, u, b, h1, h2, rfl⟩ := walk_cons.1 hw
      have hlen : v.live.length ≤ n := hv.1
      cases hx : v.live[i]? with
      | none => simp only [rawPart, hx] at hp; cases hp
      | some x =>
        simp only [rawPart, hx] at hp
        have hi : i < n := by
          by_contra hc
          rw [List.getElem?_eq_none (by omega)] at hx; cases hx
        rw [stepBy, if_pos hi] at h1
        cases h1
        cases rest with
        | cons e l => cases hp
        | nil =>
          cases h2; cases hp
          obtain ⟨s, h3, h4⟩ := packed_bit (l := v.live ++ v.dead)
            ((List.getElem?_append_left (List.getElem?_eq_some_iff.1 hx).1).trans hx)
          exact ⟨s, node_elem (bit_pos hi) (Nat.le_refl 1)
            (full_elem (bit_pos hi) (Nat.le_refl 1) h3 (sub_one s)), h4⟩
  | .option t, v, hf, hv => by
    intro path g w f hw hp
    match path, v with
    | [], _ => exact raw_points_nil hw hp
    | .field _ :: _, _ => cases hp
    | .length :: _, _ => cases hp
    | .selector :: rest, none =>
      obtain ⟨a, u, b, h1, h2, rfl⟩ := walk_cons.1 hw
      cases h1
      exact ending_points node_sub_right h2 hp
    | .selector :: rest, some x =>
      obtain ⟨a, u, b, h1, h2, rfl⟩ := walk_cons.1 hw
      cases h1
      exact ending_points node_sub_right h2 hp
    | .index i :: rest, none =>
      obtain ⟨a, u, b, h1, h2, rfl⟩ := walk_cons.1 hw
      have hp : (if i = 0 then (Found.tree (.leaf zeroNode)).ending rest else none) = some f := hp
      by_cases hi : i = 0
      · subst hi
        rw [if_pos rfl] at hp
        cases h1
        exact ending_points node_sub_left h2 hp
      · rw [if_neg hi] at hp; cases hp
    | .index i :: rest, some x =>
      obtain ⟨a, u, b, h1, h2, rfl⟩ := walk_cons.1 hw
      have hp : (if i = 1 then rawPart t x rest else none) = some f := hp
      by_cases hi : i = 1
      · subst hi
        rw [if_pos rfl] at hp
        cases h1
        obtain ⟨u', h3, h4⟩ := raw_points t x hf (hv x rfl) _ _ _ _ h2 hp
        exact ⟨u', (sub_cat (by decide) (walk_pos h2)).2 ⟨_, node_sub_left, h3⟩, h4⟩
      · rw [if_neg hi] at hp; cases hp
  | .newtype t, v, hf, hv => by
    intro path g w f hw hp
    obtain ⟨w', hw'⟩ := walk_newtype hw
    exact raw_points t v hf hv _ _ _ _ hw' hp
  | .container fs, v, hf, hv => by
    intro path g w f hw hp
    match path with
    | [] => exact raw_points_nil hw hp
    | .index _ :: _ => cases hp
    | .length :: _ => cases hp
    | .selector :: _ => cases hp
    | .field name :: rest =>
      obtain ⟨a, u, b, h1, h2, rfl⟩ := walk_cons.1 hw
      obtain ⟨⟨k, u'⟩, h3, h4⟩ := Option.map_eq_some_iff.1 (show (fieldAt fs name).map _ = _ from h1)
      cases h4
      obtain ⟨s, u', h5, h6, h7⟩ := raw_pointsF fs v hf hv h3 h2 hp
      exact ⟨u', full_elem (Nat.lt_of_lt_of_le (fieldAt_lt h3) (le_pow_depthFor _)) (walk_pos h2)
        h5 h6, h7⟩
  | .union vs, v, hf, hv => by
    intro path g w f hw hp
    match path with
    | [] => exact raw_points_nil hw hp
    | .field _ :: _ => cases hp
    | .length :: _ => cases hp
    | .selector :: rest =>
      obtain ⟨a, u, b, h1, h2, rfl⟩ := walk_cons.1 hw
      cases h1
      obtain ⟨l, h3⟩ := rawTreeV_shape vs 0 v
      rw [Nat.zero_add] at h3
      have h4 : rawTree (.union vs) v = .node l (numLeaf (selectorOf vs v)) := h3
      rw [h4]
      exact ending_points node_sub_right h2 hp
    | .index i :: rest =>
      obtain ⟨a, u, b, h1, h2, rfl⟩ := walk_cons.1 hw
      obtain ⟨o, h3, h4⟩ := Option.map_eq_some_iff.1 (show (variantAt vs i).map _ = _ from h1)
      cases h4
      obtain ⟨l, u', h5, h6, h7⟩ := raw_pointsV vs 0 v hf hv h3 h2 hp
      exact ⟨u', (sub_cat (by decide) (walk_pos h2)).2 ⟨l, h5, h6⟩, h7⟩

theorem raw_pointsF : ∀ (fs : Fields) (v : fs.Val) {name : String} {rest : List PathElement}
    {k b : Nat} {u w : Ty} {f : Found}, FlatF fs → ProperF fs v → fieldAt fs name = some (k, u) →
    walkBy prims u rest = some (b, w) → rawPartF fs v name rest = some f →
    ∃ s u', (rawTreesF fs v)[k]? = some s ∧ s.sub b = some u' ∧ f.In u'
  | .nil, _, _, _, _, _, _, _, _, _, _, h, _, _ => by cases h
  | .cons n t fs, v, name, rest, k, b, u, w, f, hf, hv, h1, h2, h3 => by
    rw [fieldAt] at h1
    by_cases h : name = n
    · rw [if_pos h] at h1
      cases h1
      have h3 : (if name = n then rawPart t v.1 rest else rawPartF fs v.2 name rest) =
        some f := h3
      rw [if_pos h] at h3
      obtain ⟨u', h4, h5⟩ := raw_points t v.1 hf.1 hv.1 _ _ _ _ h2 h3
      exact ⟨_, u', rfl, h4, h5⟩
    · rw [if_neg h] at h1
      have h3 : (if name = n then rawPart t v.1 rest else rawPartF fs v.2 name rest) =
        some f := h3
      rw [if_neg h] at h3
      obtain ⟨⟨k', u'⟩, h4, h5⟩ := Option.map_eq_some_iff.1 h1
      cases h5
      obtain ⟨s, u', h6, h7⟩ := raw_pointsF fs v.2 hf.2 hv.2 h4 h2 h3
      exact ⟨s, u', h6, h7⟩

theorem raw_pointsV : ∀ (vs : Variants) (j : Nat) (v : vs.Val) {i : Nat} {rest : List PathElement}
    {b : Nat} {o : Option Ty} {w : Ty} {f : Found}, FlatV vs → ProperV vs v →
    variantAt vs i = some o → walkBy prims (o.getD number) rest = some (b, w) →
    rawPartV vs v i rest = some f →
    ∃ l u', (rawTreeV vs j v).sub 2 = some l ∧ l.sub b = some u' ∧ f.In u'
  | .nil, _, v, _, _, _, _, _, _, _, _, _, _, _ => Empty.elim v
  | .unit vs, j, .inl v, i, rest, b, o, w, f, hf, hv, h1, h2, h3 => by
    have h3 : (if i = 0 then (Found.tree (.leaf zeroNode)).ending rest else none) = some f := h3
    by_cases hi : i = 0
    · subst hi
      cases h1
      rw [if_pos rfl] at h3
      cases rest with
      | cons e l => cases h3
      | nil => cases h2; cases h3; exact ⟨_, _, node_sub_left, sub_one _, rfl⟩
    · rw [if_neg hi] at h3; cases h3
  | .unit vs, j, .inr v, i, rest, b, o, w, f, hf, hv, h1, h2, h3 => by
    have h3 : (if i = 0 then none else rawPartV vs v (i - 1) rest) = some f := h3
    match i with
    | 0 => cases h3
    | i + 1 => exact raw_pointsV vs (j + 1) v hf hv h1 h2 h3
  | .data t vs, j, .inl v, i, rest, b, o, w, f, hf, hv, h1, h2, h3 => by
    have h3 : (if i = 0 then rawPart t v rest else none) = some f := h3
    by_cases hi : i = 0
    · subst hi
      cases h1
      rw [if_pos rfl] at h3
      obtain ⟨u', h4, h5⟩ := raw_points t v hf.1 hv _ _ _ _ h2 h3
      exact ⟨_, u', node_sub_left, h4, h5⟩
    · rw [if_neg hi] at h3; cases h3
  | .data t vs, j, .inr v, i, rest, b, o, w, f, hf, hv, h1, h2, h3 => by
    have h3 : (if i = 0 then none else rawPartV vs v (i - 1) rest) = some f := h3
    match i with
    | 0 => cases h3
    | i + 1 => exact raw_pointsV vs (j + 1) v hf.2 hv h1 h2 h3

end

end Ssz
