import Verif.Spec.PartTrees
import Verif.Proofs.Parts
import Verif.Proofs.Prove

/-!
# Generalized indices and proofs in types built from parts of any kind
-/

namespace Ssz

open Spec

/-! ## Generalized indices -/

namespace Spec.Resolves

theorem below {E : Env} {f : Nat → Calc Nat} {g : Nat} {F : Nat → List PathElement → Res MerkError Nat}
    {w : Walk} (hg : 1 ≤ g) (hf : Gives E f g True) (h : Resolves E F w) :
    Resolves E (fun p path => (f p).lift >>= fun c => F c path) (w.below g) where
  pos path k hk := by
    obtain ⟨j, hj, rfl⟩ := Option.map_eq_some_iff.1 hk
    exact Nat.le_trans hg (le_gcat g j)
  fits p path k hp hk hlt := by
    obtain ⟨j, hj, rfl⟩ := Option.map_eq_some_iff.1 hk
    have hj1 := h.pos path j hj
    rw [← gcat_assoc hg hj1] at hlt ⊢
    rw [hf.1 p hp trivial (Nat.lt_of_le_of_lt (le_gcat _ _) hlt), Res.lift_ok, Res.ok_bind]
    exact h.fits _ path j (Nat.le_trans hp (le_gcat _ _)) hj hlt
  only p path r hr := by
    obtain ⟨c, hc, hr⟩ := Res.bind_eq_ok.1 hr
    obtain ⟨j, hj, hd⟩ := h.only c path r hr
    refine ⟨gcat g j, by rw [Walk.below, hj]; rfl, fun hE => ?_⟩
    rw [hd hE, hf.2.1 p c hE (Res.lift_eq_ok.1 hc), gcat_assoc hg (h.pos path j hj)]

/-- A type whose paths are known for each first element. -/
theorem steps {E : Env} {F : Nat → List PathElement → Res MerkError Nat} {w : Walk}
    (h0 : ∀ p, F p [] = .ok p) (hw : w [] = some 1)
    (h : ∀ e, Resolves E (fun p path => F p (e :: path)) (fun path => w (e :: path))) :
    Resolves E F w where
  pos
    | [], g, hg => by rw [hw] at hg; cases hg; exact Nat.le_refl 1
    | e :: path, g, hg => (h e).pos path g hg
  fits
    | p, [], g, _, hg, _ => by rw [hw] at hg; cases hg; rw [h0, gcat_one]
    | p, e :: path, g, hp, hg, hlt => (h e).fits p path g hp hg hlt
  only
    | p, [], r, hr => by
      rw [h0] at hr; cases hr
      exact ⟨1, hw, fun _ => (gcat_one p).symm⟩
    | p, e :: path, r, hr => (h e).only p path r hr

theorem refused {E : Env} {F : Nat → List PathElement → Res MerkError Nat}
    (h : ∀ p path, ∃ x, F p path = .err x) : Resolves E F (fun _ => none) where
  pos _ _ h := nomatch h
  fits _ _ _ _ h := nomatch h
  only p path r hr := by
    obtain ⟨x, hx⟩ := h p path
    rw [hx] at hr; cases hr

theorem congr {E : Env} {F G : Nat → List PathElement → Res MerkError Nat} {w x : Walk}
    (h : Resolves E F w) (h1 : ∀ p path, G p path = F p path) (h2 : ∀ path, x path = w path) :
    Resolves E G x := by
  have e1 : G = F := by funext p path; exact h1 p path
  have e2 : x = w := by funext path; exact h2 path
  rw [e1, e2]; exact h

theorem stop {E : Env} {F : Nat → List PathElement → Res MerkError Nat}
    (h0 : ∀ p, F p [] = .ok p) (h : ∀ p e path, ∃ x, F p (e :: path) = .err x) :
    Resolves E F .stop :=
  steps h0 rfl fun e => (refused fun p path => h p e path).congr (fun _ _ => rfl) fun _ => rfl

/-- The length of a list or the selector of a union. -/
theorem right {E : Env} {F : Nat → List PathElement → Res MerkError Nat}
    (h : ∀ p path, F p path = if path.isEmpty then (E.mul p 2).lift >>= fun a => (E.add a 1).lift
      else .err (.invalidPath path)) : Resolves E F (Walk.stop.below 3) where
  pos
    | [], g, hg => by cases hg; decide
    | _ :: _, g, hg => nomatch hg
  fits
    | p, [], g, hp, hg, hlt => by
      cases hg
      have : gcat 3 1 = 3 := gcat_one 3
      rw [this] at hlt ⊢
      rw [h]
      have h2 := (right_gives E).1 p hp trivial hlt
      show ((E.mul p 2).lift >>= fun a => (E.add a 1).lift) = _
      rw [show ((E.mul p 2).lift >>= fun a => ((E.add a 1).lift : Res MerkError Nat)) =
        (E.mul p 2 >>= fun a => E.add a 1).lift by rw [Res.lift_bind]]
      exact congrArg Res.lift h2
    | p, _ :: _, g, _, hg, _ => nomatch hg
  only
    | p, [], r, hr => by
      refine ⟨gcat 3 1, rfl, fun hE => ?_⟩
      rw [show gcat 3 1 = 3 from gcat_one 3]
      rw [h] at hr
      have hr : ((E.mul p 2).lift >>= fun a => (E.add a 1).lift) = Res.ok (ε := MerkError) r := hr
      rw [show ((E.mul p 2).lift >>= fun a => ((E.add a 1).lift : Res MerkError Nat)) =
        (E.mul p 2 >>= fun a => E.add a 1).lift by rw [Res.lift_bind]] at hr
      exact (right_gives E).2.1 p r hE (Res.lift_eq_ok.1 hr)
    | p, e :: path, r, hr => by
      rw [h] at hr
      exact nomatch hr

end Spec.Resolves

section

variable {α : Type} {E : Env} {T : SimpleSerialize α} {l n : Nat}

theorem Gives.sure {f : Nat → Calc Nat} {g : Nat} {P : Prop} (h : Gives E f g P) (hP : P) :
    Gives E f g True := h.mono fun _ => hP

theorem itemChunkCount_ok (hl : T.itemLength = .ok l) (hc : (n * l + 31) / 32 ≤ 2 ^ 56) :
    itemChunkCount E T n = .ok ((n * l + 31) / 32) := by
  rw [itemChunkCount, hl, Res.ok_bind, Env.mul_eq_ok (by simp only [usizeMod]; omega), Res.ok_bind,
    Env.add_eq_ok (by simp only [usizeMod]; omega), Res.ok_bind]

theorem item_slot {i : Nat} (h1 : 1 ≤ l) (h : i < n) :
    i * l / 32 < 2 ^ depthFor ((n * l + 31) / 32) := by
  refine Nat.lt_of_lt_of_le ?_ (le_pow_depthFor _)
  have h2 := Nat.mul_le_mul_right l (show i + 1 ≤ n from h)
  rw [Nat.add_mul] at h2
  omega

theorem item_mul {i : Nat} (hc : (n * l + 31) / 32 ≤ 2 ^ 56) (h : i < n) :
    E.mul i l = .ok (i * l) := by
  have h2 := Nat.mul_le_mul_right l (Nat.le_of_lt h)
  exact Env.mul_eq_ok (by simp only [usizeMod]; omega)

theorem resolves_vector {w : Walk} (hl : T.itemLength = .ok l) (h1 : 1 ≤ l)
    (hc : (n * l + 31) / 32 ≤ 2 ^ 56) (h : Resolves E T.computeGeneralizedIndex w) :
    Resolves E (vectorGeneralizedIndex E T n) (w.vector l n) := by
  refine Resolves.steps (fun _ => rfl) rfl fun e => ?_
  match e with
  | .index i =>
    by_cases hi : i < n
    · have hs := item_slot (n := n) h1 hi
      refine (Resolves.below (Nat.le_trans (Nat.two_pow_pos _) (Nat.le_add_right _ _))
        ((slotCalc_gives E hs).sure trivial) h).congr (fun p path => ?_)
        (fun path => if_pos hi)
      show vectorGeneralizedIndex E T n p (.index i :: path) = _
      rw [vectorGeneralizedIndex, if_neg (by omega), hl, itemChunkCount_ok hl hc]
      simp only [Res.lift_ok, Res.ok_bind, item_mul hc hi, slotCalc, Res.lift_bind, Res.bind_assoc]
    · refine (Resolves.refused (F := fun p path => vectorGeneralizedIndex E T n p (.index i :: path))
        fun p path => ⟨.invalidPathElement (.index i), ?_⟩).congr (fun _ _ => rfl)
        (fun path => if_neg hi)
      show vectorGeneralizedIndex E T n p (.index i :: path) = _
      rw [vectorGeneralizedIndex, if_pos (by omega)]
  | .field f => exact Resolves.refused fun _ _ => ⟨_, rfl⟩
  | .length => exact Resolves.refused fun _ _ => ⟨_, rfl⟩
  | .selector => exact Resolves.refused fun _ _ => ⟨_, rfl⟩

theorem resolves_list {w : Walk} (hl : T.itemLength = .ok l) (h1 : 1 ≤ l)
    (hc : (n * l + 31) / 32 ≤ 2 ^ 56) (h : Resolves E T.computeGeneralizedIndex w) :
    Resolves E (listGeneralizedIndex E T n) (w.list l n) := by
  refine Resolves.steps (fun _ => rfl) rfl fun e => ?_
  match e with
  | .index i =>
    by_cases hi : i < n
    · have hs := item_slot (n := n) h1 hi
      have h0 := Nat.two_pow_pos (depthFor ((n * l + 31) / 32))
      refine (Resolves.below (by omega)
        (((slotCalc_gives E hs).twice hs).sure trivial) h).congr (fun p path => ?_)
        (fun path => if_pos hi)
      show listGeneralizedIndex E T n p (.index i :: path) = _
      rw [listGeneralizedIndex, if_neg (by omega), hl, itemChunkCount_ok hl hc]
      simp only [Res.lift_ok, Res.ok_bind, item_mul hc hi, slotCalc, Res.lift_bind, Res.bind_assoc]
    · refine (Resolves.refused (F := fun p path => listGeneralizedIndex E T n p (.index i :: path))
        fun p path => ⟨.invalidPathElement (.index i), ?_⟩).congr (fun _ _ => rfl)
        (fun path => if_neg hi)
      show listGeneralizedIndex E T n p (.index i :: path) = _
      rw [listGeneralizedIndex, if_pos (by omega)]
  | .field f => exact Resolves.refused fun _ _ => ⟨_, rfl⟩
  | .length => exact Resolves.right fun _ _ => rfl
  | .selector => exact Resolves.refused fun _ _ => ⟨_, rfl⟩

theorem resolves_option {w : Walk} (h : Resolves E T.computeGeneralizedIndex w) :
    Resolves E (SimpleSerialize.option E T).computeGeneralizedIndex w.option := by
  refine Resolves.steps (fun _ => rfl) rfl fun e => ?_
  match e with
  | .index 0 =>
    exact (Resolves.below (by decide) (left_gives E)
      (Resolves.stop (F := fun c path => if path.isEmpty then .ok c else .err (.invalidPath path))
        (fun _ => rfl) fun _ _ _ => ⟨_, rfl⟩)).congr (fun _ _ => rfl) fun _ => rfl
  | .index 1 =>
    exact (Resolves.below (by decide) (left_gives E) h).congr (fun _ _ => rfl) fun _ => rfl
  | .index (i + 2) =>
    exact Resolves.refused fun _ _ => ⟨_, rfl⟩
  | .field f => exact Resolves.refused fun _ _ => ⟨_, rfl⟩
  | .length => exact Resolves.refused fun _ _ => ⟨_, rfl⟩
  | .selector => exact Resolves.right fun _ _ => rfl

end

theorem fieldsResolve_count (E : Env) : {α : Type} → (fs : FieldImpls α) → (ws : List (String × Walk)) →
    FieldsResolve E fs ws → fs.count = ws.length
  | _, .nil, ws, h => by cases (show ws = [] from h); rfl
  | _, .cons _ _ rest, ws, h => by
    obtain ⟨w, ws', rfl, -, h⟩ := h
    show 1 + rest.count = _
    rw [fieldsResolve_count E rest ws' h, List.length_cons, Nat.add_comm]

theorem resolves_field (E : Env) {total : Nat} (name : String) (ht : total ≤ 2 ^ 56) :
    {α : Type} → (fs : FieldImpls α) → (ws : List (String × Walk)) → FieldsResolve E fs ws →
    ∀ i, i + ws.length ≤ total →
    Resolves E (fun p path => fs.generalizedIndexByField E total p path name i)
      (fun path => match Walk.field ws name with
        | none => none
        | some (k, w) => w.below (2 ^ depthFor total + (i + k)) path)
  | _, .nil, ws, h, i, _ => by
    cases (show ws = [] from h)
    exact Resolves.refused fun _ _ => ⟨_, rfl⟩
  | _, .cons n T rest, ws, h, i, hi => by
    obtain ⟨w, ws', rfl, hw, h⟩ := h
    rw [List.length_cons] at hi
    by_cases hn : name = n
    · have hs : i < 2 ^ depthFor total := Nat.lt_of_lt_of_le (by omega) (le_pow_depthFor _)
      refine (Resolves.below (Nat.le_trans (Nat.two_pow_pos _) (Nat.le_add_right _ _))
        ((slotCalc_gives E hs).sure trivial) hw).congr (fun p path => ?_)
        (fun path => ?_)
      · show (if name = n then _ else _) = _
        rw [if_pos hn]
        simp only [slotCalc, Res.lift_bind, Res.bind_assoc]
      · simp only [Walk.field, if_pos hn, Nat.add_zero]
    · refine (resolves_field E name ht rest ws' h (i + 1) (by omega)).congr (fun p path => ?_)
        (fun path => ?_)
      · show (if name = n then _ else _) = _
        rw [if_neg hn]
      · simp only [Walk.field, if_neg hn]
        cases Walk.field ws' name with
        | none => rfl
        | some q =>
          show q.2.below (2 ^ depthFor total + (i + (q.1 + 1))) path =
            q.2.below (2 ^ depthFor total + (i + 1 + q.1)) path
          rw [show i + (q.1 + 1) = i + 1 + q.1 by omega]

theorem resolves_struct {α : Type} (E : Env) (fs : FieldImpls α) (ws : List (String × Walk))
    (h : FieldsResolve E fs ws) (hc : ws.length ≤ 2 ^ 56) :
    Resolves E (SimpleSerialize.container E fs).computeGeneralizedIndex (.struct ws) := by
  refine Resolves.steps (fun _ => rfl) rfl fun e => ?_
  match e with
  | .field f =>
    refine (resolves_field E f hc fs ws h 0 (by omega)).congr (fun p path => ?_) (fun path => ?_)
    · show fs.generalizedIndexByField E fs.count p path f 0 = _
      rw [fieldsResolve_count E fs ws h]
    · simp only [Walk.struct, Nat.zero_add]
      cases Walk.field ws f <;> rfl
  | .index i => exact Resolves.refused fun _ _ => ⟨_, rfl⟩
  | .length => exact Resolves.refused fun _ _ => ⟨_, rfl⟩
  | .selector => exact Resolves.refused fun _ _ => ⟨_, rfl⟩

theorem variantsResolve_count (E : Env) : {α : Type} → (vs : VariantImpls α) → (ws : List Walk) →
    VariantsResolve E vs ws → vs.count = ws.length
  | _, .nil, ws, h => by cases (show ws = [] from h); rfl
  | _, .unit rest, ws, h => by
    obtain ⟨ws', rfl, h⟩ := h
    show 1 + rest.count = _
    rw [variantsResolve_count E rest ws' h, List.length_cons, Nat.add_comm]
  | _, .data _ rest, ws, h => by
    obtain ⟨w, ws', rfl, -, h⟩ := h
    show 1 + rest.count = _
    rw [variantsResolve_count E rest ws' h, List.length_cons, Nat.add_comm]

theorem resolves_variant (E : Env) : {α : Type} → (vs : VariantImpls α) → (ws : List Walk) →
    VariantsResolve E vs ws → ∀ i w, ws[i]? = some w →
    Resolves E (fun c path => vs.generalizedIndex c path i) w
  | _, .nil, ws, h, i, w, hi => by cases (show ws = [] from h); exact nomatch hi
  | _, .unit rest, ws, h, i, w, hi => by
    obtain ⟨ws', rfl, h⟩ := h
    match i with
    | 0 =>
      cases hi
      exact Resolves.stop (fun _ => rfl) fun _ _ _ => ⟨_, rfl⟩
    | i + 1 => exact resolves_variant E rest ws' h i w hi
  | _, .data T rest, ws, h, i, w, hi => by
    obtain ⟨w', ws', rfl, hw, h⟩ := h
    match i with
    | 0 => cases hi; exact hw
    | i + 1 => exact resolves_variant E rest ws' h i w hi

theorem resolves_union {α : Type} (E : Env) (vs : VariantImpls α) (ws : List Walk)
    (h : VariantsResolve E vs ws) :
    Resolves E (SimpleSerialize.union E vs).computeGeneralizedIndex (.union ws) := by
  have hc := variantsResolve_count E vs ws h
  refine Resolves.steps (fun _ => rfl) rfl fun e => ?_
  match e with
  | .index i =>
    have hr : ∀ p path, (SimpleSerialize.union E vs).computeGeneralizedIndex p (.index i :: path) =
      if i ≥ vs.count then .err (.invalidPathElement (.index i))
      else (E.mul p 2).lift >>= fun child => vs.generalizedIndex child path i := fun _ _ => rfl
    cases hw : ws[i]? with
    | none =>
      have hi : ws.length ≤ i := List.getElem?_eq_none_iff.1 hw
      refine (Resolves.refused (F := fun p path =>
          (SimpleSerialize.union E vs).computeGeneralizedIndex p (.index i :: path))
        fun p path => ⟨_, (hr p path).trans (if_pos (by omega))⟩).congr (fun _ _ => rfl) fun path => ?_
      simp only [Walk.union, hw]
    | some w =>
      have hi : i < ws.length := (List.getElem?_eq_some_iff.1 hw).1
      refine (Resolves.below (by decide) (left_gives E) (resolves_variant E vs ws h i w hw)).congr
        (fun p path => (hr p path).trans (if_neg (by omega))) fun path => ?_
      simp only [Walk.union, hw]
  | .field f => exact Resolves.refused fun _ _ => ⟨_, rfl⟩
  | .length => exact Resolves.refused fun _ _ => ⟨_, rfl⟩
  | .selector => exact Resolves.right fun _ _ => rfl

/-- The types of the crate: all paths that are valid, but those to the length of a `Bitlist`. -/
def crateWalk (t : Ty) : Walk := fun path =>
  if lengthOfBits t path then none else (walkBy prims t path).map (·.1)

theorem resolves_crate (E : Env) (t : Ty) (hs : Shallow t) :
    Resolves E (t.impl E).computeGeneralizedIndex (crateWalk t) where
  pos path g h := by
    unfold crateWalk at h
    split at h
    · cases h
    · obtain ⟨⟨g', w⟩, h1, rfl⟩ := Option.map_eq_some_iff.1 h
      exact walk_pos h1
  fits p path g hp h hlt := by
    unfold crateWalk at h
    split at h
    · cases h
    · rename_i hb
      obtain ⟨⟨g', w⟩, h1, rfl⟩ := Option.map_eq_some_iff.1 h
      exact gi_ok E hp (countable_of_shallow hs) h1 (Bool.not_eq_true _ ▸ hb) hlt
  only p path r h := by
    obtain ⟨g, w, h1, h2, h3⟩ := gi_valid E h
    exact ⟨g, by rw [crateWalk, h2, h1]; rfl, h3⟩

/-! ## Trees -/

section

variable {α : Type} {E : Env} {T : SimpleSerialize α} {n : Nat}

/-- The prover's functions in arrays, vectors and lists. -/
theorem items_inner {vs : List α} {s : α → MTree} (hn : vs.length ≤ n)
    (h : ∀ x ∈ vs, TreeOf E T x (s x)) (i : Nat) (u : MTree) (hu : (vs.map s)[i]? = some u) :
    (∃ n, u = .leaf n) ∨ ProvesBy E (collectionProveElement E T n vs i) u := by
  rw [List.getElem?_map, Option.map_eq_some_iff] at hu
  obtain ⟨x, hx, rfl⟩ := hu
  have hi : i < n := by
    by_contra hc
    rw [List.getElem?_eq_none (by omega)] at hx; cases hx
  refine Or.inr fun pr u hu hg => ?_
  rw [collectionProveElement, if_neg (by omega), index_ok hx, Res.ok_bind]
  exact (h x (List.mem_of_getElem? hx)).proof pr u hu hg

theorem full_map_root {β : Type} (H : Bytes → Node) (d : Nat) (s : β → MTree) (vs : List β) :
    (full d (vs.map s)).root H = (full d (vs.map fun x => .leaf ((s x).root H))).root H := by
  rw [full_root, full_root, List.map_map, List.map_map]
  rfl

theorem itemChunkCount_32 (h32 : T.itemLength = .ok 32) (hn : n ≤ 2 ^ 56) :
    itemChunkCount E T n = .ok n := by
  rw [itemChunkCount_ok h32 (by omega)]
  congr 1; omega

theorem list_proves {vs : List α} {s : α → MTree} (hc : T.isCompositeType = true)
    (h32 : T.itemLength = .ok 32) (h : ∀ x ∈ vs, TreeOf E T x (s x)) (hl : vs.length ≤ n)
    (hn : n ≤ 2 ^ 56) :
    ProvesBy E (computeProof E (SimpleSerialize.list E T n) vs)
      (.node (full (depthFor n) (vs.map s)) (numLeaf vs.length)) := by
  refine HasParts.proves ⟨vs.map s, n, some vs.length, ⟨itemChunkCount_32 h32 hn, hn, ?_, rfl, ?_, ?_⟩,
    items_inner hl h, rfl⟩
  · rw [List.length_map]
    exact Nat.le_trans hl (le_pow_depthFor _)
  · rintro m ⟨⟩; omega
  · show assembleChunks E T vs = _
    rw [assembleChunks_composite hc (by omega) fun x hx => (h x hx).root, List.map_map]
    rfl

theorem vector_proves {β : Type} {S : SimpleSerialize β} {v : β} {vs : List α} {s : α → MTree}
    (hc : T.isCompositeType = true) (h32 : T.itemLength = .ok 32)
    (h : ∀ x ∈ vs, TreeOf E T x (s x)) (hl : vs.length = n) (hn : n ≤ 2 ^ 56)
    (h1 : S.chunkCount = itemChunkCount E T n) (h2 : S.decoration v = none)
    (h3 : S.chunks v = assembleChunks E T vs)
    (h4 : S.proveElement v = collectionProveElement E T n vs) :
    ProvesBy E (computeProof E S v) (full (depthFor n) (vs.map s)) := by
  refine HasParts.proves ⟨vs.map s, n, none,
    ⟨h1.trans (itemChunkCount_32 h32 hn), hn, ?_, h2, by simp, ?_⟩, ?_, rfl⟩
  · rw [List.length_map, hl]
    exact le_pow_depthFor _
  · rw [h3, assembleChunks_composite hc (by omega) fun x hx => (h x hx).root, List.map_map]
    rfl
  · intro i u hu
    rw [h4]
    exact items_inner (Nat.le_of_eq hl) h i u hu

theorem list_proves_basic {c : Codec α} {vs : List α} (h : Implements T.toSerializable c)
    (hc : T.isCompositeType = false) (hvar : c.var = false) (hi : T.itemLength = .ok c.size)
    (hsize : c.size < 2 ^ 32) (hv : Each c.valid vs) (hl : vs.length ≤ n) (hm : vs.length < 2 ^ 64)
    (hb : (n * c.size + 31) / 32 ≤ 2 ^ 56) :
    ProvesBy E (computeProof E (SimpleSerialize.list E T n) vs)
      (.node (full (depthFor ((n * c.size + 31) / 32)) (leaves (vs.flatMap c.enc)))
        (numLeaf vs.length)) := by
  refine HasParts.proves ⟨leaves (vs.flatMap c.enc), (n * c.size + 31) / 32, some vs.length,
    ⟨itemChunkCount_ok hi hb, hb, ?_, rfl, ?_, ?_⟩, fun i s hs => Or.inl (leaves_leaf hs), rfl⟩
  · refine Nat.le_trans ?_ (le_pow_depthFor _)
    have := Nat.mul_le_mul_right c.size hl
    rw [leaves_length, flatMap_codec_length h hvar hv]; omega
  · rintro m ⟨⟩; exact hm
  · show assembleChunks E T vs = _
    rw [assembleChunks_basic h hc hvar hsize hv, leaves_root]

theorem vector_proves_basic {β : Type} {S : SimpleSerialize β} {v : β} {c : Codec α} {vs : List α}
    (h : Implements T.toSerializable c)
    (hc : T.isCompositeType = false) (hvar : c.var = false) (hi : T.itemLength = .ok c.size)
    (hsize : c.size < 2 ^ 32) (hv : Each c.valid vs) (hl : vs.length = n)
    (hb : (n * c.size + 31) / 32 ≤ 2 ^ 56)
    (h1 : S.chunkCount = itemChunkCount E T n) (h2 : S.decoration v = none)
    (h3 : S.chunks v = assembleChunks E T vs) :
    ProvesBy E (computeProof E S v)
      (full (depthFor ((n * c.size + 31) / 32)) (leaves (vs.flatMap c.enc))) := by
  refine HasParts.proves ⟨leaves (vs.flatMap c.enc), (n * c.size + 31) / 32, none,
    ⟨h1.trans (itemChunkCount_ok hi hb), hb, ?_, h2, by simp, ?_⟩,
    fun i s hs => Or.inl (leaves_leaf hs), rfl⟩
  · refine Nat.le_trans ?_ (le_pow_depthFor _)
    rw [leaves_length, flatMap_codec_length h hvar hv, hl]
  · rw [h3, assembleChunks_basic h hc hvar hsize hv, leaves_root]

end

theorem fieldTrees_roots {E : Env} : {α : Type} → (fs : FieldImpls α) → (v : α) → (ss : List MTree) →
    FieldTrees E fs v ss → fieldRoots fs v = (ss.map (·.root E.sha256)).map .ok
  | _, .nil, _, ss, h => by cases (show ss = [] from h); rfl
  | _, .cons _ T rest, v, ss, h => by
    obtain ⟨s, ss', rfl, hs, h⟩ := h
    show T.hashTreeRoot v.1 :: fieldRoots rest v.2 = _
    rw [hs.root, fieldTrees_roots rest v.2 ss' h]
    rfl

theorem fieldTrees_proves {E : Env} : {α : Type} → (fs : FieldImpls α) → (v : α) → (ss : List MTree) →
    FieldTrees E fs v ss → ∀ i s, ss[i]? = some s → ProvesBy E (fun pr => fs.proveField E pr v i) s
  | _, .nil, _, ss, h, i, s, hi => by cases (show ss = [] from h); exact nomatch hi
  | _, .cons _ T rest, v, ss, h, i, s, hi => by
    obtain ⟨s', ss', rfl, hs, h⟩ := h
    match i with
    | 0 => cases hi; exact hs.proof
    | i + 1 => exact fieldTrees_proves rest v.2 ss' h i s hi

theorem fieldTrees_count {E : Env} : {α : Type} → (fs : FieldImpls α) → (v : α) → (ss : List MTree) →
    FieldTrees E fs v ss → fs.count = ss.length
  | _, .nil, _, ss, h => by cases (show ss = [] from h); rfl
  | _, .cons _ T rest, v, ss, h => by
    obtain ⟨s, ss', rfl, hs, h⟩ := h
    show 1 + rest.count = _
    rw [fieldTrees_count rest v.2 ss' h, List.length_cons, Nat.add_comm]

theorem struct_proves {α : Type} {E : Env} {fs : FieldImpls α} {v : α} {ss : List MTree}
    (h : FieldTrees E fs v ss) (hc : ss.length ≤ 2 ^ 56) :
    ProvesBy E (computeProof E (SimpleSerialize.container E fs) v) (full (depthFor ss.length) ss) := by
  have hn := fieldTrees_count fs v ss h
  refine HasParts.proves ⟨ss, ss.length, none,
    ⟨congrArg Res.ok hn, hc, le_pow_depthFor _, rfl, by simp, ?_⟩, fun i s hi => ?_, rfl⟩
  · have h1 := assembleLoop_roots fs v [] (ss.map (·.root E.sha256)) (fieldTrees_roots fs v ss h)
    rw [List.nil_append, List.nil_append, flat_replicate, List.length_map] at h1
    show fs.assembleChunks v = _
    unfold FieldImpls.assembleChunks
    rw [hn]
    exact h1
  · refine Or.inr fun pr u hu hg => ?_
    have hlt := (List.getElem?_eq_some_iff.1 hi).1
    show (if i ≥ fs.count then _ else _) = _
    rw [if_neg (by omega)]
    exact fieldTrees_proves fs v ss h i s hi pr u hu hg

theorem variantTree_chunks {E : Env} : {α : Type} → (vs : VariantImpls α) → (v : α) → (m : Nat) →
    (s : MTree) → VariantTree E vs v m s → vs.chunks v = .ok (s.root E.sha256).1 ∧
      (∀ i, vs.decoration i v = i + m) ∧
      ((∃ n, s = .leaf n) ∨ ProvesBy E (fun pr => vs.proveVariant E pr v) s) ∧ m < vs.count
  | _, .nil, v, _, _, _ => v.elim
  | _, .unit rest, .inl _, m, s, h => by
    obtain ⟨rfl, rfl⟩ := h
    exact ⟨rfl, fun _ => rfl, Or.inl ⟨_, rfl⟩, show 0 < 1 + _ by omega⟩
  | _, .unit rest, .inr v, m, s, h => by
    obtain ⟨m', rfl, h⟩ := h
    obtain ⟨h1, h2, h3, h4⟩ := variantTree_chunks rest v m' s h
    refine ⟨h1, fun i => ?_, h3, show m' + 1 < 1 + _ by omega⟩
    show rest.decoration (i + 1) v = _
    rw [h2]; omega
  | _, .data T rest, .inl v, m, s, h => by
    obtain ⟨rfl, h⟩ := h
    refine ⟨?_, fun _ => rfl, Or.inr h.proof, show 0 < 1 + _ by omega⟩
    show (T.hashTreeRoot v).map (·.1) = _
    rw [h.root, Res.map_ok]
  | _, .data T rest, .inr v, m, s, h => by
    obtain ⟨m', rfl, h⟩ := h
    obtain ⟨h1, h2, h3, h4⟩ := variantTree_chunks rest v m' s h
    refine ⟨h1, fun i => ?_, h3, show m' + 1 < 1 + _ by omega⟩
    show rest.decoration (i + 1) v = _
    rw [h2]; omega

theorem union_proves {α : Type} {E : Env} {vs : VariantImpls α} {v : α} {m : Nat} {s : MTree}
    (h : VariantTree E vs v m s) (hc : vs.count ≤ 2 ^ 64) :
    ProvesBy E (computeProof E (SimpleSerialize.union E vs) v) (.node s (numLeaf m)) := by
  obtain ⟨h1, h2, h3, h4⟩ := variantTree_chunks vs v m s h
  refine HasParts.proves (pair_parts (by omega) rfl ?_ h1 ?_)
  · show some (vs.decoration 0 v) = _
    rw [h2, Nat.zero_add]
  · rcases h3 with h3 | h3
    · exact Or.inl h3
    · refine Or.inr fun pr u hu hg => ?_
      show (if 0 ≥ vs.count then _ else _) = _
      rw [if_neg (by omega)]
      exact h3 pr u hu hg

theorem allData_root {E : Env} : {α : Type} → (vs : VariantImpls α) → (v : α) → (m : Nat) →
    (s : MTree) → AllData vs → VariantTree E vs v m s → ∀ i, i + vs.count ≤ 2 ^ 64 →
    vs.hashTreeRoot E i v = .ok ((MTree.node s (numLeaf (i + m))).root E.sha256)
  | _, .nil, v, _, _, _, _, _, _ => v.elim
  | _, .unit _, _, _, _, h, _, _, _ => h.elim
  | _, .data T rest, .inl v, m, s, _, h, i, hi => by
    obtain ⟨rfl, h⟩ := h
    have hi : i + (1 + rest.count) ≤ 2 ^ 64 := hi
    show (T.hashTreeRoot v >>= fun chunks => mixInDecoration E chunks i) = _
    rw [h.root, Res.ok_bind, mixInDecoration_ok E (by omega)]
    rfl
  | _, .data T rest, .inr v, m, s, ha, h, i, hi => by
    obtain ⟨m', rfl, h⟩ := h
    have hi : i + (1 + rest.count) ≤ 2 ^ 64 := hi
    show rest.hashTreeRoot E (i + 1) v = _
    rw [allData_root rest v m' s ha h (i + 1) (by omega), show i + 1 + m' = i + (m' + 1) by omega]

theorem union_root {α : Type} {E : Env} (vs : VariantImpls α) (v : α) (m : Nat) (s : MTree)
    (hu : UnitFirst vs) (h : VariantTree E vs v m s) (hc : vs.count ≤ 2 ^ 64) :
    vs.hashTreeRoot E 0 v = .ok ((MTree.node s (numLeaf m)).root E.sha256) := by
  match vs, v, hu, h with
  | .nil, v, _, _ => exact v.elim
  | .unit rest, .inl u, _, h =>
    obtain ⟨rfl, rfl⟩ := h
    exact mixInDecoration_ok E (by decide) zeroNode
  | .unit rest, .inr v, hu, h =>
    obtain ⟨m', rfl, h'⟩ := h
    have hc : 1 + rest.count ≤ 2 ^ 64 := hc
    have := allData_root rest v m' s hu h' 1 hc
    rw [Nat.add_comm 1] at this
    exact this
  | .data T rest, v, hu, h =>
    have := allData_root (.data T rest) v m s hu h 0 (by omega)
    rw [Nat.zero_add] at this
    exact this

end Ssz
