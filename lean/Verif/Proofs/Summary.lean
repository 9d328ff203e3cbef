import Verif.Spec.Summary
import Verif.Proofs.GenIndex
import Verif.Proofs.On
import Verif.Proofs.Prove

/-!
# Roots in place of parts: trees, indices, side conditions
-/

namespace Ssz

open Spec

/-! ## Trees with subtrees replaced by their roots -/

/-- The first tree is the second one with some subtrees replaced by their roots. -/
inductive Cut (H : Bytes → Node) : MTree → MTree → Prop
  | leaf {n : Node} {t : MTree} (h : t.root H = n) : Cut H (.leaf n) t
  | node {l r l' r' : MTree} (hl : Cut H l l') (hr : Cut H r r') : Cut H (.node l r) (.node l' r')

theorem Cut.refl {H : Bytes → Node} : ∀ t : MTree, Cut H t t
  | .leaf _ => .leaf rfl
  | .node l r => .node (Cut.refl l) (Cut.refl r)

theorem Cut.root {H : Bytes → Node} {s t : MTree} (h : Cut H s t) : s.root H = t.root H := by
  induction h with
  | leaf h => exact h.symm
  | node _ _ hl hr => rw [MTree.root, MTree.root, hl, hr]

theorem Cut.sub {H : Bytes → Node} {s t : MTree} (h : Cut H s t) : ∀ {g : Nat} {u : MTree},
    s.sub g = some u → ∃ w, t.sub g = some w ∧ Cut H u w := by
  intro g
  induction g using Nat.strongRecOn with
  | _ g ih =>
    intro u hu
    by_cases hg : 1 < g
    · obtain ⟨l, r, h1, rfl⟩ := (sub_step hg).1 hu
      obtain ⟨w, h2, h3⟩ := ih (g / 2) (by omega) h1
      cases h3 with
      | node hl hr =>
        refine ⟨_, (sub_step hg).2 ⟨_, _, h2, rfl⟩, ?_⟩
        split
        · exact hl
        · exact hr
    · have : g = 1 := by
        have := sub_pos hu
        omega
      subst this
      rw [sub_one] at hu
      cases hu
      exact ⟨t, sub_one t, h⟩

theorem Cut.branch {H : Bytes → Node} {s t : MTree} (h : Cut H s t) : ∀ {g : Nat} {u : MTree},
    s.sub g = some u → s.branchAt H g = t.branchAt H g := by
  intro g
  induction g using Nat.strongRecOn with
  | _ g ih =>
    intro u hu
    by_cases hg : 1 < g
    · obtain ⟨l, r, h1, rfl⟩ := (sub_step hg).1 hu
      obtain ⟨w, h2, h3⟩ := h.sub h1
      cases h3 with
      | node hl hr =>
        rw [branchAt_step hg h1, branchAt_step hg h2, ih (g / 2) (by omega) h1]
        split
        · rw [hr.root]
        · rw [hl.root]
    · rw [branchAt_one (by omega), branchAt_one (by omega)]

theorem cut_full {H : Bytes → Node} : ∀ (d : Nat) {ps qs : List MTree}, List.Forall₂ (Cut H) ps qs →
    Cut H (full d ps) (full d qs)
  | 0, _, _, .nil => Cut.refl _
  | 0, _, _, .cons h _ => h
  | d + 1, _, _, h => .node (cut_full d (List.forall₂_take _ h)) (cut_full d (List.forall₂_drop _ h))


/-! ## Elements of collections -/

theorem unpacked_elim {P : ∀ {t t' : Ty}, Summary t t' → Prop} (hs : ∀ t, P (.same t))
    (ho : ∀ {t t' : Ty} (r : Summary t t'), packs t = false → (packs t' = true → t' = .node) → P r) :
    ∀ {t t' : Ty} (r : Summary t t'), Unpacked r → P r
  | _, _, .same _, _ => hs _
  | _, _, .root _, h => ho _ h.1 h.2
  | _, _, .array _ _, h => ho _ h.1 h.2
  | _, _, .vector _ _, h => ho _ h.1 h.2
  | _, _, .list _ _, h => ho _ h.1 h.2
  | _, _, .option _, h => ho _ h.1 h.2
  | _, _, .newtype _, h => ho _ h.1 h.2
  | _, _, .container _, h => ho _ h.1 h.2
  | _, _, .union _, h => ho _ h.1 h.2

theorem prims_of_packs {t : Ty} (h : packs t = false) : prims t = false := by
  cases t <;> first | rfl | (cases h)

theorem summary_chunks {t t' : Ty} (r : Summary t t') (h : Unpacked r) (n : Nat) :
    chunkCountBy packs t' n = chunkCountBy packs t n := by
  refine unpacked_elim (P := fun {t t'} _ => chunkCountBy packs t' n = chunkCountBy packs t n)
    (fun _ => rfl) (fun {t t'} _ h1 h2 => ?_) r h
  simp only [chunkCountBy, h1, Bool.false_eq_true, if_false]
  split
  · rename_i hp
    rw [h2 hp]
    show (n * 32 + 31) / 32 = n
    omega
  · rfl

theorem summary_itemLen {t t' : Ty} (r : Summary t t') (h : Unpacked r) :
    itemLen prims t' = itemLen prims t := by
  refine unpacked_elim (P := fun {t t'} _ => itemLen prims t' = itemLen prims t)
    (fun _ => rfl) (fun {t t'} _ h1 h2 => ?_) r h
  rw [itemLen, itemLen, prims_of_packs h1]
  cases hp : packs t' with
  | true => rw [h2 hp]; rfl
  | false => rw [prims_of_packs hp]; rfl

theorem summary_itemCount {t t' : Ty} (r : Summary t t') (h : Unpacked r) (n : Nat) :
    itemCount prims t' n = itemCount prims t n := by
  rw [itemCount, itemCount, summary_itemLen r h]

theorem summary_flatElem {t t' : Ty} (r : Summary t t') (h : Unpacked r)
    (hf : flatElem t = true) : flatElem t' = true := by
  refine unpacked_elim (P := fun {t t'} _ => flatElem t = true → flatElem t' = true)
    (fun _ h => h) (fun {t t'} _ _ h2 _ => ?_) r h hf
  cases hp : packs t' with
  | true => rw [h2 hp]; rfl
  | false =>
    cases t' with
    | array u n =>
      show (!packs u || oneChunk (.array u n)) = true
      rw [show packs u = false from hp]
      rfl
    | _ => rfl

theorem summary_held {t t' : Ty} (r : Summary t t') (h : Unpacked r) {n : Nat}
    (hn : held t n) : held t' n := by
  refine unpacked_elim (P := fun {t t'} _ => held t n → held t' n)
    (fun _ h => h) (fun {t t'} _ _ h2 hn => ⟨hn.1, fun hp => ?_⟩) r h hn
  rw [h2 hp]
  have := hn.1
  show n * 32 < 2 ^ 63
  omega

/-- Roots are packed one to a chunk. -/
theorem leaves_nodes : ∀ ns : List Node, leaves (ns.flatMap Subtype.val) = ns.map MTree.leaf
  | [] => rfl
  | n :: ns => by
    have hn : n.1.length = 32 := n.2
    rw [List.flatMap_cons, List.map_cons, ← leaves_nodes ns, leaves, leaves, chunkify, chunkify,
      List.length_append, hn, show (32 + (ns.flatMap Subtype.val).length + 31) / 32 =
        ((ns.flatMap Subtype.val).length + 31) / 32 + 1 by omega, List.range_succ_eq_map,
      List.map_cons, List.map_cons, List.map_map, List.map_map, List.map_map]
    congr 1
    · congr 1
      apply Subtype.ext
      show ((n.1 ++ _ ++ _).take 32) = n.1
      rw [List.append_assoc, List.take_left' hn]
    · refine List.map_congr_left fun i _ => ?_
      show MTree.leaf (pad32 ((n.1 ++ _).drop (32 * (i + 1)))) = _
      rw [List.drop_append, hn, List.drop_eq_nil_of_le (by rw [hn]; omega), List.nil_append,
        show 32 * (i + 1) - 32 = 32 * i by omega]
      rfl

theorem cut_list {H : Bytes → Node} {t t' : Ty} (r : Summary t t') (hu : Unpacked r)
    (vs : List t.Val)
    (hc : ∀ x ∈ vs, Cut H (treeBy packs t' (summary H r x)) (treeBy packs t x)) :
    List.Forall₂ (Cut H)
      (if packs t' then leaves ((vs.map (summary H r)).flatMap (enc t'))
        else (vs.map (summary H r)).map (treeBy packs t'))
      (if packs t then leaves (vs.flatMap (enc t)) else vs.map (treeBy packs t)) := by
  refine unpacked_elim (P := fun {t t'} r => ∀ vs : List t.Val,
    (∀ x ∈ vs, Cut H (treeBy packs t' (summary H r x)) (treeBy packs t x)) →
    List.Forall₂ (Cut H)
      (if packs t' then leaves ((vs.map (summary H r)).flatMap (enc t'))
        else (vs.map (summary H r)).map (treeBy packs t'))
      (if packs t then leaves (vs.flatMap (enc t)) else vs.map (treeBy packs t)))
    (fun t vs _ => ?_) (fun {t t'} r h1 h2 vs hc => ?_) r hu vs hc
  · rw [show vs.map (summary H (.same t)) = vs from List.map_id vs]
    exact List.forall₂_same.2 fun x _ => Cut.refl x
  · rw [show (if packs t then leaves (vs.flatMap (enc t)) else vs.map (treeBy packs t)) =
      vs.map (treeBy packs t) from if_neg (by rw [h1]; simp)]
    have h3 : List.Forall₂ (Cut H) ((vs.map (summary H r)).map (treeBy packs t'))
        (vs.map (treeBy packs t)) := by
      rw [List.map_map, List.forall₂_map_left_iff, List.forall₂_map_right_iff]
      exact List.forall₂_same.2 hc
    split
    · rename_i hp
      obtain rfl := h2 hp
      have h4 := leaves_nodes (vs.map (summary H r) :)
      exact Eq.subst (motive := fun l => List.Forall₂ (Cut H) l (vs.map (treeBy packs t))) h4.symm h3
    · exact h3

theorem summary_names : ∀ {fs fs' : Fields}, SummaryF fs fs' → namesF fs' = namesF fs
  | _, _, .nil => rfl
  | _, _, .cons name _ rs => congrArg (name :: ·) (summary_names rs)

theorem summary_count : ∀ {fs fs' : Fields}, SummaryF fs fs' → countF fs' = countF fs
  | _, _, .nil => rfl
  | _, _, .cons _ _ rs => congrArg (· + 1) (summary_count rs)

mutual

/-- The tree of the summary is that of the value, with roots in place of subtrees. -/
theorem cut_summary (H : Bytes → Node) : ∀ {t t' : Ty} (r : Summary t t'), Apart r → ∀ v : t.Val,
    Cut H (treeBy packs t' (summary H r v)) (treeBy packs t v)
  | _, _, .same _, _, _ => Cut.refl _
  | _, _, .root _, _, _ => .leaf rfl
  | _, _, .array r n, h, v => by
    have := cut_body H r h.1 h.2 v.1
    simp only [treeBy, summary, summary_chunks r h.1]
    exact cut_full _ this
  | _, _, .vector r n, h, v => by
    have := cut_body H r h.1 h.2 v
    simp only [treeBy, summary, summary_chunks r h.1]
    exact cut_full _ this
  | _, _, .list r n, h, v => by
    have := cut_body H r h.1 h.2 v
    have hlen : (List.map (summary H r) v).length = List.length v := List.length_map (as := v) _
    simp only [treeBy, summary, summary_chunks r h.1]
    refine .node (cut_full _ this) ?_
    rw [show numLeaf (List.length (List.map (summary H r) v)) = numLeaf (List.length v) from
      congrArg numLeaf hlen]
    exact Cut.refl _
  | _, _, .option r, h, v => by
    match v with
    | none => exact Cut.refl _
    | some x => exact .node (cut_summary H r h x) (Cut.refl _)
  | _, _, .newtype r, h, v => (cut_summary H r h v :)
  | _, _, .container r, h, v => by
    simp only [treeBy, summary]
    rw [summary_count r]
    exact cut_full _ (cut_summaryF H r h v)
  | _, _, .union r, h, v => cut_summaryV H r h 0 v

theorem cut_body (H : Bytes → Node) : ∀ {t t' : Ty} (r : Summary t t'), Unpacked r → Apart r →
    ∀ vs : List t.Val, List.Forall₂ (Cut H)
      (if packs t' then leaves ((vs.map (summary H r)).flatMap (enc t'))
        else (vs.map (summary H r)).map (treeBy packs t'))
      (if packs t then leaves (vs.flatMap (enc t)) else vs.map (treeBy packs t))
  | _, _, r, hu, ha, vs => cut_list r hu vs fun x _ => cut_summary H r ha x

theorem cut_summaryF (H : Bytes → Node) : ∀ {fs fs' : Fields} (r : SummaryF fs fs'), ApartF r →
    ∀ v : fs.Val, List.Forall₂ (Cut H) (treesByF packs fs' (summaryF H r v)) (treesByF packs fs v)
  | _, _, .nil, _, _ => .nil
  | _, _, .cons _ r rs, h, v => .cons (cut_summary H r h.1 v.1) (cut_summaryF H rs h.2 v.2)

theorem cut_summaryV (H : Bytes → Node) : ∀ {vs vs' : Variants} (r : SummaryV vs vs'), ApartV r →
    ∀ (i : Nat) (v : vs.Val), Cut H (treeByV packs vs' i (summaryV H r v)) (treeByV packs vs i v)
  | _, _, .nil, _, _, v => Empty.elim v
  | _, _, .unit _, _, _, .inl _ => Cut.refl _
  | _, _, .unit rs, h, i, .inr v => cut_summaryV H rs h (i + 1) v
  | _, _, .data r _, h, _, .inl v => .node (cut_summary H r h.1 v) (Cut.refl _)
  | _, _, .data _ rs, h, i, .inr v => cut_summaryV H rs h.2 (i + 1) v

end

/-! ## Side conditions -/

theorem summary_noUnit : ∀ {vs vs' : Variants}, SummaryV vs vs' → noUnitV vs' = noUnitV vs
  | _, _, .nil => rfl
  | _, _, .unit _ => rfl
  | _, _, .data _ rs => (summary_noUnit rs :)

theorem summary_countV : ∀ {vs vs' : Variants}, SummaryV vs vs' → countV vs' = countV vs
  | _, _, .nil => rfl
  | _, _, .unit rs => congrArg (· + 1) (summary_countV rs)
  | _, _, .data _ rs => congrArg (· + 1) (summary_countV rs)

theorem summary_shape {vs vs' : Variants} (r : SummaryV vs vs') (h : unionShape vs) :
    unionShape vs' := by
  cases r with
  | nil => exact h
  | unit rs =>
    rw [unionShape] at h ⊢
    rw [summary_noUnit rs, summary_countV rs]
    exact h
  | data r rs =>
    rw [unionShape] at h ⊢
    rw [summary_noUnit rs, summary_countV rs]
    exact h

mutual

theorem summary_legal : ∀ {t t' : Ty} (_ : Summary t t'), Legal t → Legal t'
  | _, _, .same _, h => h
  | _, _, .root _, _ => trivial
  | _, _, .array r _, h => ⟨h.1, summary_legal r h.2⟩
  | _, _, .vector r _, h => ⟨h.1, summary_legal r h.2⟩
  | _, _, .list r _, h => (summary_legal r h :)
  | _, _, .option r, h => (summary_legal r h :)
  | _, _, .newtype r, h => (summary_legal r h :)
  | _, _, .container r, h =>
    ⟨by rw [summary_names r]; exact h.1, by rw [summary_names r]; exact h.2.1, summary_legalF r h.2.2⟩
  | _, _, .union r, h => ⟨summary_shape r h.1, summary_legalV r h.2⟩

theorem summary_legalF : ∀ {fs fs' : Fields} (_ : SummaryF fs fs'), LegalF fs → LegalF fs'
  | _, _, .nil, _ => trivial
  | _, _, .cons _ r rs, h => ⟨summary_legal r h.1, summary_legalF rs h.2⟩

theorem summary_legalV : ∀ {vs vs' : Variants} (_ : SummaryV vs vs'), LegalV vs → LegalV vs'
  | _, _, .nil, _ => trivial
  | _, _, .unit rs, h => (summary_legalV rs h :)
  | _, _, .data r rs, h => ⟨summary_legal r h.1, summary_legalV rs h.2⟩

end

mutual

theorem summary_shallow : ∀ {t t' : Ty} (r : Summary t t'), Apart r → Shallow t → Shallow t'
  | _, _, .same _, _, h => h
  | _, _, .root _, _, _ => trivial
  | _, _, .array r n, ha, h =>
    ⟨by rw [summary_itemCount r ha.1]; exact h.1, summary_shallow r ha.2 h.2⟩
  | _, _, .vector r n, ha, h =>
    ⟨by rw [summary_itemCount r ha.1]; exact h.1, summary_shallow r ha.2 h.2⟩
  | _, _, .list r n, ha, h =>
    ⟨by rw [summary_itemCount r ha.1]; exact h.1, summary_shallow r ha.2 h.2⟩
  | _, _, .option r, ha, h => (summary_shallow r ha h :)
  | _, _, .newtype r, ha, h => (summary_shallow r ha h :)
  | _, _, .container r, ha, h => ⟨by rw [summary_count r]; exact h.1, summary_shallowF r ha h.2⟩
  | _, _, .union r, ha, h => (summary_shallowV r ha h :)

theorem summary_shallowF : ∀ {fs fs' : Fields} (r : SummaryF fs fs'), ApartF r → ShallowF fs →
    ShallowF fs'
  | _, _, .nil, _, _ => trivial
  | _, _, .cons _ r rs, ha, h => ⟨summary_shallow r ha.1 h.1, summary_shallowF rs ha.2 h.2⟩

theorem summary_shallowV : ∀ {vs vs' : Variants} (r : SummaryV vs vs'), ApartV r → ShallowV vs →
    ShallowV vs'
  | _, _, .nil, _, _ => trivial
  | _, _, .unit rs, ha, h => (summary_shallowV rs ha h :)
  | _, _, .data r rs, ha, h => ⟨summary_shallow r ha.1 h.1, summary_shallowV rs ha.2 h.2⟩

end

theorem summary_elem {t t' : Ty} (r : Summary t t') (hu : Unpacked r)
    (h : packs t = true → fixedLen t < 2 ^ 32) : packs t' = true → fixedLen t' < 2 ^ 32 := by
  refine unpacked_elim (P := fun {t t'} _ => (packs t = true → fixedLen t < 2 ^ 32) →
    packs t' = true → fixedLen t' < 2 ^ 32) (fun _ h => h) (fun {t t'} _ _ h2 _ hp => ?_) r hu h
  rw [h2 hp]
  show 32 < 2 ^ 32
  decide

theorem summary_room {t t' : Ty} (r : Summary t t') (hu : Unpacked r) {n : Nat}
    (hc : itemCount prims t n ≤ 2 ^ 56)
    (h : if packs t then n * fixedLen t < 2 ^ 64 else n ≤ 2 ^ 63) :
    if packs t' then n * fixedLen t' < 2 ^ 64 else n ≤ 2 ^ 63 := by
  refine unpacked_elim (P := fun {t t'} _ => itemCount prims t n ≤ 2 ^ 56 →
    (if packs t then n * fixedLen t < 2 ^ 64 else n ≤ 2 ^ 63) →
    if packs t' then n * fixedLen t' < 2 ^ 64 else n ≤ 2 ^ 63)
    (fun _ _ h => h) (fun {t t'} _ h1 h2 hc _ => ?_) r hu hc h
  rw [itemCount, itemLen, prims_of_packs h1] at hc
  simp only [Bool.false_eq_true, if_false] at hc
  split
  · rename_i hp
    rw [h2 hp]
    show n * 32 < 2 ^ 64
    omega
  · omega

mutual

theorem summary_bounded : ∀ {t t' : Ty} (r : Summary t t'), Apart r → Shallow t → Bounded t →
    Bounded t'
  | _, _, .same _, _, _, h => h
  | _, _, .root _, _, _, _ => trivial
  | _, _, .array r n, ha, hs, h => ⟨summary_bounded r ha.2 hs.2 h.1, summary_elem r ha.1 h.2⟩
  | _, _, .vector r n, ha, hs, h => ⟨summary_bounded r ha.2 hs.2 h.1, summary_elem r ha.1 h.2⟩
  | _, _, .list r n, ha, hs, h => ⟨summary_bounded r ha.2 hs.2 h.1, summary_elem r ha.1 h.2.1,
      summary_room r ha.1 hs.1 h.2.2⟩
  | _, _, .option r, ha, hs, h => (summary_bounded r ha hs h :)
  | _, _, .newtype r, ha, hs, h => (summary_bounded r ha hs h :)
  | _, _, .container r, ha, hs, h =>
    ⟨summary_boundedF r ha hs.2 h.1, by rw [summary_count r]; exact h.2⟩
  | _, _, .union r, ha, hs, h => (summary_boundedV r ha hs h :)

theorem summary_boundedF : ∀ {fs fs' : Fields} (r : SummaryF fs fs'), ApartF r → ShallowF fs →
    BoundedF fs → BoundedF fs'
  | _, _, .nil, _, _, _ => trivial
  | _, _, .cons _ r rs, ha, hs, h =>
    ⟨summary_bounded r ha.1 hs.1 h.1, summary_boundedF rs ha.2 hs.2 h.2⟩

theorem summary_boundedV : ∀ {vs vs' : Variants} (r : SummaryV vs vs'), ApartV r → ShallowV vs →
    BoundedV vs → BoundedV vs'
  | _, _, .nil, _, _, _ => trivial
  | _, _, .unit rs, ha, hs, h => (summary_boundedV rs ha hs h :)
  | _, _, .data r rs, ha, hs, h =>
    ⟨summary_bounded r ha.1 hs.1 h.1, summary_boundedV rs ha.2 hs.2 h.2⟩

end

mutual

theorem summary_valid (H : Bytes → Node) : ∀ {t t' : Ty} (r : Summary t t') (v : t.Val),
    Valid t v → Valid t' (summary H r v)
  | _, _, .same _, _, h => h
  | _, _, .root _, _, _ => trivial
  | _, _, .array r _, v, h => summary_validL H r v.1 h
  | _, _, .vector r _, v, h => ⟨(List.length_map _).trans h.1, summary_validL H r v h.2⟩
  | _, _, .list r _, v, h =>
    ⟨(List.length_map (as := v) (summary H r)).le.trans h.1, summary_validL H r v h.2⟩
  | _, _, .option r, v, h => by
    match v with
    | none => exact fun x hx => nomatch hx
    | some x => exact fun y hy => by cases hy; exact summary_valid H r x (h _ rfl)
  | _, _, .newtype r, v, h => (summary_valid H r v h :)
  | _, _, .container r, v, h => summary_validF H r v h
  | _, _, .union r, v, h => summary_validV H r v h

theorem summary_validL (H : Bytes → Node) : ∀ {t t' : Ty} (r : Summary t t') (vs : List t.Val),
    Each (Valid t) vs → Each (Valid t') (vs.map (summary H r))
  | _, _, r, vs, h => by
    intro y hy
    obtain ⟨x, hx, rfl⟩ := List.mem_map.mp hy
    exact summary_valid H r x (h x hx)

theorem summary_validF (H : Bytes → Node) : ∀ {fs fs' : Fields} (r : SummaryF fs fs') (v : fs.Val),
    ValidF fs v → ValidF fs' (summaryF H r v)
  | _, _, .nil, _, _ => trivial
  | _, _, .cons _ r rs, v, h => ⟨summary_valid H r v.1 h.1, summary_validF H rs v.2 h.2⟩

theorem summary_validV (H : Bytes → Node) : ∀ {vs vs' : Variants} (r : SummaryV vs vs')
    (v : vs.Val), ValidV vs v → ValidV vs' (summaryV H r v)
  | _, _, .nil, v, _ => Empty.elim v
  | _, _, .unit _, .inl _, _ => trivial
  | _, _, .unit rs, .inr v, h => summary_validV H rs v h
  | _, _, .data r _, .inl v, h => summary_valid H r v h
  | _, _, .data _ rs, .inr v, h => summary_validV H rs v h

end

mutual

theorem summary_inMemory (H : Bytes → Node) : ∀ {t t' : Ty} (r : Summary t t'), Apart r →
    ∀ v : t.Val, InMemory t v → InMemory t' (summary H r v)
  | _, _, .same _, _, _, h => h
  | _, _, .root _, _, _, _ => trivial
  | _, _, .array r _, ha, v, h =>
    ⟨summary_held r ha.1 (by rw [summary, List.length_map]; exact h.1),
      summary_inMemoryL H r ha.2 v.1 h.2⟩
  | _, _, .vector r n, ha, v, h =>
    ⟨summary_held r ha.1 (by
      rw [show (summary H (.vector r n) v).length = List.length v from List.length_map (as := v) _]
      exact h.1), summary_inMemoryL H r ha.2 v h.2⟩
  | _, _, .list r n, ha, v, h =>
    ⟨summary_held r ha.1 (by
      rw [show (summary H (.list r n) v).length = List.length v from List.length_map (as := v) _]
      exact h.1), summary_inMemoryL H r ha.2 v h.2⟩
  | _, _, .option r, ha, v, h => by
    match v with
    | none => exact fun x hx => nomatch hx
    | some x => exact fun y hy => by cases hy; exact summary_inMemory H r ha x (h _ rfl)
  | _, _, .newtype r, ha, v, h => (summary_inMemory H r ha v h :)
  | _, _, .container r, ha, v, h => summary_inMemoryF H r ha v h
  | _, _, .union r, ha, v, h => summary_inMemoryV H r ha v h

theorem summary_inMemoryL (H : Bytes → Node) : ∀ {t t' : Ty} (r : Summary t t'), Apart r →
    ∀ vs : List t.Val, Each (InMemory t) vs → Each (InMemory t') (vs.map (summary H r))
  | _, _, r, ha, vs, h => by
    intro y hy
    obtain ⟨x, hx, rfl⟩ := List.mem_map.mp hy
    exact summary_inMemory H r ha x (h x hx)

theorem summary_inMemoryF (H : Bytes → Node) : ∀ {fs fs' : Fields} (r : SummaryF fs fs'),
    ApartF r → ∀ v : fs.Val, InMemoryF fs v → InMemoryF fs' (summaryF H r v)
  | _, _, .nil, _, _, _ => trivial
  | _, _, .cons _ r rs, ha, v, h =>
    ⟨summary_inMemory H r ha.1 v.1 h.1, summary_inMemoryF H rs ha.2 v.2 h.2⟩

theorem summary_inMemoryV (H : Bytes → Node) : ∀ {vs vs' : Variants} (r : SummaryV vs vs'),
    ApartV r → ∀ v : vs.Val, InMemoryV vs v → InMemoryV vs' (summaryV H r v)
  | _, _, .nil, _, v, _ => Empty.elim v
  | _, _, .unit _, _, .inl _, _ => trivial
  | _, _, .unit rs, ha, .inr v, h => summary_inMemoryV H rs ha v h
  | _, _, .data r _, ha, .inl v, h => summary_inMemory H r ha.1 v h
  | _, _, .data _ rs, ha, .inr v, h => summary_inMemoryV H rs ha.2 v h

end

theorem summary_depth : ∀ {t t' : Ty} (r : Summary t t'), Apart r → SameDepth t → SameDepth t'
  | _, _, .same _, _, h => h
  | _, _, .root _, _, _ => trivial
  | _, _, .array r n, ha, h => by
    rw [SameDepth, summary_itemCount r ha.1, summary_chunks r ha.1]; exact h
  | _, _, .vector r n, ha, h => by
    rw [SameDepth, summary_itemCount r ha.1, summary_chunks r ha.1]; exact h
  | _, _, .list r n, ha, h => by
    rw [SameDepth, summary_itemCount r ha.1, summary_chunks r ha.1]; exact h
  | _, _, .option _, _, _ => trivial
  | _, _, .newtype r, ha, h => (summary_depth r ha h :)
  | _, _, .container _, _, _ => trivial
  | _, _, .union _, _, _ => trivial

mutual

theorem summary_flatOn : ∀ {t t' : Ty} (r : Summary t t'), Apart r → ∀ path : List PathElement,
    FlatOn t path → FlatOn t' path
  | _, _, .same _, _, _, h => h
  | _, _, .root _, _, _, _ => trivial
  | _, _, .array r _, ha, path, h => by
    match path with
    | [] => trivial
    | .index _ :: rest => exact ⟨summary_flatElem r ha.1 h.1, summary_flatOn r ha.2 rest h.2⟩
    | .field _ :: _ => trivial
    | .length :: _ => trivial
    | .selector :: _ => trivial
  | _, _, .vector r _, ha, path, h => by
    match path with
    | [] => trivial
    | .index _ :: rest => exact ⟨summary_flatElem r ha.1 h.1, summary_flatOn r ha.2 rest h.2⟩
    | .field _ :: _ => trivial
    | .length :: _ => trivial
    | .selector :: _ => trivial
  | _, _, .list r _, ha, path, h => by
    match path with
    | [] => trivial
    | .index _ :: rest => exact ⟨summary_flatElem r ha.1 h.1, summary_flatOn r ha.2 rest h.2⟩
    | .field _ :: _ => trivial
    | .length :: _ => exact summary_flatElem r ha.1 h
    | .selector :: _ => trivial
  | _, _, .option r, ha, path, h => by
    match path with
    | [] => trivial
    | .index _ :: rest => exact (summary_flatOn r ha rest h :)
    | .field _ :: _ => trivial
    | .length :: _ => trivial
    | .selector :: _ => trivial
  | _, _, .newtype r, ha, path, h => (summary_flatOn r ha path h :)
  | _, _, .container r, ha, path, h => by
    match path with
    | [] => trivial
    | .index _ :: _ => trivial
    | .field name :: rest => exact (summary_flatOnF r ha name rest h :)
    | .length :: _ => trivial
    | .selector :: _ => trivial
  | _, _, .union r, ha, path, h => by
    match path with
    | [] => trivial
    | .index i :: rest => exact (summary_flatOnV r ha i rest h :)
    | .field _ :: _ => trivial
    | .length :: _ => trivial
    | .selector :: _ => trivial

theorem summary_flatOnF : ∀ {fs fs' : Fields} (r : SummaryF fs fs'), ApartF r →
    ∀ (name : String) (path : List PathElement), FlatOnF fs name path → FlatOnF fs' name path
  | _, _, .nil, _, _, _, _ => trivial
  | _, _, .cons n r rs, ha, name, path, h => by
    rw [FlatOnF] at h ⊢
    split
    · rw [if_pos ‹_›] at h; exact summary_flatOn r ha.1 path h
    · rw [if_neg ‹_›] at h; exact summary_flatOnF rs ha.2 name path h

theorem summary_flatOnV : ∀ {vs vs' : Variants} (r : SummaryV vs vs'), ApartV r →
    ∀ (i : Nat) (path : List PathElement), FlatOnV vs i path → FlatOnV vs' i path
  | _, _, .nil, _, _, _, _ => trivial
  | _, _, .unit _, _, 0, _, _ => trivial
  | _, _, .unit rs, ha, i + 1, path, h => summary_flatOnV rs ha i path h
  | _, _, .data r _, ha, 0, path, h => summary_flatOn r ha.1 path h
  | _, _, .data _ rs, ha, i + 1, path, h => summary_flatOnV rs ha.2 i path h

end

mutual

theorem summary_active (H : Bytes → Node) : ∀ {t t' : Ty} (r : Summary t t') (v : t.Val)
    (path : List PathElement), Active t v path → Active t' (summary H r v) path
  | _, _, .same _, _, _, h => h
  | _, _, .root _, _, _, _ => trivial
  | _, _, .array r _, v, path, h => by
    match path with
    | [] => trivial
    | .index i :: rest => exact summary_activeL H r v.1 i rest h
    | .field _ :: _ => trivial
    | .length :: _ => trivial
    | .selector :: _ => trivial
  | _, _, .vector r _, v, path, h => by
    match path with
    | [] => trivial
    | .index i :: rest => exact summary_activeL H r v i rest h
    | .field _ :: _ => trivial
    | .length :: _ => trivial
    | .selector :: _ => trivial
  | _, _, .list r _, v, path, h => by
    match path with
    | [] => trivial
    | .index i :: rest => exact summary_activeL H r v i rest h
    | .field _ :: _ => trivial
    | .length :: _ => trivial
    | .selector :: _ => trivial
  | _, _, .option r, v, path, h => by
    match path, v with
    | [], _ => trivial
    | .index i :: rest, none => exact (h :)
    | .index i :: rest, some x => exact ⟨h.1, summary_active H r x rest h.2⟩
    | .field _ :: _, _ => trivial
    | .length :: _, _ => trivial
    | .selector :: _, _ => trivial
  | _, _, .newtype r, v, path, h => (summary_active H r v path h :)
  | _, _, .container r, v, path, h => by
    match path with
    | [] => trivial
    | .index _ :: _ => trivial
    | .field name :: rest => exact (summary_activeF H r v name rest h :)
    | .length :: _ => trivial
    | .selector :: _ => trivial
  | _, _, .union r, v, path, h => by
    match path with
    | [] => trivial
    | .index i :: rest => exact (summary_activeV H r v i rest h :)
    | .field _ :: _ => trivial
    | .length :: _ => trivial
    | .selector :: _ => trivial

theorem summary_activeL (H : Bytes → Node) : ∀ {t t' : Ty} (r : Summary t t') (vs : List t.Val)
    (i : Nat) (path : List PathElement), (∀ x, vs[i]? = some x → Active t x path) →
    ∀ y, (vs.map (summary H r))[i]? = some y → Active t' y path
  | _, _, r, vs, i, path, h, y, hy => by
    rw [List.getElem?_map] at hy
    obtain ⟨x, hx, rfl⟩ := Option.map_eq_some_iff.1 hy
    exact summary_active H r x path (h x hx)

theorem summary_activeF (H : Bytes → Node) : ∀ {fs fs' : Fields} (r : SummaryF fs fs')
    (v : fs.Val) (name : String) (path : List PathElement), ActiveF fs v name path →
    ActiveF fs' (summaryF H r v) name path
  | _, _, .nil, _, _, _, _ => trivial
  | _, _, .cons n r rs, v, name, path, h => by
    rw [ActiveF] at h
    show if name = n then _ else _
    split
    · rw [if_pos ‹_›] at h; exact summary_active H r v.1 path h
    · rw [if_neg ‹_›] at h; exact summary_activeF H rs v.2 name path h

theorem summary_activeV (H : Bytes → Node) : ∀ {vs vs' : Variants} (r : SummaryV vs vs')
    (v : vs.Val) (i : Nat) (path : List PathElement), ActiveV vs v i path →
    ActiveV vs' (summaryV H r v) i path
  | _, _, .nil, v, _, _, _ => Empty.elim v
  | _, _, .unit _, .inl _, _, _, h => h
  | _, _, .unit rs, .inr v, i, path, h => ⟨h.1, summary_activeV H rs v (i - 1) path h.2⟩
  | _, _, .data r _, .inl v, _, path, h => ⟨h.1, summary_active H r v path h.2⟩
  | _, _, .data _ rs, .inr v, i, path, h => ⟨h.1, summary_activeV H rs v (i - 1) path h.2⟩

end

/-! ## Paths -/

theorem summary_field : ∀ {fs fs' : Fields} (r : SummaryF fs fs'), ApartF r → ∀ {name : String}
    {k : Nat} {u' : Ty}, fieldAt fs' name = some (k, u') →
    ∃ (u : Ty) (s : Summary u u'), Apart s ∧ fieldAt fs name = some (k, u)
  | _, _, .nil, _, _, _, _, h => by cases h
  | _, _, .cons n (t := t) r rs, ha, name, k, u', h => by
    rw [fieldAt] at h
    split at h
    · cases h
      exact ⟨t, r, ha.1, by rw [fieldAt, if_pos ‹_›]⟩
    · obtain ⟨⟨k', u''⟩, h1, h2⟩ := Option.map_eq_some_iff.1 h
      cases h2
      obtain ⟨u, s, hs, h3⟩ := summary_field rs ha.2 h1
      exact ⟨u, s, hs, by rw [fieldAt, if_neg ‹_›, h3]; rfl⟩

theorem summary_variant : ∀ {vs vs' : Variants} (r : SummaryV vs vs'), ApartV r → ∀ {i : Nat}
    {o' : Option Ty}, variantAt vs' i = some o' →
    ∃ (o : Option Ty) (s : Summary (o.getD number) (o'.getD number)), Apart s ∧
      variantAt vs i = some o
  | _, _, .nil, _, _, _, h => by cases h
  | _, _, .unit _, _, 0, _, h => by cases h; exact ⟨none, .same _, trivial, rfl⟩
  | _, _, .unit rs, ha, i + 1, _, h => summary_variant rs ha (i := i) h
  | _, _, .data r _, ha, 0, _, h => by cases h; exact ⟨some _, r, ha.1, rfl⟩
  | _, _, .data _ rs, ha, i + 1, _, h => summary_variant rs ha.2 (i := i) h

/-- A step in the summary is the same step in the whole. -/
theorem summary_step : ∀ {t t' : Ty} (r : Summary t t'), Apart r → ∀ {e : PathElement} {a : Nat}
    {u' : Ty}, stepBy prims t' e = some (a, u') →
    ∃ (u : Ty) (s : Summary u u'), Apart s ∧ stepBy prims t e = some (a, u)
  | _, _, .same _, _, _, _, u', h => ⟨u', .same _, trivial, h⟩
  | _, _, .root _, _, _, _, _, h => by cases h
  | _, _, .array (t := t) r n, ha, e, a, u', h => by
    cases e with
    | index i =>
      rw [stepBy] at h ⊢
      split at h
      · cases h
        exact ⟨t, r, ha.2, by rw [if_pos ‹_›, summary_itemCount r ha.1, summary_itemLen r ha.1]⟩
      · cases h
    | _ => cases h
  | _, _, .vector (t := t) r n, ha, e, a, u', h => by
    cases e with
    | index i =>
      rw [stepBy] at h ⊢
      split at h
      · cases h
        exact ⟨t, r, ha.2, by rw [if_pos ‹_›, summary_itemCount r ha.1, summary_itemLen r ha.1]⟩
      · cases h
    | _ => cases h
  | _, _, .list (t := t) r n, ha, e, a, u', h => by
    cases e with
    | index i =>
      rw [stepBy] at h ⊢
      split at h
      · cases h
        exact ⟨t, r, ha.2, by rw [if_pos ‹_›, summary_itemCount r ha.1, summary_itemLen r ha.1]⟩
      · cases h
    | length => cases h; exact ⟨_, .same _, trivial, rfl⟩
    | _ => cases h
  | _, _, .option (t := t) r, ha, e, a, u', h => by
    cases e with
    | index i =>
      rw [stepBy] at h ⊢
      split at h
      · cases h; exact ⟨_, .same _, trivial, by rw [if_pos ‹_›]⟩
      · split at h
        · cases h; exact ⟨t, r, ha, by rw [if_neg ‹_›, if_pos ‹_›]⟩
        · cases h
    | selector => cases h; exact ⟨_, .same _, trivial, rfl⟩
    | _ => cases h
  | _, _, .newtype r, ha, e, a, u', h => (summary_step r ha (e := e) h :)
  | _, _, .container r, ha, e, a, u', h => by
    cases e with
    | field name =>
      rw [stepBy] at h ⊢
      obtain ⟨⟨k, u''⟩, h1, h2⟩ := Option.map_eq_some_iff.1 h
      cases h2
      obtain ⟨u, s, hs, h3⟩ := summary_field r ha h1
      exact ⟨u, s, hs, by rw [h3, summary_count r]; rfl⟩
    | _ => cases h
  | _, _, .union r, ha, e, a, u', h => by
    cases e with
    | index i =>
      rw [stepBy] at h ⊢
      obtain ⟨o', h1, h2⟩ := Option.map_eq_some_iff.1 h
      cases h2
      obtain ⟨o, s, hs, h3⟩ := summary_variant r ha h1
      exact ⟨_, s, hs, by rw [h3]; rfl⟩
    | selector => cases h; exact ⟨_, .same _, trivial, rfl⟩
    | _ => cases h

theorem summary_walk : ∀ {path : List PathElement} {t t' : Ty} (r : Summary t t'), Apart r →
    ∀ {g : Nat} {w' : Ty}, walkBy prims t' path = some (g, w') →
    ∃ (w : Ty) (s : Summary w w'), Apart s ∧ walkBy prims t path = some (g, w)
  | [], t, _, r, ha, _, _, h => by cases h; exact ⟨t, r, ha, rfl⟩
  | e :: path, t, t', r, ha, g, w', h => by
    obtain ⟨a, u', b, h1, h2, rfl⟩ := walk_cons.1 h
    obtain ⟨u, s, hs, h3⟩ := summary_step r ha h1
    obtain ⟨w, s', hs', h4⟩ := summary_walk s hs h2
    exact ⟨w, s', hs', walk_cons.2 ⟨a, u, b, h3, h4, rfl⟩⟩

theorem summary_bitlist : ∀ {t t' : Ty} (_ : Summary t t'), (∃ (e : PathElement) (q : Nat × Ty),
    stepBy prims t' e = some q) → isBitlist t = isBitlist t'
  | _, _, .same _, _ => rfl
  | _, _, .root _, ⟨_, _, h⟩ => by cases h
  | _, _, .array _ _, _ => rfl
  | _, _, .vector _ _, _ => rfl
  | _, _, .list _ _, _ => rfl
  | _, _, .option _, _ => rfl
  | _, _, .newtype r, ⟨e, q, h⟩ => (summary_bitlist r ⟨e, q, h⟩ :)
  | _, _, .container _, _ => rfl
  | _, _, .union _, _ => rfl

theorem summary_bits : ∀ {path : List PathElement} {t t' : Ty} (r : Summary t t'), Apart r →
    ∀ {g : Nat} {w' : Ty}, walkBy prims t' path = some (g, w') →
    lengthOfBits t path = lengthOfBits t' path
  | [], _, _, _, _, _, _, _ => rfl
  | e :: path, t, t', r, ha, g, w', h => by
    obtain ⟨a, u', b, h1, h2, rfl⟩ := walk_cons.1 h
    obtain ⟨u, s, hs, h3⟩ := summary_step r ha h1
    have h4 := step_type (pk := prims) (pk' := isBasic) t e
    have h5 := step_type (pk := prims) (pk' := isBasic) t' e
    rw [h3] at h4
    rw [h1] at h5
    obtain ⟨⟨a1, _⟩, h6, rfl⟩ := Option.map_eq_some_iff.1 h4.symm
    obtain ⟨⟨a2, _⟩, h7, rfl⟩ := Option.map_eq_some_iff.1 h5.symm
    rw [lengthOfBits, lengthOfBits, h6, h7, summary_bitlist r ⟨_, _, h1⟩]
    show (_ || lengthOfBits _ path) = (_ || lengthOfBits _ path)
    rw [summary_bits s hs h2]

end Ssz
