import Verif.Proofs.MultiVerify

/-!
# Multiproofs: the computed root for arbitrary lists of indices

Indices may repeat and may lie below one another.
-/

namespace Ssz

open Spec

theorem startMap_last {leaves proof : List Node} {is : List Nat}
    (hl : leaves.length = is.length) (g : Nat) :
    (startMap leaves proof is).get g =
      lastClaimed (is ++ getHelperIndices is) (leaves ++ proof) g := by
  rw [startMap_get, lastClaimed, List.zip_append hl.symm, List.reverse_append, List.lookup_append]
  cases ((getHelperIndices is).zip proof).reverse.lookup g with
  | some n => rfl
  | none => cases (is.zip leaves).reverse.lookup g <;> rfl

/-- With the right numbers of nodes and some index at least 1, the computed root is the one of the
claimed tree. -/
theorem calc_claims (E : Env) {leaves proof : List Node} {is : List Nat}
    (hl : leaves.length = is.length) (hp : proof.length = (getHelperIndices is).length)
    (hne : ∃ i ∈ is, 1 ≤ i) :
    ∃ s, Claims (lastClaimed (is ++ getHelperIndices is) (leaves ++ proof)) 1 s ∧
      calculateMultiMerkleRoot E leaves proof is = .ok (s.root E.sha256) := by
  have hget := startMap_last (proof := proof) hl
  obtain ⟨r, hr, s, hcl, hsr⟩ := calc_ok E hl hp hne
    (fun g n => ∃ s, Claims (lastClaimed (is ++ getHelperIndices is) (leaves ++ proof)) g s ∧
      s.root E.sha256 = n)
    (fun g n hg => ⟨.leaf n, .leaf (by rw [← hget]; exact hg), rfl⟩)
    (fun p l r _ hno ⟨u, hu, hur⟩ ⟨v, hv, hvr⟩ =>
      ⟨.node u v, .node (by rw [← hget]; exact hno) hu hv, by rw [MTree.root, hur, hvr]⟩)
  exact ⟨s, hcl, by rw [hr, hsr]⟩

theorem lastClaimed_mem {is : List Nat} {ns : List Node} {g : Nat} {n : Node}
    (h : lastClaimed is ns g = some n) : g ∈ is := by
  have := lookup_some_mem h
  rw [List.mem_reverse] at this
  exact (List.of_mem_zip this).1

theorem lastClaimed_isSome {is : List Nat} {ns : List Node} (hl : ns.length = is.length) {g : Nat}
    (h : g ∈ is) : ∃ n, lastClaimed is ns g = some n :=
  lookup_isSome (by rw [List.map_reverse, List.mem_reverse, zip_map_fst hl]; exact h)

/-- Without any claim at or below a position there is no claimed tree. -/
theorem no_claims {f : Nat → Option Node} (hf : ∀ g, 1 ≤ g → f g = none) {g : Nat} {s : MTree}
    (h : Claims f g s) : 1 ≤ g → False := by
  induction h with
  | leaf h =>
    intro hg
    rw [hf _ hg] at h
    cases h
  | node _ _ _ ih _ => exact fun hg => ih (by omega)

/-- Exactly when the root is computed, and what it is. -/
theorem calc_exact (E : Env) {leaves proof : List Node} {is : List Nat} {root : Node} :
    calculateMultiMerkleRoot E leaves proof is = .ok root ↔
      leaves.length = is.length ∧ proof.length = (getHelperIndices is).length ∧
        ∃ s, Claims (lastClaimed (is ++ getHelperIndices is) (leaves ++ proof)) 1 s ∧
          s.root E.sha256 = root := by
  constructor
  · intro h
    obtain ⟨hl, hp, hne⟩ := calc_lengths h
    obtain ⟨s, hs, hr⟩ := calc_claims E hl hp hne
    rw [hr] at h
    cases h
    exact ⟨hl, hp, s, hs, rfl⟩
  · rintro ⟨hl, hp, s, hs, rfl⟩
    have hne : ∃ i ∈ is, 1 ≤ i := by
      by_contra hno
      refine no_claims (fun g hg => ?_) hs (Nat.le_refl 1)
      cases hn : lastClaimed (is ++ getHelperIndices is) (leaves ++ proof) g with
      | none => rfl
      | some n =>
        exfalso
        have := lastClaimed_mem hn
        rcases List.mem_append.1 this with h | h
        · exact hno ⟨g, h, hg⟩
        · obtain ⟨⟨i, hi, k, hk, _⟩, _⟩ := mem_getHelperIndices.1 h
          exact hno ⟨i, hi, Nat.le_trans (Nat.le_of_lt hk) (Nat.div_le_self ..)⟩
    obtain ⟨u, hu, hr⟩ := calc_claims E hl hp hne
    rw [claims_unique hs hu]
    exact hr

/-- No claim at a proper ancestor of `g'` at or below `g`. -/
def TopBelow (f : Nat → Option Node) (g g' : Nat) : Prop :=
  ∀ a, AncestorEq g a → AncestorEq a g' → a ≠ g' → f a = none

theorem ancestorEq_refl (g : Nat) : AncestorEq g g := ⟨0, by simp⟩

theorem ancestorEq_trans {a b c : Nat} (h : AncestorEq a b) (h' : AncestorEq b c) :
    AncestorEq a c := by
  obtain ⟨k, rfl⟩ := h
  obtain ⟨m, rfl⟩ := h'
  exact ⟨m + k, by rw [Nat.div_div_eq_div_mul, Nat.pow_add]⟩

theorem ancestorEq_left (g : Nat) : AncestorEq g (2 * g) := ⟨1, by omega⟩

theorem ancestorEq_right (g : Nat) : AncestorEq g (2 * g + 1) := ⟨1, by omega⟩

/-- Claimed nodes without claims above them are the nodes of the tree, or there is a collision. -/
theorem claims_sound_top {H : Bytes → Node} {t : MTree} {f : Nat → Option Node} {g : Nat}
    {s : MTree} (hc : Claims f g s) : 1 ≤ g → ∀ u, t.sub g = some u → s.root H = u.root H →
    (∀ g' n, f g' = some n → AncestorEq g g' → TopBelow f g g' →
      ∀ u', t.sub g' = some u' → n = u'.root H) ∨ Collide H t s := by
  induction hc with
  | @leaf g n h =>
    intro _ u hu hr
    left
    intro g' n' h' hg htop u' hu'
    have hgg : g = g' := by
      by_contra hne
      rw [htop g (ancestorEq_refl g) hg hne] at h
      cases h
    subst hgg
    rw [h] at h'
    cases h'
    rw [hu] at hu'
    cases hu'
    exact hr
  | @node g l r h hl hr ih1 ih2 =>
    intro h1 u hu he
    cases u with
    | leaf m =>
      left
      intro g' n' h' hg _ u' hu'
      obtain ⟨k, hk⟩ := hg
      cases k with
      | zero =>
        rw [Nat.pow_zero, Nat.div_one] at hk
        subst hk
        rw [h] at h'
        cases h'
      | succ k =>
        obtain ⟨a, b, hab⟩ := sub_ancestor k g' hu' (by rw [hk]; exact h1)
        rw [hk, hu] at hab
        cases hab
    | node a b =>
      have hin : ((a.root H).1 ++ (b.root H).1) ∈ t.inputs H :=
        sub_inputs hu _ (List.mem_cons_self ..)
      by_cases hs : (l.root H).1 ++ (r.root H).1 = (a.root H).1 ++ (b.root H).1
      · obtain ⟨ha', hb'⟩ := append32_inj hs
        have hsa : t.sub (2 * g) = some a := (sub_step (by omega)).2
          ⟨a, b, by rw [show 2 * g / 2 = g by omega]; exact hu, by rw [if_pos (by omega)]⟩
        have hsb : t.sub (2 * g + 1) = some b := (sub_step (by omega)).2
          ⟨a, b, by rw [show (2 * g + 1) / 2 = g by omega]; exact hu, by rw [if_neg (by omega)]⟩
        rcases ih1 (by omega) a hsa ha' with h3 | h3
        · rcases ih2 (by omega) b hsb hb' with h4 | h4
          · left
            intro g' n' h' hg htop u' hu'
            rcases ancestor_step hg with rfl | hg | hg
            · rw [h] at h'; cases h'
            · exact h3 g' n' h' hg
                (fun a ha => htop a (ancestorEq_trans (ancestorEq_left g) ha)) u' hu'
            · exact h4 g' n' h' hg
                (fun a ha => htop a (ancestorEq_trans (ancestorEq_right g) ha)) u' hu'
          · exact .inr (collide_mono h4 (fun _ h => h) inputs_right)
        · exact .inr (collide_mono h3 (fun _ h => h) inputs_left)
      · exact .inr ⟨_, hin, _, List.mem_cons_self .., Ne.symm hs, he.symm⟩

theorem ancestorEq_one {g : Nat} (hg : 1 ≤ g) : AncestorEq 1 g := by
  refine ⟨Nat.log2 g, ?_⟩
  have h0 : g ≠ 0 := by omega
  obtain ⟨ha, hb⟩ := (log2_spec (d := Nat.log2 g) h0).1 rfl
  have hpos := Nat.two_pow_pos (Nat.log2 g)
  rw [Nat.pow_succ] at hb
  have : g / 2 ^ Nat.log2 g < 2 := Nat.div_lt_of_lt_mul hb
  have : 1 ≤ g / 2 ^ Nat.log2 g := (Nat.one_le_div_iff hpos).2 ha
  omega

/-- A proper ancestor of an index or of a helper index is not a helper index. -/
theorem helper_not_above {is : List Nat} {a g : Nat} (hg : g ∈ is ++ getHelperIndices is)
    (hag : AncestorEq a g) (hne : a ≠ g) : a ∉ getHelperIndices is := by
  intro ha
  obtain ⟨k, hk⟩ := hag
  cases k with
  | zero => exact hne (by simpa using hk.symm)
  | succ k =>
    refine (mem_getHelperIndices.1 ha).2 ?_
    rcases List.mem_append.1 hg with hb | hb
    · exact ⟨g, hb, k + 1, hk⟩
    · obtain ⟨⟨i, hi, m, hm, rfl⟩, _⟩ := mem_getHelperIndices.1 hb
      refine ⟨i, hi, m + k + 1, ?_⟩
      rw [div_pow_succ, other_half, ← div_pow_succ] at hk
      rw [← hk, Nat.div_div_eq_div_mul, ← Nat.pow_add, Nat.add_assoc]

theorem calc_sound_top (E : Env) {t : MTree} {leaves proof : List Node} {is : List Nat}
    (hs : ∀ i ∈ is, ∃ s, t.sub i = some s)
    (hc : calculateMultiMerkleRoot E leaves proof is = .ok (t.root E.sha256)) :
    (∀ g ∈ is ++ getHelperIndices is, (∀ a ∈ is, AncestorEq a g → a = g) →
      lastClaimed (is ++ getHelperIndices is) (leaves ++ proof) g = t.nodeAt E.sha256 g) ∨
    ∃ s, Claims (lastClaimed (is ++ getHelperIndices is) (leaves ++ proof)) 1 s ∧
      Collide E.sha256 t s := by
  obtain ⟨hl, hp, s, hcl, hsr⟩ := (calc_exact E).1 hc
  rcases claims_sound_top (H := E.sha256) (t := t) hcl (Nat.le_refl 1) t (sub_one t) hsr with h | h
  · left
    intro g hg htop
    have hex : ∃ u, t.sub g = some u := by
      rcases List.mem_append.1 hg with hg | hg
      · exact hs g hg
      · exact helper_sub hs g hg
    obtain ⟨u, hu⟩ := hex
    have hg1 : 1 ≤ g := by
      by_contra h0
      have : g = 0 := by omega
      rw [this, sub_zero] at hu
      cases hu
    obtain ⟨n, hn⟩ := lastClaimed_isSome (ns := leaves ++ proof) (by simp [hl, hp]) hg
    rw [hn, MTree.nodeAt, hu, Option.map_some, h g n hn (ancestorEq_one hg1) ?_ u hu]
    intro a _ hag hne
    cases ha : lastClaimed (is ++ getHelperIndices is) (leaves ++ proof) a with
    | none => rfl
    | some m =>
      exfalso
      rcases List.mem_append.1 (lastClaimed_mem ha) with h1 | h1
      · exact hne (htop a h1 hag)
      · exact helper_not_above hg hag hne h1
  · exact .inr ⟨s, hcl, h⟩

/-! ## Leaves that are not looked at -/

/-- The claimed tree depends only on the claims without a claim above them. -/
theorem claims_congr {f f' : Nat → Option Node}
    (hff : ∀ g, (∀ a, 1 ≤ a → AncestorEq a g → a ≠ g → f a = none) → f g = f' g) {g : Nat}
    {s : MTree} (h : Claims f g s) : 1 ≤ g →
    (∀ a, 1 ≤ a → AncestorEq a g → a ≠ g → f a = none) → Claims f' g s := by
  induction h with
  | leaf h => exact fun _ htop => .leaf (by rw [← hff _ htop]; exact h)
  | @node g l r h _ _ ih1 ih2 =>
    intro hg htop
    have step : ∀ c, c / 2 = g → ∀ a, 1 ≤ a → AncestorEq a c → a ≠ c → f a = none := by
      intro c hc a ha hac hne
      by_cases hag : a = g
      · subst hag; exact h
      · obtain ⟨k, hk⟩ := hac
        cases k with
        | zero => exact absurd (by simpa using hk.symm) hne
        | succ k =>
          rw [div_pow_succ, hc] at hk
          exact htop a ha ⟨k, hk⟩ hag
    exact .node (by rw [← hff g htop]; exact h) (ih1 (by omega) (step _ (by omega)))
      (ih2 (by omega) (step _ (by omega)))

/-- The claims differ at most at the index of the changed leaf. -/
theorem last_set {is : List Nat} {ns : List Node} {p : Nat} {x : Node} {g : Nat}
    (h : is[p]? ≠ some g ∨ ∃ q, p < q ∧ q < ns.length ∧ is[q]? = some g) :
    lastClaimed is (ns.set p x) g = lastClaimed is ns g := by
  induction is generalizing ns p with
  | nil => simp [lastClaimed]
  | cons i is ih =>
    cases ns with
    | nil => simp
    | cons n ns =>
      cases p with
      | zero =>
        rw [List.set_cons_zero, lastClaimed, lastClaimed, List.zip_cons_cons, List.zip_cons_cons,
          List.reverse_cons, List.reverse_cons, List.lookup_append, List.lookup_append]
        cases hl : (is.zip ns).reverse.lookup g with
        | some m => rfl
        | none =>
          rcases h with h | ⟨q, hq, hq2, hqi⟩
          · have : (g == i) = false := by
              simp only [List.getElem?_cons_zero, ne_eq, Option.some.injEq] at h
              simpa using fun e => h e.symm
            simp [List.lookup_cons, this]
          · exfalso
            rw [List.lookup_eq_none_iff] at hl
            obtain ⟨q, rfl⟩ := Nat.exists_eq_succ_of_ne_zero (by omega : q ≠ 0)
            rw [Nat.succ_eq_add_one, List.getElem?_cons_succ] at hqi
            have hq3 : q < ns.length := by simpa using hq2
            obtain ⟨hqi1, hqi2⟩ := List.getElem?_eq_some_iff.1 hqi
            have : (g, ns[q]) ∈ (is.zip ns).reverse := by
              rw [List.mem_reverse, List.mem_iff_getElem?]
              refine ⟨q, ?_⟩
              rw [List.getElem?_zip_eq_some]
              exact ⟨hqi, by simp [hq3]⟩
            simpa using hl _ this
      | succ p =>
        have := ih (ns := ns) (p := p) (by
          rcases h with h | ⟨q, hq, hq2, hqi⟩
          · exact .inl (by simpa using h)
          · obtain ⟨q, rfl⟩ := Nat.exists_eq_succ_of_ne_zero (by omega : q ≠ 0)
            exact .inr ⟨q, by omega, by simpa using hq2, by simpa using hqi⟩)
        rw [lastClaimed, lastClaimed] at this
        rw [List.set_cons_succ, lastClaimed, lastClaimed, List.zip_cons_cons, List.zip_cons_cons,
          List.reverse_cons, List.reverse_cons, List.lookup_append, List.lookup_append, this]

/-- A leaf whose index recurs later, or lies below another index, has no influence. -/
theorem calc_shadowed (E : Env) {leaves proof : List Node} {is : List Nat} {p i : Nat} (x : Node)
    (hi : is[p]? = some i)
    (h : (∃ q, p < q ∧ is[q]? = some i) ∨ ∃ a ∈ is, 1 ≤ a ∧ AncestorEq a i ∧ a ≠ i) :
    calculateMultiMerkleRoot E (leaves.set p x) proof is =
      calculateMultiMerkleRoot E leaves proof is := by
  by_cases hl : leaves.length = is.length
  · by_cases hp : proof.length = (getHelperIndices is).length
    · have hl' : (leaves.set p x).length = is.length := by rw [List.length_set]; exact hl
      by_cases hne : ∃ i ∈ is, 1 ≤ i
      · obtain ⟨s, hs, hr⟩ := calc_claims E hl hp hne
        obtain ⟨u, hu, hr'⟩ := calc_claims E hl' hp hne
        have hpl : p < is.length := (List.getElem?_eq_some_iff.1 hi).1
        have hset : leaves.set p x ++ proof = (leaves ++ proof).set p x := by
          rw [List.set_append_left _ _ (by omega)]
        have hsu : s = u := by
          refine claims_unique (claims_congr (fun g htop => ?_) hs (Nat.le_refl 1) ?_) hu
          · rw [hset]
            refine (last_set ?_).symm
            by_cases hg : g = i
            · subst hg
              rcases h with ⟨q, hq, hqi⟩ | ⟨a, ha, ha1, hag, hane⟩
              · have hql : q < is.length := (List.getElem?_eq_some_iff.1 hqi).1
                refine .inr ⟨q, hq, by rw [List.length_append]; omega, ?_⟩
                rw [List.getElem?_append_left hql]
                exact hqi
              · exfalso
                obtain ⟨n, hn⟩ := lastClaimed_isSome (is := is ++ getHelperIndices is)
                  (ns := leaves ++ proof) (by simp [hl, hp]) (List.mem_append_left _ ha)
                rw [htop a ha1 hag hane] at hn
                cases hn
            · left
              rw [List.getElem?_append_left hpl, hi]
              exact fun e => hg (Option.some.inj e).symm
          · rintro a ha ⟨k, hk⟩ hne
            have : 1 / 2 ^ k ≤ 1 := Nat.div_le_self ..
            omega
        rw [hr, hr', hsu]
      · have hz : ∀ i ∈ is, i = 0 := fun i hi => by
          by_contra h0
          exact hne ⟨i, hi, by omega⟩
        rw [calc_zero E hl hp hz, calc_zero E hl' hp hz]
    · rw [calculateMultiMerkleRoot, calculateMultiMerkleRoot, List.length_set]
      rw [if_neg (not_not.2 hl), if_neg (not_not.2 hl)]
      simp only
      rw [if_pos hp, if_pos hp]
  · rw [calculateMultiMerkleRoot, calculateMultiMerkleRoot, List.length_set, if_pos hl, if_pos hl]

end Ssz
