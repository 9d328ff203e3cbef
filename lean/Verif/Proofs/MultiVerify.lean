import Verif.Proofs.Multi

/-!
# Multiproofs: the computed root
-/

namespace Ssz

open Spec

/-- The map of nodes before the loop. -/
def startMap (leaves proof : List Node) (is : List Nat) : Objects :=
  Objects.insertAll (Objects.insertAll [] (is.zip leaves)) ((getHelperIndices is).zip proof)

theorem lookup_some_mem {β : Type} {kvs : List (Nat × β)} {g : Nat} {n : β}
    (h : kvs.lookup g = some n) : (g, n) ∈ kvs := by
  rw [List.lookup_eq_some_iff] at h
  obtain ⟨l1, l2, rfl, _⟩ := h
  simp

theorem lookup_isSome {β : Type} {kvs : List (Nat × β)} {g : Nat} (h : g ∈ kvs.map (·.1)) :
    ∃ n, kvs.lookup g = some n := by
  cases hn : kvs.lookup g with
  | some n => exact ⟨n, rfl⟩
  | none =>
    rw [List.lookup_eq_none_iff] at hn
    obtain ⟨p, hp, rfl⟩ := List.mem_map.1 h
    simpa using hn p hp

theorem zip_map_fst {α β : Type} {xs : List α} {ys : List β} (h : ys.length = xs.length) :
    (xs.zip ys).map (·.1) = xs := by
  rw [← List.unzip_fst, List.unzip_zip (by omega)]

theorem startMap_get (leaves proof : List Node) (is : List Nat) (g : Nat) :
    (startMap leaves proof is).get g =
      match ((getHelperIndices is).zip proof).reverse.lookup g with
      | some n => some n
      | none => (is.zip leaves).reverse.lookup g := by
  rw [startMap, get_insertAll, get_insertAll]
  cases ((getHelperIndices is).zip proof).reverse.lookup g with
  | some n => rfl
  | none =>
    cases (is.zip leaves).reverse.lookup g <;> rfl

theorem startMap_contains {leaves proof : List Node} {is : List Nat}
    (hl : leaves.length = is.length) (hp : proof.length = (getHelperIndices is).length) (g : Nat) :
    (startMap leaves proof is).contains g = true ↔ g ∈ is ∨ g ∈ getHelperIndices is := by
  rw [contains_iff, startMap_get]
  constructor
  · rintro ⟨n, hn⟩
    split at hn
    · rename_i m hm
      have := lookup_some_mem hm
      rw [List.mem_reverse] at this
      exact .inr (List.of_mem_zip this).1
    · have := lookup_some_mem hn
      rw [List.mem_reverse] at this
      exact .inl (List.of_mem_zip this).1
  · intro h
    split
    · exact ⟨_, rfl⟩
    · rename_i hno
      rcases h with h | h
      · exact lookup_isSome (by rw [List.map_reverse, List.mem_reverse, zip_map_fst hl]; exact h)
      · obtain ⟨n, hn⟩ := lookup_isSome (kvs := ((getHelperIndices is).zip proof).reverse) (g := g)
          (by rw [List.map_reverse, List.mem_reverse, zip_map_fst hp]; exact h)
        rw [hn] at hno
        cases hno

theorem calc_eq (E : Env) (leaves proof : List Node) (is : List Nat)
    (hl : leaves.length = is.length) (hp : proof.length = (getHelperIndices is).length) :
    calculateMultiMerkleRoot E leaves proof is = (do
      let objects ← multiproofLoop E (sortDesc (startMap leaves proof is).keys)
        (startMap leaves proof is)
      match objects.get 1 with
      | some root => .ok root
      | none => .panic) := by
  rw [calculateMultiMerkleRoot, if_neg (not_not.2 hl)]
  simp only
  rw [if_neg (not_not.2 hp)]
  rfl

theorem start_keys (m : Objects) : ∀ k, m.contains k = true → m.contains (sibling k) = true →
    m.contains (parent k) = false → k ∈ sortDesc m.keys ∨ sibling k ∈ sortDesc m.keys := by
  intro k h _ _
  obtain ⟨n, hn⟩ := (contains_iff _ _).1 h
  exact .inl (mem_sortDesc.2 (mem_keys_of_get hn))

theorem le_sum_of_mem' {is : List Nat} {i : Nat} (h : i ∈ is) : i ≤ is.sum := by
  induction is with
  | nil => cases h
  | cons a is ih =>
    rw [List.sum_cons]
    rcases List.mem_cons.1 h with h | h
    · omega
    · have := ih h
      omega

/-- Every node on a path to an index is computed. -/
theorem paths_present {m' : Objects} {is : List Nat}
    (h1 : ∀ g, g ∈ is ∨ g ∈ getHelperIndices is → m'.contains g = true)
    (h2 : ∀ k, m'.contains k = true → m'.contains (sibling k) = true →
      m'.contains (parent k) = true) :
    ∀ g, 1 ≤ g → (∃ i ∈ is, ∃ k, i / 2 ^ k = g) → m'.contains g = true := by
  have key : ∀ c g, is.sum - g = c → 1 ≤ g → (∃ i ∈ is, ∃ k, i / 2 ^ k = g) →
      m'.contains g = true := by
    intro c
    induction c using Nat.strongRecOn with
    | _ c ih =>
      rintro g hc hg ⟨i, hi, k, hk⟩
      cases k with
      | zero =>
        rw [Nat.pow_zero, Nat.div_one] at hk
        exact h1 g (.inl (hk ▸ hi))
      | succ k =>
        have hle : i / 2 ^ k ≤ is.sum := Nat.le_trans (Nat.div_le_self _ _) (le_sum_of_mem' hi)
        have hgc : i / 2 ^ k / 2 = g := by rw [Nat.div_div_eq_div_mul, ← Nat.pow_succ]; exact hk
        have hgt : g < i / 2 ^ k := by omega
        have hlt : 1 < i / 2 ^ k := by omega
        have hp1 : m'.contains (i / 2 ^ k) = true :=
          ih (is.sum - i / 2 ^ k) (by omega) _ rfl (by omega) ⟨i, hi, k, rfl⟩
        have ho : g < other (i / 2 ^ k) := by
          have := other_half (g := i / 2 ^ k)
          omega
        have hp2 : m'.contains (sibling (i / 2 ^ k)) = true := by
          rw [sibling_other]
          by_cases hpath : ∃ j ∈ is, ∃ m, j / 2 ^ m = other (i / 2 ^ k)
          · obtain ⟨j, hj, m, hm⟩ := hpath
            have hle' : other (i / 2 ^ k) ≤ is.sum :=
              hm ▸ Nat.le_trans (Nat.div_le_self _ _) (le_sum_of_mem' hj)
            exact ih (is.sum - other (i / 2 ^ k)) (by omega) _ rfl (by omega) ⟨j, hj, m, hm⟩
          · exact h1 _ (.inr (mem_getHelperIndices.2 ⟨⟨i, hi, k, hlt, rfl⟩, hpath⟩))
        have := h2 _ hp1 hp2
        rw [parent, hgc] at this
        exact this
  exact fun g => key _ g rfl

theorem calc_ok (E : Env) {leaves proof : List Node} {is : List Nat}
    (hl : leaves.length = is.length) (hp : proof.length = (getHelperIndices is).length)
    (hne : ∃ i ∈ is, 1 ≤ i) (Q : Nat → Node → Prop)
    (hQ : ∀ g n, (startMap leaves proof is).get g = some n → Q g n)
    (hstep : ∀ p l r, 1 ≤ p → (startMap leaves proof is).get p = none → Q (2 * p) l →
      Q (2 * p + 1) r → Q p (E.sha256 (l.1 ++ r.1))) :
    ∃ r, calculateMultiMerkleRoot E leaves proof is = .ok r ∧ Q 1 r := by
  obtain ⟨m', e, r1, r2, r3⟩ := multiproofLoop_ok E Q (startMap leaves proof is) hstep
    (sortDesc (startMap leaves proof is).keys) (startMap leaves proof is) (fun _ _ h => h) hQ
    (start_keys _)
  rw [calc_eq E leaves proof is hl hp, e, Res.ok_bind]
  have h1 : m'.contains 1 = true := by
    refine paths_present (is := is) (fun g hg => ?_) r3 1 (Nat.le_refl 1) ?_
    · obtain ⟨n, hn⟩ := (contains_iff _ _).1 ((startMap_contains hl hp g).2 hg)
      exact (contains_iff _ _).2 ⟨n, r1 g n hn⟩
    · obtain ⟨i, hi, h1⟩ := hne
      refine ⟨i, hi, Nat.log2 i, ?_⟩
      have h0 : i ≠ 0 := by omega
      obtain ⟨ha, hb⟩ := (log2_spec (d := Nat.log2 i) h0).1 rfl
      have hpos := Nat.two_pow_pos (Nat.log2 i)
      rw [Nat.pow_succ] at hb
      have : i / 2 ^ Nat.log2 i < 2 := Nat.div_lt_of_lt_mul hb
      have : 1 ≤ i / 2 ^ Nat.log2 i := (Nat.one_le_div_iff hpos).2 ha
      omega
  obtain ⟨r, hr⟩ := (contains_iff _ _).1 h1
  rw [hr]
  exact ⟨r, rfl, r2 1 r hr⟩

/-! ## Which inputs panic -/

theorem calc_zero (E : Env) {leaves proof : List Node} {is : List Nat}
    (hl : leaves.length = is.length) (hp : proof.length = (getHelperIndices is).length)
    (hz : ∀ i ∈ is, i = 0) : calculateMultiMerkleRoot E leaves proof is = .panic := by
  obtain ⟨m', e, r1, r2, r3⟩ := multiproofLoop_ok E (fun g _ => g = 0) (startMap leaves proof is)
    (fun p l r h _ h2 _ => by omega)
    (sortDesc (startMap leaves proof is).keys) (startMap leaves proof is) (fun _ _ h => h)
    (fun g n hg => by
      have := (startMap_contains hl hp g).1 ((contains_iff _ _).2 ⟨n, hg⟩)
      rcases this with h | h
      · exact hz g h
      · obtain ⟨⟨i, hi, k, hk, _⟩, _⟩ := mem_getHelperIndices.1 h
        rw [hz i hi] at hk
        simp at hk)
    (start_keys _)
  rw [calc_eq E leaves proof is hl hp, e, Res.ok_bind]
  cases h : m'.get 1 with
  | none => rfl
  | some n => exact absurd (r2 1 n h) (by decide)

/-- Exactly when the computation of the root panics. -/
theorem calc_panic_iff (E : Env) (leaves proof : List Node) (is : List Nat) :
    calculateMultiMerkleRoot E leaves proof is = .panic ↔
      leaves.length = is.length ∧ proof.length = (getHelperIndices is).length ∧
        ∀ i ∈ is, i = 0 := by
  constructor
  · intro h
    by_cases hl : leaves.length = is.length
    · by_cases hp : proof.length = (getHelperIndices is).length
      · refine ⟨hl, hp, fun i hi => ?_⟩
        by_contra h0
        obtain ⟨r, hr, _⟩ := calc_ok E hl hp ⟨i, hi, by omega⟩ (fun _ _ => True)
          (fun _ _ _ => trivial) (fun _ _ _ _ _ _ _ => trivial)
        rw [hr] at h
        cases h
      · rw [calculateMultiMerkleRoot, if_neg (not_not.2 hl)] at h
        simp only at h
        rw [if_pos hp] at h
        cases h
    · rw [calculateMultiMerkleRoot, if_pos hl] at h
      cases h
  · rintro ⟨hl, hp, hz⟩
    exact calc_zero E hl hp hz

theorem verify_multi_ok {E : Env} {leaves proof : List Node} {is : List Nat} {root : Node} :
    verifyMerkleMultiproof E leaves proof is root = .ok () ↔
      calculateMultiMerkleRoot E leaves proof is = .ok root := by
  rw [verifyMerkleMultiproof]
  cases h : calculateMultiMerkleRoot E leaves proof is with
  | ok r =>
    rw [Res.ok_bind]
    by_cases hr : r = root
    · simp [hr]
    · simp [hr]
  | err e => simp
  | panic => simp

theorem verify_multi_panic {E : Env} {leaves proof : List Node} {is : List Nat} {root : Node} :
    verifyMerkleMultiproof E leaves proof is root = .panic ↔
      calculateMultiMerkleRoot E leaves proof is = .panic := by
  rw [verifyMerkleMultiproof]
  cases h : calculateMultiMerkleRoot E leaves proof is with
  | ok r =>
    rw [Res.ok_bind]
    by_cases hr : r = root
    · simp [hr]
    · simp [hr]
  | err e => simp
  | panic => simp

theorem calc_lengths {E : Env} {leaves proof : List Node} {is : List Nat} {root : Node}
    (h : calculateMultiMerkleRoot E leaves proof is = .ok root) :
    leaves.length = is.length ∧ proof.length = (getHelperIndices is).length ∧ ∃ i ∈ is, 1 ≤ i := by
  by_cases hl : leaves.length = is.length
  · by_cases hp : proof.length = (getHelperIndices is).length
    · refine ⟨hl, hp, ?_⟩
      by_contra hno
      rw [calc_zero E hl hp (fun i hi => by
        by_contra h0
        exact hno ⟨i, hi, by omega⟩)] at h
      cases h
    · rw [calculateMultiMerkleRoot, if_neg (not_not.2 hl)] at h
      simp only at h
      rw [if_pos hp] at h
      cases h
  · rw [calculateMultiMerkleRoot, if_pos hl] at h
    cases h

/-! ## Completeness -/

theorem map_some_get {α β : Type} {f : α → Option β} {xs : List α} {ys : List β}
    (h : ys.map some = xs.map f) {x : α} {y : β} (hm : (x, y) ∈ xs.zip ys) : f x = some y := by
  induction xs generalizing ys with
  | nil => simp at hm
  | cons a xs ih =>
    cases ys with
    | nil => simp at hm
    | cons b ys =>
      rw [List.map_cons, List.map_cons, List.cons.injEq] at h
      rw [List.zip_cons_cons, List.mem_cons] at hm
      rcases hm with hm | hm
      · cases hm; exact h.1.symm
      · exact ih h.2 hm

theorem map_some_exists {α β : Type} {f : α → Option β} {xs : List α}
    (h : ∀ x ∈ xs, ∃ y, f x = some y) : ∃ ys : List β, ys.map some = xs.map f := by
  induction xs with
  | nil => exact ⟨[], rfl⟩
  | cons a xs ih =>
    obtain ⟨y, hy⟩ := h a (List.mem_cons_self ..)
    obtain ⟨ys, hys⟩ := ih (fun x hx => h x (List.mem_cons_of_mem _ hx))
    exact ⟨y :: ys, by rw [List.map_cons, List.map_cons, hys, hy]⟩

theorem sub_ancestor {t : MTree} : ∀ (k g : Nat) {u : MTree}, t.sub g = some u →
    1 ≤ g / 2 ^ (k + 1) → ∃ l r, t.sub (g / 2 ^ (k + 1)) = some (.node l r)
  | 0, g, u, h, h1 => by
    rw [Nat.zero_add, Nat.pow_one] at h1 ⊢
    obtain ⟨l, r, h2, _⟩ := (sub_step (by omega)).1 h
    exact ⟨l, r, h2⟩
  | k + 1, g, u, h, h1 => by
    rw [div_pow_succ] at h1 ⊢
    have hg : 1 < g := by
      by_contra hg
      have : g / 2 = 0 := by omega
      rw [this] at h1
      simp at h1
    obtain ⟨l, r, h2, _⟩ := (sub_step hg).1 h
    exact sub_ancestor k (g / 2) h2 h1

/-- Helper indices of positions of a tree are positions of the tree. -/
theorem helper_sub {t : MTree} {is : List Nat} (h : ∀ i ∈ is, ∃ s, t.sub i = some s) :
    ∀ g ∈ getHelperIndices is, ∃ s, t.sub g = some s := by
  intro g hg
  obtain ⟨⟨i, hi, k, hk, rfl⟩, _⟩ := mem_getHelperIndices.1 hg
  obtain ⟨s, hs⟩ := h i hi
  have h2 : i / 2 ^ k / 2 = i / 2 ^ (k + 1) := by rw [Nat.div_div_eq_div_mul, ← Nat.pow_succ]
  obtain ⟨l, r, hn⟩ := sub_ancestor k i hs (by omega)
  exact ⟨_, (sub_step (other_lt hk)).2 ⟨l, r, by rw [other_half, h2, hn], rfl⟩⟩

theorem calc_complete (E : Env) {t : MTree} {leaves proof : List Node} {is : List Nat}
    (hne : is ≠ []) (hs : ∀ i ∈ is, ∃ s, t.sub i = some s)
    (hl : leaves.map some = is.map (t.nodeAt E.sha256))
    (hp : proof.map some = (getHelperIndices is).map (t.nodeAt E.sha256)) :
    calculateMultiMerkleRoot E leaves proof is = .ok (t.root E.sha256) := by
  have hl' : leaves.length = is.length := by simpa using congrArg List.length hl
  have hp' : proof.length = (getHelperIndices is).length := by simpa using congrArg List.length hp
  obtain ⟨i, hi⟩ := List.exists_mem_of_ne_nil is hne
  obtain ⟨r, hr, hQ⟩ := calc_ok E hl' hp' ⟨i, hi, by
      obtain ⟨s, h⟩ := hs i hi
      by_contra h0
      have : i = 0 := by omega
      rw [this, sub_zero] at h
      cases h⟩ (fun g n => t.nodeAt E.sha256 g = some n)
    (fun g n hg => by
      rw [startMap_get] at hg
      split at hg
      · rename_i m hm
        cases hg
        have := lookup_some_mem hm
        rw [List.mem_reverse] at this
        exact map_some_get hp this
      · have := lookup_some_mem hg
        rw [List.mem_reverse] at this
        exact map_some_get hl this)
    (fun p l r h1 _ h2 h3 => by
      rw [MTree.nodeAt, Option.map_eq_some_iff] at h2 h3 ⊢
      obtain ⟨u, hu, rfl⟩ := h2
      obtain ⟨v, hv, rfl⟩ := h3
      obtain ⟨a, b, hab, rfl⟩ := (sub_step (by omega)).1 hu
      obtain ⟨c, d, hcd, rfl⟩ := (sub_step (by omega)).1 hv
      have e1 : 2 * p / 2 = p := by omega
      have e2 : (2 * p + 1) / 2 = p := by omega
      rw [e1] at hab
      rw [e2, hab] at hcd
      cases hcd
      refine ⟨_, hab, ?_⟩
      rw [if_pos (by omega), if_neg (by omega)]
      rfl)
  rw [MTree.nodeAt, sub_one] at hQ
  cases hQ
  exact hr

/-! ## Soundness -/

theorem claims_unique {f : Nat → Option Node} {g : Nat} {s : MTree} (h : Claims f g s) :
    ∀ {u : MTree}, Claims f g u → s = u := by
  induction h with
  | leaf h =>
    intro u hu
    cases hu with
    | leaf h' => rw [h] at h'; cases h'; rfl
    | node h' _ _ => rw [h] at h'; cases h'
  | node h _ _ ih1 ih2 =>
    intro u hu
    cases hu with
    | leaf h' => rw [h] at h'; cases h'
    | node _ h1 h2 => rw [ih1 h1, ih2 h2]

theorem ancestor_step {g g' : Nat} (h : AncestorEq g g') :
    g = g' ∨ AncestorEq (2 * g) g' ∨ AncestorEq (2 * g + 1) g' := by
  obtain ⟨k, hk⟩ := h
  cases k with
  | zero => left; simpa using hk.symm
  | succ k =>
    right
    have : g' / 2 ^ k / 2 = g := by rw [Nat.div_div_eq_div_mul, ← Nat.pow_succ]; exact hk
    rcases Nat.mod_two_eq_zero_or_one (g' / 2 ^ k) with h | h
    · exact .inl ⟨k, by omega⟩
    · exact .inr ⟨k, by omega⟩

theorem claims_sound {H : Bytes → Node} {t : MTree} {f : Nat → Option Node}
    (ha : ∀ g g' n n', f g = some n → f g' = some n' → AncestorEq g g' → g = g') {g : Nat}
    {s : MTree} (hc : Claims f g s) : 1 ≤ g → ∀ u, t.sub g = some u → s.root H = u.root H →
    (∀ g' n, f g' = some n → AncestorEq g g' → ∀ u', t.sub g' = some u' → n = u'.root H) ∨
      Collide H t s := by
  induction hc with
  | @leaf g n h =>
    intro _ u hu hr
    left
    intro g' n' h' hg u' hu'
    obtain rfl := ha g g' n n' h h' hg
    rw [h] at h'
    cases h'
    rw [hu] at hu'
    cases hu'
    exact hr
  | @node g l r h hl hr ih1 ih2 =>
    intro h1 u hu he
    cases u with
    | leaf m =>
      left
      intro g' n' h' hg u' hu'
      obtain ⟨k, hk⟩ := hg
      cases k with
      | zero =>
        rw [Nat.pow_zero, Nat.div_one] at hk
        subst hk
        rw [h] at h'
        cases h'
      | succ k =>
        obtain ⟨a, b, hab⟩ := sub_ancestor k g' hu' (by rw [hk]; exact h1)
        rw [hk, hu] at hab
        cases hab
    | node a b =>
      have hin : ((a.root H).1 ++ (b.root H).1) ∈ t.inputs H :=
        sub_inputs hu _ (List.mem_cons_self ..)
      by_cases hs : (l.root H).1 ++ (r.root H).1 = (a.root H).1 ++ (b.root H).1
      · obtain ⟨ha', hb'⟩ := append32_inj hs
        have hsa : t.sub (2 * g) = some a := (sub_step (by omega)).2
          ⟨a, b, by rw [show 2 * g / 2 = g by omega]; exact hu, by rw [if_pos (by omega)]⟩
        have hsb : t.sub (2 * g + 1) = some b := (sub_step (by omega)).2
          ⟨a, b, by rw [show (2 * g + 1) / 2 = g by omega]; exact hu, by rw [if_neg (by omega)]⟩
        rcases ih1 (by omega) a hsa ha' with h3 | h3
        · rcases ih2 (by omega) b hsb hb' with h4 | h4
          · left
            intro g' n' h' hg u' hu'
            rcases ancestor_step hg with rfl | hg | hg
            · rw [h] at h'; cases h'
            · exact h3 g' n' h' hg u' hu'
            · exact h4 g' n' h' hg u' hu'
          · exact .inr (collide_mono h4 (fun _ h => h) inputs_right)
        · exact .inr (collide_mono h3 (fun _ h => h) inputs_left)
      · exact .inr ⟨_, hin, _, List.mem_cons_self .., Ne.symm hs, he.symm⟩

theorem antichain_nodup {is : List Nat} (h : Antichain is) : is.Nodup :=
  List.Pairwise.imp (fun {a b} hab => by
    rintro rfl
    exact hab.1 ⟨0, by simp⟩) h

theorem antichain_eq {is : List Nat} (h : Antichain is) {a b : Nat} (ha : a ∈ is) (hb : b ∈ is)
    (hab : AncestorEq a b) : a = b := by
  induction is with
  | nil => cases ha
  | cons c is ih =>
    rw [Antichain, List.pairwise_cons] at h
    rcases List.mem_cons.1 ha with rfl | ha'
    · rcases List.mem_cons.1 hb with rfl | hb'
      · rfl
      · exact absurd hab (h.1 b hb').1
    · rcases List.mem_cons.1 hb with rfl | hb'
      · exact absurd hab (h.1 a ha').2
      · exact ih h.2 ha' hb'

/-- Positions and their helpers form an antichain. -/
theorem helpers_antichain {is : List Nat} (h : Antichain is) (h1 : ∀ i ∈ is, 1 ≤ i) {a b : Nat}
    (ha : a ∈ is ∨ a ∈ getHelperIndices is) (hb : b ∈ is ∨ b ∈ getHelperIndices is)
    (hab : AncestorEq a b) : a = b := by
  obtain ⟨k, hk⟩ := hab
  cases k with
  | zero => simpa using hk.symm
  | succ k =>
    exfalso
    have ha1 : 1 ≤ a := by
      rcases ha with ha | ha
      · exact h1 a ha
      · obtain ⟨⟨i, _, m, hm, rfl⟩, _⟩ := mem_getHelperIndices.1 ha
        exact Nat.le_of_lt (other_lt hm)
    -- `a` is a proper ancestor of an index
    have hanc : ∃ i ∈ is, ∃ m, i / 2 ^ (m + 1) = a := by
      rcases hb with hb | hb
      · exact ⟨b, hb, k, hk⟩
      · obtain ⟨⟨i, hi, m, hm, rfl⟩, _⟩ := mem_getHelperIndices.1 hb
        refine ⟨i, hi, m + k, ?_⟩
        rw [div_pow_succ, other_half, ← div_pow_succ] at hk
        rw [← hk, Nat.div_div_eq_div_mul, ← Nat.pow_add, Nat.add_assoc]
    obtain ⟨i, hi, m, hm⟩ := hanc
    rcases ha with ha | ha
    · have := antichain_eq h ha hi ⟨m + 1, hm⟩
      subst this
      have : a / 2 ^ (m + 1) < a := Nat.div_lt_self (by omega) (Nat.one_lt_two_pow (by omega))
      omega
    · exact (mem_getHelperIndices.1 ha).2 ⟨i, hi, m + 1, hm⟩

theorem startMap_claimed {leaves proof : List Node} {is : List Nat} (hn : is.Nodup)
    (hl : leaves.length = is.length) (hp : proof.length = (getHelperIndices is).length) (g : Nat) :
    (startMap leaves proof is).get g = claimed (is ++ getHelperIndices is) (leaves ++ proof) g := by
  rw [startMap_get, claimed, List.zip_append hl.symm, List.lookup_append,
    lookup_reverse (by rw [zip_map_fst hp]; exact getHelperIndices_nodup is),
    lookup_reverse (by rw [zip_map_fst hl]; exact hn)]
  cases h1 : ((getHelperIndices is).zip proof).lookup g with
  | none => cases (is.zip leaves).lookup g <;> rfl
  | some n =>
    have hg := (List.of_mem_zip (lookup_some_mem h1)).1
    cases h2 : (is.zip leaves).lookup g with
    | none => rfl
    | some m =>
      have hg2 := (List.of_mem_zip (lookup_some_mem h2)).1
      exact absurd ⟨g, hg2, 0, by simp⟩ (mem_getHelperIndices.1 hg).2

theorem lookup_of_mem {β : Type} {kvs : List (Nat × β)} (hn : (kvs.map (·.1)).Nodup) {g : Nat}
    {n : β} (h : (g, n) ∈ kvs) : kvs.lookup g = some n := by
  induction kvs with
  | nil => cases h
  | cons kv kvs ih =>
    obtain ⟨k, v⟩ := kv
    rw [List.map_cons, List.nodup_cons] at hn
    rw [List.lookup_cons]
    rcases List.mem_cons.1 h with h' | h'
    · cases h'; simp
    · have : g ≠ k := by
        rintro rfl
        exact hn.1 (List.mem_map.2 ⟨(g, n), h', rfl⟩)
      have hb : (g == k) = false := by simpa using this
      rw [hb]
      exact ih hn.2 h'

theorem map_some_of {α β : Type} {f : α → Option β} {xs : List α} {ys : List β}
    (hl : ys.length = xs.length) (h : ∀ x y, (x, y) ∈ xs.zip ys → f x = some y) :
    ys.map some = xs.map f := by
  induction xs generalizing ys with
  | nil =>
    cases ys with
    | nil => rfl
    | cons _ _ => simp at hl
  | cons a xs ih =>
    cases ys with
    | nil => simp at hl
    | cons b ys =>
      rw [List.map_cons, List.map_cons, h a b (by simp), ih (by simpa using hl)
        (fun x y hxy => h x y (by simp [hxy]))]

theorem calc_sound (E : Env) {t : MTree} {leaves proof : List Node} {is : List Nat}
    (ha : Antichain is) (hs : ∀ i ∈ is, ∃ s, t.sub i = some s)
    (hc : calculateMultiMerkleRoot E leaves proof is = .ok (t.root E.sha256)) :
    (leaves.map some = is.map (t.nodeAt E.sha256) ∧
      proof.map some = (getHelperIndices is).map (t.nodeAt E.sha256)) ∨
    ∃ s, Claims (claimed (is ++ getHelperIndices is) (leaves ++ proof)) 1 s ∧
      Collide E.sha256 t s := by
  obtain ⟨hl, hp, hne⟩ := calc_lengths hc
  have h1 : ∀ i ∈ is, 1 ≤ i := fun i hi => by
    obtain ⟨s, h⟩ := hs i hi
    by_contra h0
    have : i = 0 := by omega
    rw [this, sub_zero] at h
    cases h
  have hget := startMap_claimed (antichain_nodup ha) hl hp
  obtain ⟨r, hr, s, hcl, hsr⟩ := calc_ok E hl hp hne
    (fun g n => ∃ s, Claims (claimed (is ++ getHelperIndices is) (leaves ++ proof)) g s ∧
      s.root E.sha256 = n)
    (fun g n hg => ⟨.leaf n, .leaf (by rw [← hget]; exact hg), rfl⟩)
    (fun p l r _ hno ⟨u, hu, hur⟩ ⟨v, hv, hvr⟩ =>
      ⟨.node u v, .node (by rw [← hget]; exact hno) hu hv, by rw [MTree.root, hur, hvr]⟩)
  rw [hr] at hc
  cases hc
  have hmem : ∀ g n, claimed (is ++ getHelperIndices is) (leaves ++ proof) g = some n →
      g ∈ is ∨ g ∈ getHelperIndices is := fun g n hg => by
    have := (List.of_mem_zip (lookup_some_mem hg)).1
    exact List.mem_append.1 this
  have hnd : (is ++ getHelperIndices is).Nodup :=
    (antichain_nodup ha).append (getHelperIndices_nodup is) (fun g hg hg2 =>
      (mem_getHelperIndices.1 hg2).2 ⟨g, hg, 0, by simp⟩)
  rcases claims_sound (H := E.sha256) (t := t)
    (fun g g' n n' hg hg' hgg => helpers_antichain ha h1 (hmem g n hg) (hmem g' n' hg') hgg)
    hcl (Nat.le_refl 1) t (sub_one t) hsr with h | h
  · left
    have hall : ∀ g n, (g, n) ∈ (is ++ getHelperIndices is).zip (leaves ++ proof) →
        t.nodeAt E.sha256 g = some n := by
      intro g n hgn
      have hg := (List.of_mem_zip hgn).1
      have hex : ∃ u, t.sub g = some u := by
        rcases List.mem_append.1 hg with hg | hg
        · exact hs g hg
        · exact helper_sub hs g hg
      obtain ⟨u, hu⟩ := hex
      have hg1 : 1 ≤ g := by
        by_contra h0
        have : g = 0 := by omega
        rw [this, sub_zero] at hu
        cases hu
      have hone : AncestorEq 1 g := by
        refine ⟨Nat.log2 g, ?_⟩
        have h0 : g ≠ 0 := by omega
        obtain ⟨ha, hb⟩ := (log2_spec (d := Nat.log2 g) h0).1 rfl
        have hpos := Nat.two_pow_pos (Nat.log2 g)
        rw [Nat.pow_succ] at hb
        have : g / 2 ^ Nat.log2 g < 2 := Nat.div_lt_of_lt_mul hb
        have : 1 ≤ g / 2 ^ Nat.log2 g := (Nat.one_le_div_iff hpos).2 ha
        omega
      have hlk : claimed (is ++ getHelperIndices is) (leaves ++ proof) g = some n :=
        lookup_of_mem (by
          rw [zip_map_fst (by simp [hl, hp])]
          exact hnd) hgn
      rw [MTree.nodeAt, hu, Option.map_some, h g n hlk hone u hu]
    rw [List.zip_append hl.symm] at hall
    exact ⟨map_some_of hl (fun x y hxy => hall x y (List.mem_append_left _ hxy)),
      map_some_of hp (fun x y hxy => hall x y (List.mem_append_right _ hxy))⟩
  · exact .inr ⟨s, hcl, h⟩

/-! ## One index -/

theorem getBranchIndices_length (g : Nat) : (getBranchIndices g).length = Nat.log2 g := by
  induction g using Nat.strongRecOn with
  | _ g ih =>
    by_cases hg : 1 < g
    · rw [getBranchIndices_step hg, List.length_cons, ih _ (by omega), log2_half hg]
    · rw [getBranchIndices_small (by omega), Nat.log2_def, if_neg (by omega)]; rfl

theorem getBranchIndices_get (g : Nat) : ∀ k, k < Nat.log2 g →
    (getBranchIndices g)[k]? = some (other (g / 2 ^ k)) := by
  induction g using Nat.strongRecOn with
  | _ g ih =>
    intro k hk
    by_cases hg : 1 < g
    · rw [getBranchIndices_step hg]
      cases k with
      | zero => simp
      | succ k =>
        rw [List.getElem?_cons_succ, ih _ (by omega) k (by rw [log2_half hg] at hk; omega),
          div_pow_succ]
    · rw [Nat.log2_def, if_neg (by omega)] at hk
      omega

theorem other_le (p : Nat) : other p ≤ p + 1 := by rw [other]; split <;> omega

theorem getBranchIndices_sorted (g : Nat) : (getBranchIndices g).Pairwise (· > ·) := by
  induction g using Nat.strongRecOn with
  | _ g ih =>
    by_cases hg : 1 < g
    · rw [getBranchIndices_step hg, List.pairwise_cons]
      refine ⟨fun m hm => ?_, ih _ (by omega)⟩
      obtain ⟨k, hk, rfl⟩ := mem_getBranchIndices.1 hm
      have h1 := other_le (g / 2 / 2 ^ k)
      have h2 := Nat.div_le_self (g / 2) (2 ^ k)
      have h3 := other_half (g := g)
      omega
    · rw [getBranchIndices_small (by omega)]; simp

/-- A sibling of a node on the path is not on the path. -/
theorem other_not_path {g k m : Nat} (hk : 1 < g / 2 ^ k) : g / 2 ^ m ≠ other (g / 2 ^ k) := by
  intro h
  rcases Nat.lt_trichotomy m k with hlt | rfl | hlt
  · obtain ⟨d, rfl⟩ := Nat.exists_eq_add_of_lt hlt
    have h1 : g / 2 ^ (m + d + 1) = g / 2 ^ m / 2 / 2 ^ d := by
      rw [← div_pow_succ, Nat.div_div_eq_div_mul, ← Nat.pow_add, Nat.add_assoc]
    have h2 := Nat.div_le_self (g / 2 ^ m / 2) (2 ^ d)
    have h3 := other_le (g / 2 ^ (m + d + 1))
    omega
  · rw [other] at h
    split at h <;> omega
  · obtain ⟨d, rfl⟩ := Nat.exists_eq_add_of_lt hlt
    have h1 : g / 2 ^ (k + d + 1) = g / 2 ^ k / 2 / 2 ^ d := by
      rw [← div_pow_succ, Nat.div_div_eq_div_mul, ← Nat.pow_add, Nat.add_assoc]
    have h2 := Nat.div_le_self (g / 2 ^ k / 2) (2 ^ d)
    have h3 := other_half (g := g / 2 ^ k)
    have h4 := other_lt hk
    omega

theorem getHelperIndices_single (g : Nat) : getHelperIndices [g] = getBranchIndices g := by
  have hs := getBranchIndices_sorted g
  have hn : (getBranchIndices g).Nodup := hs.imp (by intro a b h; omega)
  rw [getHelperIndices, List.flatMap_singleton, List.flatMap_singleton, List.dedup_eq_self.2 hn,
    List.filter_eq_self.2, sortDesc]
  · exact List.mergeSort_of_pairwise (hs.imp (by intro a b h; simp only [decide_eq_true_eq]; omega))
  · intro a ha
    obtain ⟨k, hk, rfl⟩ := mem_getBranchIndices.1 ha
    simp only [Bool.not_eq_true', List.contains_eq_mem, decide_eq_false_iff_not, mem_getPathIndices]
    rintro ⟨_, m, hm⟩
    exact other_not_path hk hm

theorem climb_snoc {H : Bytes → Node} : ∀ (bs : List Node) (g : Nat) (n b : Node),
    climb H g n (bs ++ [b]) =
      if g / 2 ^ bs.length % 2 = 0 then H ((climb H g n bs).1 ++ b.1)
      else H (b.1 ++ (climb H g n bs).1)
  | [], g, n, b => by simp [climb]
  | a :: bs, g, n, b => by
    rw [List.cons_append, climb, climb_snoc bs, climb, List.length_cons, div_pow_succ]

theorem log2_div_pow {g k : Nat} (h : 1 < g / 2 ^ k) : k < Nat.log2 g := by
  have h0 : g ≠ 0 := by rintro rfl; simp at h
  obtain ⟨_, hb⟩ := (log2_spec (d := Nat.log2 g) h0).1 rfl
  by_contra hk
  have h1 : 2 ^ (Nat.log2 g + 1) ≤ 2 ^ (k + 1) := Nat.pow_le_pow_right (by decide) (by omega)
  rw [Nat.pow_succ] at h1
  have : g / 2 ^ k < 2 := Nat.div_lt_of_lt_mul (by rw [Nat.pow_succ] at h1 hb; omega)
  omega

theorem calc_single (E : Env) (leaf : Node) (proof : List Node) (g : Nat) (hg : 1 ≤ g) :
    calculateMultiMerkleRoot E [leaf] proof [g] =
      if proof.length = Nat.log2 g then .ok (climb E.sha256 g leaf proof) else .err .invalidProof := by
  by_cases hp : proof.length = Nat.log2 g
  · rw [if_pos hp]
    have hp' : proof.length = (getHelperIndices [g]).length := by
      rw [getHelperIndices_single, getBranchIndices_length, hp]
    have hstart : ∀ h, (startMap [leaf] proof [g]).get h =
        match ((getBranchIndices g).zip proof).lookup h with
        | some n => some n
        | none => if h = g then some leaf else none := by
      intro h
      rw [startMap_get, getHelperIndices_single, lookup_reverse (by
        rw [zip_map_fst (by rw [getBranchIndices_length, hp])]
        exact (getBranchIndices_sorted g).imp (by intro a b h; omega))]
      have : (([g].zip [leaf]).reverse).lookup h = if h = g then some leaf else none := by
        simp only [List.zip_cons_cons, List.zip_nil_right, List.reverse_singleton, List.lookup_cons,
          List.lookup_nil]
        by_cases hh : h = g
        · simp [hh]
        · have hb : (h == g) = false := by simpa using hh
          simp [hh, hb]
      rw [this]
    have hhelp : ∀ k (hk : k < proof.length),
        (startMap [leaf] proof [g]).get (other (g / 2 ^ k)) = some proof[k] := by
      intro k hk
      have hmem : (other (g / 2 ^ k), proof[k]) ∈ (getBranchIndices g).zip proof := by
        rw [List.mem_iff_getElem?]
        refine ⟨k, ?_⟩
        rw [List.getElem?_zip_eq_some]
        exact ⟨getBranchIndices_get g k (by omega), List.getElem?_eq_getElem hk⟩
      rw [hstart, lookup_of_mem (by
        rw [zip_map_fst (by rw [getBranchIndices_length, hp])]
        exact (getBranchIndices_sorted g).imp (by intro a b h; omega)) hmem]
    have hself : (startMap [leaf] proof [g]).get g = some leaf := by
      rw [hstart]
      cases hl : ((getBranchIndices g).zip proof).lookup g with
      | none => simp
      | some n =>
        exfalso
        obtain ⟨k, hk, he⟩ := mem_getBranchIndices.1 (List.of_mem_zip (lookup_some_mem hl)).1
        exact other_not_path (m := 0) hk (by simpa using he)
    obtain ⟨r, hr, hQ, _⟩ := calc_ok E (leaves := [leaf]) (is := [g]) rfl hp'
      ⟨g, by simp, hg⟩
      (fun h n => (∀ k, k ≤ proof.length → g / 2 ^ k = h →
          n = climb E.sha256 g leaf (proof.take k)) ∧
        (∀ k (hk : k < proof.length), h = other (g / 2 ^ k) → n = proof[k]))
      (fun h n hn => by
        constructor
        · intro k hk he
          cases k with
          | zero =>
            rw [Nat.pow_zero, Nat.div_one] at he
            subst he
            rw [hself] at hn
            cases hn
            rfl
          | succ k =>
            exfalso
            have hc := (startMap_contains (leaves := [leaf]) (is := [g]) rfl hp' h).1
              ((contains_iff _ _).2 ⟨n, hn⟩)
            rcases hc with hc | hc
            · rw [List.mem_singleton] at hc
              have : g / 2 ^ (k + 1) < g := Nat.div_lt_self (by omega) (Nat.one_lt_two_pow (by omega))
              omega
            · rw [getHelperIndices_single] at hc
              obtain ⟨j, hj, he'⟩ := mem_getBranchIndices.1 hc
              exact other_not_path hj (he.trans he')
        · intro k hk he
          rw [he, hhelp k hk] at hn
          cases hn
          rfl)
      (fun p l r h1 hno hl hr => by
        constructor
        · intro k hk he
          cases k with
          | zero =>
            rw [Nat.pow_zero, Nat.div_one] at he
            subst he
            rw [hself] at hno
            cases hno
          | succ k =>
            have hhalf : g / 2 ^ k / 2 = p := by
              rw [Nat.div_div_eq_div_mul, ← Nat.pow_succ]; exact he
            have htake : proof.take (k + 1) = proof.take k ++ [proof[k]] :=
              (List.take_append_getElem (by omega)).symm
            have hlen : (proof.take k).length = k := by
              rw [List.length_take]; omega
            rw [htake, climb_snoc, hlen]
            rcases Nat.mod_two_eq_zero_or_one (g / 2 ^ k) with hm | hm
            · have e1 : g / 2 ^ k = 2 * p := by omega
              have e2 : other (g / 2 ^ k) = 2 * p + 1 := by rw [other, if_pos hm]; omega
              rw [if_pos hm, hl.1 k (by omega) e1, hr.2 k (by omega) e2.symm]
            · have e1 : g / 2 ^ k = 2 * p + 1 := by omega
              have e2 : other (g / 2 ^ k) = 2 * p := by rw [other, if_neg (by omega)]; omega
              rw [if_neg (by omega), hr.1 k (by omega) e1, hl.2 k (by omega) e2.symm]
        · intro k hk he
          rw [he, hhelp k hk] at hno
          cases hno)
    rw [hr, hQ proof.length (Nat.le_refl _) (by
      have h0 : g ≠ 0 := by omega
      obtain ⟨ha, hb⟩ := (log2_spec (d := Nat.log2 g) h0).1 rfl
      have hpos := Nat.two_pow_pos (Nat.log2 g)
      rw [Nat.pow_succ] at hb
      rw [hp]
      have : g / 2 ^ Nat.log2 g < 2 := Nat.div_lt_of_lt_mul hb
      have : 1 ≤ g / 2 ^ Nat.log2 g := (Nat.one_le_div_iff hpos).2 ha
      omega), List.take_length]
  · rw [if_neg hp, calculateMultiMerkleRoot, if_neg (by simp)]
    simp only
    rw [if_pos (by rw [getHelperIndices_single, getBranchIndices_length]; exact hp)]

end Ssz
