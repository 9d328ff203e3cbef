import Verif.Proofs.Verify

/-!
# Multiproofs
-/

namespace Ssz

open Spec

/-! ## The map of nodes -/

theorem lookup_filter_ne {β : Type} (m : List (Nat × β)) (k g : Nat) :
    List.lookup g (m.filter fun p => p.1 ≠ k) = if g = k then none else List.lookup g m := by
  induction m with
  | nil => simp
  | cons p m ih =>
    obtain ⟨a, b⟩ := p
    by_cases ha : a = k
    · subst ha
      rw [List.filter_cons_of_neg (by simp), ih]
      by_cases hg : g = a
      · simp [hg]
      · have hb : (g == a) = false := by simpa using hg
        simp [hg, List.lookup_cons, hb]
    · rw [List.filter_cons_of_pos (by simpa using ha), List.lookup_cons, List.lookup_cons, ih]
      by_cases hga : g = a
      · subst hga
        simp [ha]
      · have hb : (g == a) = false := by simpa using hga
        simp only [hb]

theorem get_insert (m : Objects) (k : Nat) (v : Node) (g : Nat) :
    (m.insert k v).get g = if g = k then some v else m.get g := by
  rw [Objects.insert, Objects.get, List.lookup_cons, lookup_filter_ne, Objects.get]
  by_cases h : g = k
  · simp [h]
  · have hb : (g == k) = false := by simpa using h
    simp [h, hb]

theorem contains_iff (m : Objects) (k : Nat) : m.contains k = true ↔ ∃ n, m.get k = some n := by
  rw [Objects.contains, Option.isSome_iff_exists]

theorem mem_keys_of_get {m : Objects} {k : Nat} {n : Node} (h : m.get k = some n) :
    k ∈ m.keys := by
  rw [Objects.get] at h
  rw [Objects.keys]
  induction m with
  | nil => simp at h
  | cons p m ih =>
    obtain ⟨a, b⟩ := p
    rw [List.lookup_cons] at h
    by_cases hk : k = a
    · simp [hk]
    · have hb : (k == a) = false := by simpa using hk
      rw [hb] at h
      exact List.mem_cons_of_mem _ (ih h)

theorem mem_sortDesc {l : List Nat} {k : Nat} : k ∈ sortDesc l ↔ k ∈ l := by
  rw [sortDesc, List.mem_mergeSort]

theorem get_insertAll (kvs : List (Nat × Node)) : ∀ (m : Objects) (g : Nat),
    (m.insertAll kvs).get g = match kvs.reverse.lookup g with
      | some n => some n
      | none => m.get g := by
  induction kvs using List.reverseRecOn with
  | nil => intro m g; rfl
  | append_singleton kvs kv ih =>
    intro m g
    obtain ⟨k, v⟩ := kv
    have : m.insertAll (kvs ++ [(k, v)]) = (m.insertAll kvs).insert k v := by
      simp [Objects.insertAll]
    rw [this, get_insert, List.reverse_append, List.reverse_singleton, List.singleton_append,
      List.lookup_cons, ih]
    by_cases h : g = k
    · simp [h]
    · have hb : (g == k) = false := by simpa using h
      simp only [h, if_false, hb]

theorem lookup_reverse {β : Type} {kvs : List (Nat × β)} (hn : (kvs.map (·.1)).Nodup) (g : Nat) :
    kvs.reverse.lookup g = kvs.lookup g := by
  induction kvs with
  | nil => rfl
  | cons kv kvs ih =>
    obtain ⟨k, v⟩ := kv
    rw [List.map_cons, List.nodup_cons] at hn
    rw [List.reverse_cons, List.lookup_append, ih hn.2, List.lookup_cons, List.lookup_cons]
    by_cases h : g = k
    · subst h
      have : kvs.lookup g = none := by
        rw [List.lookup_eq_none_iff]
        intro p hp
        rw [bne_iff_ne]
        rintro rfl
        exact hn.1 (List.mem_map.2 ⟨p, hp, rfl⟩)
      simp [this]
    · have hb : (g == k) = false := by simpa using h
      simp [hb]

theorem zip_map_fst_sub {α β : Type} {xs : List α} {ys : List β} :
    ((xs.zip ys).map (·.1)).Sublist xs := by
  induction xs generalizing ys with
  | nil => simp
  | cons x xs ih =>
    cases ys with
    | nil => simp
    | cons y ys => simpa using ih

/-! ## The loop -/

theorem sibling_other (g : Nat) : sibling g = other g := sibling_eq g

theorem or_one_eq (g : Nat) : g ||| 1 = 2 * (g / 2) + 1 := by
  have h1 : (g ||| 1) / 2 = g / 2 := by rw [Nat.or_div_two]; simp
  have h2 : (g ||| 1) % 2 = 1 := by rw [Nat.or_mod_two_eq_one]; simp
  omega

theorem sibling_odd (p : Nat) : sibling (2 * p + 1) = 2 * p := by
  rw [sibling_eq, if_neg (by omega)]; omega

theorem sibling_even (p : Nat) : sibling (2 * p) = 2 * p + 1 := by
  rw [sibling_eq, if_pos (by omega)]

theorem sibling_sibling (k : Nat) : sibling (sibling k) = k := by
  rw [sibling_eq, sibling_eq]; split <;> split <;> omega

theorem parent_sibling (k : Nat) : parent (sibling k) = parent k := by
  rw [sibling_eq, parent, parent]; split <;> omega

theorem multiproofLoop_ok (E : Env) (Q : Nat → Node → Prop) (m0 : Objects)
    (hstep : ∀ p l r, 1 ≤ p → m0.get p = none → Q (2 * p) l → Q (2 * p + 1) r →
      Q p (E.sha256 (l.1 ++ r.1))) : ∀ (keys : List Nat) (m : Objects),
    (∀ g n, m0.get g = some n → m.get g = some n) →
    (∀ g n, m.get g = some n → Q g n) →
    (∀ k, m.contains k = true → m.contains (sibling k) = true → m.contains (parent k) = false →
      k ∈ keys ∨ sibling k ∈ keys) →
    ∃ m', multiproofLoop E keys m = .ok m' ∧
      (∀ g n, m0.get g = some n → m'.get g = some n) ∧
      (∀ g n, m'.get g = some n → Q g n) ∧
      (∀ k, m'.contains k = true → m'.contains (sibling k) = true →
        m'.contains (parent k) = true) := by
  intro keys m
  induction keys, m using multiproofLoop.induct E with
  | case1 m =>
    intro h0 hQ hk
    refine ⟨m, by rw [multiproofLoop], h0, hQ, fun k h1 h2 => ?_⟩
    cases h3 : m.contains (parent k) with
    | true => rfl
    | false => rcases hk k h1 h2 h3 with h | h <;> cases h
  | case2 m key keys hc ri li left right hr hl node ih =>
    intro h0 hQ hk
    rw [Bool.and_eq_true, Bool.and_eq_true, Bool.not_eq_true'] at hc
    obtain ⟨⟨hc1, hc2⟩, hc3⟩ := hc
    have hri : ri = 2 * parent key + 1 := or_one_eq key
    have hli : li = 2 * parent key := by rw [← sibling_odd, ← hri]
    have hkey : 1 ≤ parent key := by
      rcases Nat.eq_zero_or_pos (parent key) with h | h
      · exfalso
        have : key = 0 ∨ key = 1 := by simp only [parent] at h; omega
        rcases this with rfl | rfl
        · have h2 : parent 0 = 0 := by decide
          rw [h2, hc1] at hc3; cases hc3
        · have h2 : sibling 1 = parent 1 := by decide
          rw [h2, hc3] at hc2; cases hc2
      · exact h
    have hnone : m.get (parent key) = none := by
      simpa [Objects.contains] using hc3
    obtain ⟨m', e, r1, r2, r3⟩ := ih (fun g n hg => by
        rw [get_insert]
        by_cases hgp : g = parent key
        · subst hgp
          rw [h0 _ _ hg] at hnone
          cases hnone
        · rw [if_neg hgp]; exact h0 g n hg)
      (fun g n hg => by
        rw [get_insert] at hg
        by_cases hgp : g = parent key
        · rw [if_pos hgp] at hg
          cases hg
          subst hgp
          refine hstep _ left right hkey ?_ ?_ ?_
          · cases hm : m0.get (parent key) with
            | none => rfl
            | some x => rw [h0 _ _ hm] at hnone; cases hnone
          · exact hli ▸ hQ _ _ hl
          · exact hri ▸ hQ _ _ hr
        · rw [if_neg hgp] at hg; exact hQ g n hg)
      (fun k h1 h2 h3 => by
        rw [contains_iff] at h1 h2
        simp only [get_insert] at h1 h2
        have h3' : m.contains (parent k) = false ∧ parent k ≠ parent key := by
          constructor
          · cases hm : m.contains (parent k) with
            | false => rfl
            | true =>
              obtain ⟨x, hx⟩ := (contains_iff _ _).1 hm
              have : (m.insert (parent key) node).contains (parent k) = true := by
                rw [contains_iff, get_insert]
                split
                · exact ⟨_, rfl⟩
                · exact ⟨x, hx⟩
              rw [this] at h3; cases h3
          · intro he
            have : (m.insert (parent key) node).contains (parent k) = true := by
              rw [contains_iff, get_insert, if_pos he]
              exact ⟨_, rfl⟩
            rw [this] at h3; cases h3
        by_cases hk1 : k = parent key
        · left; rw [hk1]; simp
        · by_cases hk2 : sibling k = parent key
          · right; rw [hk2]; simp
          · rw [if_neg hk1] at h1
            rw [if_neg hk2] at h2
            rcases hk k ((contains_iff _ _).2 h1) ((contains_iff _ _).2 h2) h3'.1 with h | h
            · rcases List.mem_cons.1 h with h | h
              · exact absurd (by rw [h]) h3'.2
              · left; simp [h]
            · rcases List.mem_cons.1 h with h | h
              · exact absurd (by rw [← h, parent_sibling]) h3'.2
              · right; simp [h])
    refine ⟨m', ?_, r1, r2, r3⟩
    rw [multiproofLoop]
    have hc : (m.contains key && m.contains (sibling key) && !m.contains (parent key)) = true := by
      rw [hc1, hc2, hc3]; rfl
    rw [dif_pos hc]
    have hl' : m.get (sibling (key ||| 1)) = some left := hl
    have hr' : m.get (key ||| 1) = some right := hr
    simp only [hl', hr']
    exact e
  | case3 m key keys hc ri li hno =>
    intro h0 hQ hk
    exfalso
    rw [Bool.and_eq_true, Bool.and_eq_true, Bool.not_eq_true'] at hc
    obtain ⟨⟨hc1, hc2⟩, hc3⟩ := hc
    have hri : ri = 2 * parent key + 1 := or_one_eq key
    have hli : li = 2 * parent key := by rw [← sibling_odd, ← hri]
    obtain ⟨x, hx⟩ := (contains_iff _ _).1 hc1
    obtain ⟨y, hy⟩ := (contains_iff _ _).1 hc2
    rcases Nat.mod_two_eq_zero_or_one key with hp | hp
    · have h1 : key = 2 * parent key := by simp only [parent]; omega
      rw [h1, sibling_even] at hy
      rw [h1] at hx
      exact hno x y (hli ▸ hx) (hri ▸ hy)
    · have h1 : key = 2 * parent key + 1 := by simp only [parent]; omega
      rw [h1, sibling_odd] at hy
      rw [h1] at hx
      exact hno y x (hli ▸ hy) (hri ▸ hx)
  | case4 m key keys hc ih =>
    intro h0 hQ hk
    obtain ⟨m', e, r1, r2, r3⟩ := ih h0 hQ (fun k h1 h2 h3 => by
      rcases hk k h1 h2 h3 with h | h
      · rcases List.mem_cons.1 h with h | h
        · subst h
          exact absurd (by rw [h1, h2, h3]; rfl) hc
        · exact .inl h
      · rcases List.mem_cons.1 h with h | h
        · subst h
          refine absurd ?_ hc
          rw [h2, sibling_sibling, h1, parent_sibling, h3]
          rfl
        · exact .inr h)
    refine ⟨m', ?_, r1, r2, r3⟩
    rw [multiproofLoop, dif_neg hc]
    exact e

/-! ## The helper indices -/

theorem div_pow_succ (i k : Nat) : i / 2 ^ (k + 1) = i / 2 / 2 ^ k := by
  rw [Nat.pow_succ, Nat.mul_comm, Nat.div_div_eq_div_mul]

theorem branchIndicesLoop_eq (focus : Nat) : ∀ acc, branchIndicesLoop focus acc =
    acc ++ branchIndicesLoop focus [] := by
  induction focus using Nat.strongRecOn with
  | _ focus ih =>
    intro acc
    rw [branchIndicesLoop]
    conv => rhs; rw [branchIndicesLoop]
    by_cases h : focus > 1
    · rw [dif_pos h, dif_pos h, ih _ (sibling_parent_lt h),
        ih _ (sibling_parent_lt h) ([] ++ [sibling (parent focus)])]
      simp
    · rw [dif_neg h, dif_neg h]; simp

theorem pathIndicesLoop_eq (focus : Nat) : ∀ acc, pathIndicesLoop focus acc =
    acc ++ pathIndicesLoop focus [] := by
  induction focus using Nat.strongRecOn with
  | _ focus ih =>
    intro acc
    rw [pathIndicesLoop]
    conv => rhs; rw [pathIndicesLoop]
    by_cases h : focus > 1
    · have : parent focus < focus := by simp only [parent]; omega
      rw [dif_pos h, dif_pos h, ih _ this, ih _ this ([] ++ [parent focus])]
      simp
    · rw [dif_neg h, dif_neg h]; simp

theorem getBranchIndices_small {i : Nat} (h : i ≤ 1) : getBranchIndices i = [] := by
  have : i = 0 ∨ i = 1 := by omega
  rcases this with rfl | rfl
  · have h : sibling 0 = 1 := by decide
    rw [getBranchIndices, h, branchIndicesLoop]; rfl
  · have h : sibling 1 = 0 := by decide
    rw [getBranchIndices, h, branchIndicesLoop]; rfl

theorem getBranchIndices_step {i : Nat} (h : 1 < i) :
    getBranchIndices i = other i :: getBranchIndices (i / 2) := by
  have h1 : sibling i > 1 := by rw [sibling_other]; exact other_lt h
  have h2 : parent (sibling i) = i / 2 := parent_sibling i
  rw [getBranchIndices, branchIndicesLoop_eq, branchIndicesLoop, dif_pos h1, h2, getBranchIndices,
    List.nil_append, sibling_other, List.singleton_append]
  have : branchIndicesLoop (sibling (i / 2)) [sibling (i / 2)] ≠ [] := by
    rw [branchIndicesLoop_eq]; simp
  rw [List.dropLast_cons_of_ne_nil this]

theorem getPathIndices_small {i : Nat} (h : i ≤ 1) : getPathIndices i = [] := by
  rw [getPathIndices, pathIndicesLoop, dif_neg (by omega)]; rfl

theorem getPathIndices_step {i : Nat} (h : 1 < i) :
    getPathIndices i = i :: getPathIndices (i / 2) := by
  rw [getPathIndices, pathIndicesLoop_eq, pathIndicesLoop, dif_pos h, getPathIndices,
    List.nil_append, List.singleton_append]
  have : pathIndicesLoop (parent i) [parent i] ≠ [] := by
    rw [pathIndicesLoop_eq]; simp
  rw [List.dropLast_cons_of_ne_nil this]
  rfl

theorem mem_getBranchIndices {i g : Nat} :
    g ∈ getBranchIndices i ↔ ∃ k, 1 < i / 2 ^ k ∧ g = other (i / 2 ^ k) := by
  induction i using Nat.strongRecOn with
  | _ i ih =>
    by_cases hi : 1 < i
    · rw [getBranchIndices_step hi, List.mem_cons, ih _ (by omega)]
      constructor
      · rintro (h | ⟨k, h1, h2⟩)
        · exact ⟨0, by simpa using hi, by simpa using h⟩
        · exact ⟨k + 1, by rw [div_pow_succ]; exact h1, by rw [div_pow_succ]; exact h2⟩
      · rintro ⟨k, h1, h2⟩
        cases k with
        | zero => left; simpa using h2
        | succ k => right; rw [div_pow_succ] at h1 h2; exact ⟨k, h1, h2⟩
    · rw [getBranchIndices_small (by omega)]
      constructor
      · intro h; cases h
      · rintro ⟨k, h1, _⟩
        have := Nat.div_le_self i (2 ^ k)
        omega

theorem mem_getPathIndices {i g : Nat} :
    g ∈ getPathIndices i ↔ 1 < g ∧ ∃ k, i / 2 ^ k = g := by
  induction i using Nat.strongRecOn with
  | _ i ih =>
    by_cases hi : 1 < i
    · rw [getPathIndices_step hi, List.mem_cons, ih _ (by omega)]
      constructor
      · rintro (h | ⟨h1, k, h2⟩)
        · exact ⟨by omega, 0, by simp [h]⟩
        · exact ⟨h1, k + 1, by rw [div_pow_succ]; exact h2⟩
      · rintro ⟨h1, k, h2⟩
        cases k with
        | zero => left; simpa using h2.symm
        | succ k => right; rw [div_pow_succ] at h2; exact ⟨h1, k, h2⟩
    · rw [getPathIndices_small (by omega)]
      constructor
      · intro h; cases h
      · rintro ⟨h1, k, h2⟩
        have := Nat.div_le_self i (2 ^ k)
        omega

theorem mem_getHelperIndices {is : List Nat} {g : Nat} : g ∈ getHelperIndices is ↔
    (∃ i ∈ is, ∃ k, 1 < i / 2 ^ k ∧ g = other (i / 2 ^ k)) ∧ ¬ ∃ i ∈ is, ∃ k, i / 2 ^ k = g := by
  rw [getHelperIndices]
  rw [mem_sortDesc, List.mem_filter, List.mem_dedup, List.mem_flatMap]
  simp only [Bool.not_eq_true', List.contains_eq_mem, decide_eq_false_iff_not, List.mem_flatMap,
    mem_getBranchIndices, mem_getPathIndices]
  constructor
  · rintro ⟨⟨i, hi, k, hk, rfl⟩, h2⟩
    exact ⟨⟨i, hi, k, hk, rfl⟩, fun ⟨j, hj, m, hm⟩ => h2 ⟨j, hj, other_lt hk, m, hm⟩⟩
  · rintro ⟨h1, h2⟩
    exact ⟨h1, fun ⟨j, hj, _, m, hm⟩ => h2 ⟨j, hj, m, hm⟩⟩

theorem sortDesc_sorted {l : List Nat} (h : l.Nodup) : (sortDesc l).Pairwise (· > ·) := by
  have h1 : (sortDesc l).Pairwise (fun a b => decide (b ≤ a) = true) := by
    refine List.pairwise_mergeSort (le := fun a b => decide (b ≤ a)) ?_ ?_ l
    · intro a b c h1 h2
      simp only [decide_eq_true_eq] at h1 h2 ⊢
      omega
    · intro a b
      simp only [Bool.or_eq_true, decide_eq_true_eq]
      omega
  have h2 : (sortDesc l).Nodup := (List.mergeSort_perm l _).nodup_iff.2 h
  refine (h1.and h2).imp ?_
  rintro a b ⟨h1, h2⟩
  simp only [decide_eq_true_eq] at h1
  omega

theorem getHelperIndices_sorted (is : List Nat) : (getHelperIndices is).Pairwise (· > ·) :=
  sortDesc_sorted ((List.nodup_dedup _).filter _)

theorem getHelperIndices_nodup (is : List Nat) : (getHelperIndices is).Nodup :=
  (getHelperIndices_sorted is).imp (by intro a b h; omega)

end Ssz
