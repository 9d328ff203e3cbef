import Verif.Proofs.GenIndex
import Verif.Proofs.Std

/-!
# What stands at the generalized index of a path
-/

namespace Ssz

open Spec

/-! ## Chunks -/

theorem leaves_get {b : Bytes} {j : Nat} (h : 32 * j < b.length) :
    (leaves b)[j]? = some (.leaf (pad32 (b.drop (32 * j)))) := by
  simp only [leaves, chunkify, List.map_map, List.getElem?_map]
  rw [List.getElem?_range (by omega)]
  rfl

theorem pad32_slice {b : Bytes} {p k : Nat} (h1 : p + k ≤ 32) (h2 : p + k ≤ b.length) :
    ((pad32 b).1.drop p).take k = (b.drop p).take k := by
  simp only [pad32]
  rw [List.drop_take, List.take_take, Nat.min_eq_left (by omega),
    List.drop_append_of_le_length (by omega), List.take_append_of_le_length (by simp; omega)]

theorem flatMap_slice {α : Type} {f : α → Bytes} {k : Nat} : ∀ {xs : List α} {i : Nat} {x : α},
    (∀ y ∈ xs, (f y).length = k) → xs[i]? = some x →
    ((xs.flatMap f).drop (i * k)).take k = f x ∧ i * k + k ≤ (xs.flatMap f).length
  | [], _, _, _, h => by cases h
  | y :: ys, 0, x, hk, h => by
    cases h
    have h1 := hk y (by simp)
    rw [Nat.zero_mul, List.drop_zero, List.flatMap_cons, List.take_append_of_le_length (by omega),
      List.take_of_length_le (by omega)]
    refine ⟨rfl, ?_⟩
    rw [List.length_append]; omega
  | y :: ys, i + 1, x, hk, h => by
    have h1 := hk y (by simp)
    obtain ⟨h2, h3⟩ := flatMap_slice (xs := ys) (i := i) (fun z hz => hk z (by simp [hz])) h
    rw [List.flatMap_cons, List.drop_append, Nat.add_mul, Nat.one_mul,
      List.drop_eq_nil_of_le (by omega), List.nil_append, List.length_append,
      show i * k + k - (f y).length = i * k by omega]
    exact ⟨h2, by omega⟩

/-- The chunk with a packed element. -/
theorem packed_elem {α : Type} {f : α → Bytes} {k : Nat} {xs : List α} {i : Nat} {x : α}
    (hk : ∀ y ∈ xs, (f y).length = k) (hx : xs[i]? = some x) (h0 : 0 < k) (h32 : k ∣ 32) :
    ∃ s, (leaves (xs.flatMap f))[i * k / 32]? = some s ∧ (Found.bytes (i * k % 32) (f x)).In s := by
  obtain ⟨h1, h2⟩ := flatMap_slice hk hx
  have hlen : (f x).length = k := hk x (List.mem_of_getElem? hx)
  have h3 : i * k % 32 + k ≤ 32 := by
    obtain ⟨m, hm⟩ := h32
    have h4 : i * k % 32 = k * (i % m) := by rw [hm, Nat.mul_comm i k, Nat.mul_mod_mul_left]
    have h5 : 0 < m := by
      rcases Nat.eq_zero_or_pos m with rfl | h
      · simp at hm
      · exact h
    have h6 := Nat.mod_lt i h5
    have h7 := Nat.mul_le_mul_left k (show i % m + 1 ≤ m by omega)
    rw [Nat.mul_add, Nat.mul_one] at h7
    omega
  refine ⟨_, leaves_get (by omega), _, rfl, by omega, ?_⟩
  rw [hlen, pad32_slice h3 (by rw [List.length_drop]; omega), List.drop_drop,
    show 32 * (i * k / 32) + i * k % 32 = i * k by omega, h1]

theorem packBits_get : ∀ (j : Nat) {l : List Bool}, 8 * j < l.length →
    (packBits l)[j]? = some (byteOfBits ((l.drop (8 * j)).take 8))
  | 0, l, h => by
    rw [packBits_cons l (by rintro rfl; simp at h)]; rfl
  | j + 1, l, h => by
    rw [packBits_cons l (by rintro rfl; simp at h), List.getElem?_cons_succ,
      packBits_get j (by rw [List.length_drop]; omega), List.drop_drop,
      show 8 + 8 * j = 8 * (j + 1) by omega]

/-- The chunk with a bit. -/
theorem packed_bit {l : List Bool} {i : Nat} {b : Bool} (h : l[i]? = some b) :
    ∃ s, (leaves (packBits l))[i / 256]? = some s ∧ (Found.bit (i % 256) b).In s := by
  have hi : i < l.length := by
    by_contra hc
    rw [List.getElem?_eq_none (by omega)] at h; cases h
  have hp := packBits_length l
  refine ⟨_, leaves_get (by omega), _, rfl, ?_⟩
  have h1 : i % 256 / 8 + 1 ≤ ((packBits l).drop (32 * (i / 256))).length := by
    rw [List.length_drop]; omega
  have h2 := pad32_slice (b := (packBits l).drop (32 * (i / 256))) (p := i % 256 / 8) (k := 1)
    (by omega) h1
  have h3 := packBits_get (i / 8) (l := l) (by omega)
  have hlt : i % 256 / 8 < (pad32 ((packBits l).drop (32 * (i / 256)))).1.length := by
    rw [(pad32 _).2]; omega
  refine ⟨hlt, ?_⟩
  rw [List.drop_drop, show 32 * (i / 256) + i % 256 / 8 = i / 8 by omega,
    List.drop_eq_getElem_cons hlt] at h2
  have h4 : i / 8 < (packBits l).length := by omega
  rw [List.drop_eq_getElem_cons h4] at h2
  simp only [List.take_succ_cons, List.take_zero, List.cons.injEq, and_true] at h2
  rw [h2]
  rw [List.getElem?_eq_getElem h4, Option.some.injEq] at h3
  rw [h3, byteOfBits_getLsbD _ _ (by omega), List.getD_eq_getElem?_getD,
    List.getElem?_take_of_lt (by omega), List.getElem?_drop,
    show 8 * (i / 8) + i % 256 % 8 = i by omega, h]
  rfl

/-! ## Items -/

/-- Arrays of packed elements that may be elements of a collection. -/
theorem flat_array {t : Ty} {n : Nat} (hp : packs t = true) (hf : flatElem (.array t n) = true) :
    oneChunk (.array t n) = true := by
  simpa [flatElem, hp] using hf

theorem packed_item {t : Ty} (hp : packs t = true) (hf : flatElem t = true) :
    itemLen prims t = fixedLen t ∧ 0 < fixedLen t ∧ fixedLen t ∣ 32 := by
  cases t with
  | uint u => cases u <;> simp [itemLen, prims, fixedLen, UintTy.bits]
  | u256 => simp [itemLen, prims, fixedLen]
  | bool => simp [itemLen, prims, fixedLen]
  | node => simp [itemLen, prims, fixedLen]
  | array t n =>
    have h := oneChunk_len (flat_array (t := t) hp hf)
    rw [h]
    simp [itemLen, prims]
  | _ => simp [packs] at hp

theorem unpacked_item {t : Ty} (hp : packs t = false) : itemLen prims t = 32 := by
  cases t with
  | uint u => simp [packs] at hp
  | u256 => simp [packs] at hp
  | bool => simp [packs] at hp
  | _ => simp [itemLen, prims]

theorem itemCount_eq {t : Ty} (hf : flatElem t = true) (n : Nat) :
    itemCount prims t n = chunkCountBy packs t n := by
  unfold itemCount chunkCountBy
  cases hp : packs t with
  | true => rw [(packed_item hp hf).1]; rfl
  | false => rw [unpacked_item hp, if_neg (by simp)]; omega

/-! ## Positions in full trees -/

theorem full_elem {d i b : Nat} {ts : List MTree} {s u : MTree} (hi : i < 2 ^ d) (hb : 1 ≤ b)
    (hs : ts[i]? = some s) (hu : s.sub b = some u) :
    (full d ts).sub (gcat (2 ^ d + i) b) = some u := by
  refine (sub_cat (by have := Nat.two_pow_pos d; omega) hb).2 ⟨s, ?_, hu⟩
  rw [full_sub hi, hs]; rfl

theorem node_elem {d i b : Nat} {l r u : MTree} (hi : i < 2 ^ d) (hb : 1 ≤ b)
    (hu : l.sub (gcat (2 ^ d + i) b) = some u) :
    (MTree.node l r).sub (gcat (2 * 2 ^ d + i) b) = some u := by
  have h1 : 2 * 2 ^ d + i = gcat 2 (2 ^ d + i) := (gcat_pow hi).symm
  have h2 : 1 ≤ 2 ^ d + i := by have := Nat.two_pow_pos d; omega
  rw [h1, gcat_assoc h2 hb]
  exact (sub_cat (by decide) (Nat.le_trans h2 (le_gcat _ _))).2 ⟨l, node_sub_left, hu⟩

mutual

/-- In a type without collections of arrays of packed elements no path enters one. -/
theorem flat_on : ∀ (t : Ty) (path : List PathElement), Flat t → FlatOn t path
  | .uint _, _, _ => trivial
  | .u256, _, _ => trivial
  | .bool, _, _ => trivial
  | .node, _, _ => trivial
  | .bitvector _, _, _ => trivial
  | .bitlist _, _, _ => trivial
  | .array t n, path, h =>
    match path with
    | [] => trivial
    | .field _ :: _ => trivial
    | .length :: _ => trivial
    | .selector :: _ => trivial
    | .index _ :: rest => ⟨h.1, flat_on t rest h.2⟩
  | .vector t n, path, h =>
    match path with
    | [] => trivial
    | .field _ :: _ => trivial
    | .length :: _ => trivial
    | .selector :: _ => trivial
    | .index _ :: rest => ⟨h.1, flat_on t rest h.2⟩
  | .list t n, path, h =>
    match path with
    | [] => trivial
    | .field _ :: _ => trivial
    | .length :: _ => h.1
    | .selector :: _ => trivial
    | .index _ :: rest => ⟨h.1, flat_on t rest h.2⟩
  | .option t, path, h =>
    match path with
    | [] => trivial
    | .field _ :: _ => trivial
    | .length :: _ => trivial
    | .selector :: _ => trivial
    | .index _ :: rest => flat_on t rest h
  | .newtype t, path, h => flat_on t path h
  | .container fs, path, h =>
    match path with
    | [] => trivial
    | .index _ :: _ => trivial
    | .length :: _ => trivial
    | .selector :: _ => trivial
    | .field name :: rest => flat_onF fs name rest h
  | .union vs, path, h =>
    match path with
    | [] => trivial
    | .field _ :: _ => trivial
    | .length :: _ => trivial
    | .selector :: _ => trivial
    | .index i :: rest => flat_onV vs i rest h

theorem flat_onF : ∀ (fs : Fields) (name : String) (path : List PathElement), FlatF fs →
    FlatOnF fs name path
  | .nil, _, _, _ => trivial
  | .cons n t fs, name, path, h => by
    rw [FlatOnF]
    split
    · exact flat_on t path h.1
    · exact flat_onF fs name path h.2

theorem flat_onV : ∀ (vs : Variants) (i : Nat) (path : List PathElement), FlatV vs →
    FlatOnV vs i path
  | .nil, _, _, _ => trivial
  | .unit _, 0, _, _ => trivial
  | .unit vs, i + 1, path, h => flat_onV vs i path h
  | .data t _, 0, path, h => flat_on t path h.1
  | .data _ vs, i + 1, path, h => flat_onV vs i path h.2

end

/-- What a path addresses is found at its index, if it does not enter a collection of arrays of packed
elements. -/
def Points (t : Ty) (v : t.Val) : Prop :=
  ∀ (path : List PathElement) (g : Nat) (w : Ty) (f : Found), FlatOn t path → walkBy prims t path = some (g, w) →
    partBy packs t v path = some f → ∃ u, (treeBy packs t v).sub g = some u ∧ f.In u

/-- The first step in a value that is one chunk. -/
theorem oneChunk_step {t : Ty} {n i : Nat} (h : oneChunk (.array t n) = true) (hi : i < n) :
    flatElem t = true ∧ 2 ^ depthFor (itemCount prims t n) + i * itemLen prims t / 32 = 1 := by
  rw [oneChunk, Bool.or_eq_true, Bool.and_eq_true, Bool.and_eq_true, Bool.and_eq_true, beq_iff_eq,
    beq_iff_eq] at h
  rcases h with ⟨⟨h1, h2⟩, h3⟩ | ⟨h1, rfl⟩
  · have h4 : flatElem t = true ∧ itemLen prims t = fixedLen t := by
      cases t <;> first | exact ⟨rfl, rfl⟩ | cases h1 | cases h2
    refine ⟨h4.1, ?_⟩
    have h5 : i * fixedLen t < 32 := by
      rw [← h3, Nat.mul_comm]
      refine Nat.mul_lt_mul_of_pos_left hi ?_
      rcases Nat.eq_zero_or_pos (fixedLen t) with h | h
      · rw [h] at h3; omega
      · exact h
    rw [itemCount, h4.2, Nat.mul_comm n, h3, Nat.div_eq_of_lt h5]
    rfl
  · have h4 : flatElem t = true ∧ itemLen prims t = 32 := by
      cases t with
      | node => exact ⟨rfl, rfl⟩
      | array t n => exact ⟨by rw [flatElem, h1, Bool.or_true], rfl⟩
      | _ => cases h1
    refine ⟨h4.1, ?_⟩
    rw [itemCount, h4.2, show i = 0 by omega]
    rfl

/-- Paths in a value that is packed into a chunk stay in that chunk. -/
theorem packed_walk : ∀ {t : Ty}, packs t = true → flatElem t = true → ∀ {path : List PathElement}
    {b : Nat} {w : Ty}, walkBy prims t path = some (b, w) → b = 1
  | _, _, _, [], _, _, h => by cases h; rfl
  | .uint _, _, _, e :: _, _, _, h => by
    obtain ⟨_, _, _, h, _⟩ := walk_cons.1 h; cases e <;> cases h
  | .u256, _, _, e :: _, _, _, h => by
    obtain ⟨_, _, _, h, _⟩ := walk_cons.1 h; cases e <;> cases h
  | .bool, _, _, e :: _, _, _, h => by
    obtain ⟨_, _, _, h, _⟩ := walk_cons.1 h; cases e <;> cases h
  | .node, _, _, e :: _, _, _, h => by
    obtain ⟨_, _, _, h, _⟩ := walk_cons.1 h; cases e <;> cases h
  | .array t n, hp, hf, e :: path, b, w, h => by
    obtain ⟨a, u, c, h1, h2, h3⟩ := walk_cons.1 h
    have hc := flat_array (t := t) hp hf
    cases e with
    | index i =>
      rw [stepBy] at h1
      split at h1
      · rename_i hi
        cases h1
        obtain ⟨hft, ha⟩ := oneChunk_step hc hi
        have hpt : packs t = true := hp
        rw [h3, ha, packed_walk hpt hft h2]
        rfl
      · cases h1
    | _ => cases h1

/-- The bytes of a part of a packed value are among those of the value. -/
theorem bytes_part : ∀ {t : Ty} {x : t.Val} {pos : Nat} {path : List PathElement} {f : Found} {s : MTree},
    packs t = true → bytesPart t x pos path = some f → (Found.bytes pos (enc t x)).In s → f.In s
  | .uint _, _, _, [], _, _, _, h1, h2 => by cases h1; exact h2
  | .u256, _, _, [], _, _, _, h1, h2 => by cases h1; exact h2
  | .bool, _, _, [], _, _, _, h1, h2 => by cases h1; exact h2
  | .node, _, _, [], _, _, _, h1, h2 => by cases h1; exact h2
  | .array _ _, _, _, [], _, _, _, h1, h2 => by cases h1; exact h2
  | .array t n, v, pos, .index i :: path, f, s, hp, h1, h2 => by
    cases hx : v.1[i]? with
    | none => rw [bytesPart, hx] at h1; cases h1
    | some x =>
      rw [bytesPart, hx] at h1
      refine bytes_part (t := t) hp h1 ?_
      obtain ⟨c, rfl, h3, h4⟩ := h2
      have hpt : packs t = true := hp
      have hl := packs_length v (t := .array t n) hp
      rw [array_enc v hpt] at h3 h4 hl
      obtain ⟨h5, h6⟩ := flatMap_slice (f := enc t) (fun y _ => packs_length y hpt) hx
      have hx' := packs_length x hpt
      refine ⟨c, rfl, by omega, ?_⟩
      rw [hx', ← h5, ← h4, List.drop_take, List.take_take, List.drop_drop]
      rw [Nat.min_eq_left (by omega)]

theorem coll_points {t w : Ty} {n i b : Nat} {vs : List t.Val} {x : t.Val} {rest : List PathElement}
    {f : Found} (hf : flatElem t = true) (hn : vs.length ≤ n)
    (hx : vs[i]? = some x) (ih : Points t x) (hr : FlatOn t rest) (hw : walkBy prims t rest = some (b, w))
    (hp : (if packs t then bytesPart t x (i * fixedLen t % 32) rest
      else partBy packs t x rest) = some f) :
    ∃ u, (full (depthFor (chunkCountBy packs t n)) (partsOf t vs)).sub
      (gcat (2 ^ depthFor (itemCount prims t n) + i * itemLen prims t / 32) b) = some u ∧ f.In u := by
  have hi : i < n := by
    by_contra hc
    rw [List.getElem?_eq_none (by omega)] at hx; cases hx
  have hpos := item_pos (t := t) hi
  have hb := walk_pos hw
  rw [← itemCount_eq hf]
  cases hk : packs t with
  | true =>
    obtain ⟨h1, h2, h3⟩ := packed_item hk hf
    rw [hk, if_pos rfl] at hp
    obtain ⟨s, h4, h5⟩ := packed_elem (f := enc t) (fun y _ => packs_length y hk) hx h2 h3
    rw [packed_walk hk hf hw] at hb ⊢
    refine ⟨s, full_elem hpos hb ?_ (sub_one s), bytes_part hk hp h5⟩
    rw [partsOf, if_pos hk, h1, h4]
  | false =>
    rw [hk, if_neg (by simp)] at hp
    obtain ⟨u, h1, h2⟩ := ih _ _ _ _ hr hw hp
    refine ⟨u, full_elem hpos hb ?_ h1, h2⟩
    rw [partsOf, if_neg (by simp [hk]), unpacked_item hk, Nat.mul_div_cancel _ (by decide),
      List.getElem?_map, hx]
    rfl

theorem points_nil {t : Ty} {v : t.Val} {g : Nat} {w : Ty} {f : Found}
    (h1 : walkBy prims t [] = some (g, w)) (h2 : some (Found.tree (treeBy packs t v)) = some f) :
    ∃ u, (treeBy packs t v).sub g = some u ∧ f.In u := by
  cases h1
  cases h2
  exact ⟨_, sub_one _, rfl⟩

theorem ending_points {s r : MTree} {path : List PathElement} {f : Found} {a b : Nat} {w : Ty}
    (hs : r.sub a = some s) (hw : walkBy prims number path = some (b, w))
    (hp : (Found.tree s).ending path = some f) : ∃ u, r.sub (gcat a b) = some u ∧ f.In u := by
  cases path with
  | cons e l => cases hp
  | nil =>
    cases hw
    cases hp
    exact ⟨s, by rw [gcat_one]; exact hs, rfl⟩

theorem walk_newtype {pk : Ty → Bool} {t w : Ty} {path : List PathElement} {g : Nat}
    (h : walkBy pk (.newtype t) path = some (g, w)) : ∃ w', walkBy pk t path = some (g, w') := by
  cases path with
  | nil => cases h; exact ⟨t, rfl⟩
  | cons e l => exact ⟨w, h⟩

/-! ## All types -/

theorem treeByV_shape : ∀ (vs : Variants) (i : Nat) (v : vs.Val), ∃ l, treeByV packs vs i v =
    .node l (numLeaf (i + selectorOf vs v))
  | .nil, _, v => Empty.elim v
  | .unit _, i, .inl _ => ⟨_, rfl⟩
  | .data t _, i, .inl v => ⟨_, rfl⟩
  | .unit rest, i, .inr v => by
    obtain ⟨l, h⟩ := treeByV_shape rest (i + 1) v
    refine ⟨l, ?_⟩
    show treeByV packs rest (i + 1) v = .node l (numLeaf (i + (selectorOf rest v + 1)))
    rw [h, Nat.add_assoc, Nat.add_comm 1]
  | .data t rest, i, .inr v => by
    obtain ⟨l, h⟩ := treeByV_shape rest (i + 1) v
    refine ⟨l, ?_⟩
    show treeByV packs rest (i + 1) v = .node l (numLeaf (i + (selectorOf rest v + 1)))
    rw [h, Nat.add_assoc, Nat.add_comm 1]

theorem basic_points {t : Ty} {v : t.Val} (h1 : ∀ e, stepBy prims t e = none)
    (h2 : ∀ path, partBy packs t v path = (Found.tree (treeBy packs t v)).ending path) :
    Points t v := by
  intro path g w f hf hw hp
  cases path with
  | nil =>
    rw [h2] at hp
    exact points_nil hw hp
  | cons e l =>
    obtain ⟨_, _, _, h, _⟩ := walk_cons.1 hw
    rw [h1] at h; cases h

mutual

theorem part_points : ∀ (t : Ty) (v : t.Val), Valid t v → Points t v
  | .uint u, v, _ => basic_points (fun e => by cases e <;> rfl) fun _ => rfl
  | .u256, v, _ => basic_points (fun e => by cases e <;> rfl) fun _ => rfl
  | .bool, v, _ => basic_points (fun e => by cases e <;> rfl) fun _ => rfl
  | .node, v, _ => basic_points (fun e => by cases e <;> rfl) fun _ => rfl
  | .array t n, v, hv => by
    intro path g w f hf hw hp
    match path with
    | [] => exact points_nil hw hp
    | .field _ :: _ => cases hp
    | .length :: _ => cases hp
    | .selector :: _ => cases hp
    | .index i :: rest =>
      obtain ⟨a, u, b, h1, h2, rfl⟩ := walk_cons.1 hw
      cases hx : v.1[i]? with
      | none => simp only [partBy, hx] at hp; cases hp
      | some x =>
        simp only [partBy, hx] at hp
        have hi : i < n := by
          by_contra hc
          rw [List.getElem?_eq_none (by rw [v.2]; omega)] at hx; cases hx
        rw [stepBy, if_pos hi] at h1
        cases h1
        exact coll_points hf.1 (Nat.le_of_eq v.2) hx
          (part_points t x (hv x (List.mem_of_getElem? hx))) hf.2 h2 hp
  | .vector t n, v, hv => by
    intro path g w f hf hw hp
    match path with
    | [] => exact points_nil hw hp
    | .field _ :: _ => cases hp
    | .length :: _ => cases hp
    | .selector :: _ => cases hp
    | .index i :: rest =>
      obtain ⟨a, u, b, h1, h2, rfl⟩ := walk_cons.1 hw
      cases hx : (show List t.Val from v)[i]? with
      | none => simp only [partBy, hx] at hp; cases hp
      | some x =>
        simp only [partBy, hx] at hp
        have hlen : List.length (show List t.Val from v) = n := hv.1
        have hi : i < n := by
          by_contra hc
          rw [List.getElem?_eq_none (by omega)] at hx; cases hx
        rw [stepBy, if_pos hi] at h1
        cases h1
        exact coll_points hf.1 (Nat.le_of_eq hlen) hx
          (part_points t x (hv.2 x (List.mem_of_getElem? hx))) hf.2 h2 hp
  | .list t n, v, hv => by
    intro path g w f hf hw hp
    match path with
    | [] => exact points_nil hw hp
    | .field _ :: _ => cases hp
    | .selector :: _ => cases hp
    | .length :: rest =>
      obtain ⟨a, u, b, h1, h2, rfl⟩ := walk_cons.1 hw
      cases h1
      exact ending_points node_sub_right h2 hp
    | .index i :: rest =>
      obtain ⟨a, u, b, h1, h2, rfl⟩ := walk_cons.1 hw
      cases hx : (show List t.Val from v)[i]? with
      | none => simp only [partBy, hx] at hp; cases hp
      | some x =>
        simp only [partBy, hx] at hp
        have hlen : List.length (show List t.Val from v) ≤ n := hv.1
        have hi : i < n := by
          by_contra hc
          rw [List.getElem?_eq_none (by omega)] at hx; cases hx
        rw [stepBy, if_pos hi] at h1
        cases h1
        obtain ⟨u, h3, h4⟩ := coll_points hf.1 hlen hx
          (part_points t x (hv.2 x (List.mem_of_getElem? hx))) hf.2 h2 hp
        exact ⟨u, node_elem (item_pos hi) (walk_pos h2) h3, h4⟩
  | .bitvector n, v, hv => by
    intro path g w f hf hw hp
    match path with
    | [] => exact points_nil hw hp
    | .field _ :: _ => cases hp
    | .length :: _ => cases hp
    | .selector :: _ => cases hp
    | .index i :: rest =>
      obtain ⟨a, u, b, h1, h2, rfl⟩ := walk_cons.1 hw
      have hlen : v.live.length = n := hv
      cases hx : v.live[i]? with
      | none => simp only [partBy, hx] at hp; cases hp
      | some x =>
        simp only [partBy, hx] at hp
        have hi : i < n := by
          by_contra hc
          rw [List.getElem?_eq_none (by omega)] at hx; cases hx
        rw [stepBy, if_pos hi] at h1
        cases h1
        cases rest with
        | cons e l => cases hp
        | nil =>
          cases h2; cases hp
          obtain ⟨s, h3, h4⟩ := packed_bit hx
          exact ⟨s, full_elem (bit_pos hi) (Nat.le_refl 1) h3 (sub_one s), h4⟩
  | .bitlist n, v, hv => by
    intro path g w f hf hw hp
    match path with
    | [] => exact points_nil hw hp
    | .field _ :: _ => cases hp
    | .selector :: _ => cases hp
    | .length :: rest =>
      obtain ⟨a, u, b, h1, h2, rfl⟩ := walk_cons.1 hw
      cases h1
      exact ending_points node_sub_right h2 hp
    | .index i :: rest =>
      obtain ⟨a, u, b, h1, h2, rfl⟩ := walk_cons.1 hw
      have hlen : v.live.length ≤ n := hv.1
      cases hx : v.live[i]? with
      | none => simp only [partBy, hx] at hp; cases hp
      | some x =>
        simp only [partBy, hx] at hp
        have hi : i < n := by
          by_contra hc
          rw [List.getElem?_eq_none (by omega)] at hx; cases hx
        rw [stepBy, if_pos hi] at h1
        cases h1
        cases rest with
        | cons e l => cases hp
        | nil =>
          cases h2; cases hp
          obtain ⟨s, h3, h4⟩ := packed_bit hx
          exact ⟨s, node_elem (bit_pos hi) (Nat.le_refl 1)
            (full_elem (bit_pos hi) (Nat.le_refl 1) h3 (sub_one s)), h4⟩
  | .option t, v, hv => by
    intro path g w f hf hw hp
    match path, v with
    | [], _ => exact points_nil hw hp
    | .field _ :: _, _ => cases hp
    | .length :: _, _ => cases hp
    | .selector :: rest, none =>
      obtain ⟨a, u, b, h1, h2, rfl⟩ := walk_cons.1 hw
      cases h1
      exact ending_points node_sub_right h2 hp
    | .selector :: rest, some x =>
      obtain ⟨a, u, b, h1, h2, rfl⟩ := walk_cons.1 hw
      cases h1
      exact ending_points node_sub_right h2 hp
    | .index i :: rest, none =>
      obtain ⟨a, u, b, h1, h2, rfl⟩ := walk_cons.1 hw
      have hp : (if i = 0 then (Found.tree (.leaf zeroNode)).ending rest else none) = some f := hp
      by_cases hi : i = 0
      · subst hi
        rw [if_pos rfl] at hp
        cases h1
        exact ending_points node_sub_left h2 hp
      · rw [if_neg hi] at hp; cases hp
    | .index i :: rest, some x =>
      obtain ⟨a, u, b, h1, h2, rfl⟩ := walk_cons.1 hw
      have hp : (if i = 1 then partBy packs t x rest else none) = some f := hp
      by_cases hi : i = 1
      · subst hi
        rw [if_pos rfl] at hp
        cases h1
        obtain ⟨u', h3, h4⟩ := part_points t x (hv x rfl) _ _ _ _ hf h2 hp
        exact ⟨u', (sub_cat (by decide) (walk_pos h2)).2 ⟨_, node_sub_left, h3⟩, h4⟩
      · rw [if_neg hi] at hp; cases hp
  | .newtype t, v, hv => by
    intro path g w f hf hw hp
    obtain ⟨w', hw'⟩ := walk_newtype hw
    exact part_points t v hv _ _ _ _ hf hw' hp
  | .container fs, v, hv => by
    intro path g w f hf hw hp
    match path with
    | [] => exact points_nil hw hp
    | .index _ :: _ => cases hp
    | .length :: _ => cases hp
    | .selector :: _ => cases hp
    | .field name :: rest =>
      obtain ⟨a, u, b, h1, h2, rfl⟩ := walk_cons.1 hw
      obtain ⟨⟨k, u'⟩, h3, h4⟩ := Option.map_eq_some_iff.1 (show (fieldAt fs name).map _ = _ from h1)
      cases h4
      obtain ⟨s, u', h5, h6, h7⟩ := part_pointsF fs v hf hv h3 h2 hp
      exact ⟨u', full_elem (Nat.lt_of_lt_of_le (fieldAt_lt h3) (le_pow_depthFor _)) (walk_pos h2)
        h5 h6, h7⟩
  | .union vs, v, hv => by
    intro path g w f hf hw hp
    match path with
    | [] => exact points_nil hw hp
    | .field _ :: _ => cases hp
    | .length :: _ => cases hp
    | .selector :: rest =>
      obtain ⟨a, u, b, h1, h2, rfl⟩ := walk_cons.1 hw
      cases h1
      obtain ⟨l, h3⟩ := treeByV_shape vs 0 v
      rw [Nat.zero_add] at h3
      have h4 : treeBy packs (.union vs) v = .node l (numLeaf (selectorOf vs v)) := h3
      rw [h4]
      exact ending_points node_sub_right h2 hp
    | .index i :: rest =>
      obtain ⟨a, u, b, h1, h2, rfl⟩ := walk_cons.1 hw
      obtain ⟨o, h3, h4⟩ := Option.map_eq_some_iff.1 (show (variantAt vs i).map _ = _ from h1)
      cases h4
      obtain ⟨l, u', h5, h6, h7⟩ := part_pointsV vs 0 v hf hv h3 h2 hp
      exact ⟨u', (sub_cat (by decide) (walk_pos h2)).2 ⟨l, h5, h6⟩, h7⟩

theorem part_pointsF : ∀ (fs : Fields) (v : fs.Val) {name : String} {rest : List PathElement}
    {k b : Nat} {u w : Ty} {f : Found}, FlatOnF fs name rest → ValidF fs v → fieldAt fs name = some (k, u) →
    walkBy prims u rest = some (b, w) → partByF packs fs v name rest = some f →
    ∃ s u', (treesByF packs fs v)[k]? = some s ∧ s.sub b = some u' ∧ f.In u'
  | .nil, _, _, _, _, _, _, _, _, _, _, h, _, _ => by cases h
  | .cons n t fs, v, name, rest, k, b, u, w, f, hf, hv, h1, h2, h3 => by
    rw [fieldAt] at h1
    rw [FlatOnF] at hf
    by_cases h : name = n
    · rw [if_pos h] at h1 hf
      cases h1
      have h3 : (if name = n then partBy packs t v.1 rest else partByF packs fs v.2 name rest) =
        some f := h3
      rw [if_pos h] at h3
      obtain ⟨u', h4, h5⟩ := part_points t v.1 hv.1 _ _ _ _ hf h2 h3
      exact ⟨_, u', rfl, h4, h5⟩
    · rw [if_neg h] at h1 hf
      have h3 : (if name = n then partBy packs t v.1 rest else partByF packs fs v.2 name rest) =
        some f := h3
      rw [if_neg h] at h3
      obtain ⟨⟨k', u'⟩, h4, h5⟩ := Option.map_eq_some_iff.1 h1
      cases h5
      obtain ⟨s, u', h6, h7⟩ := part_pointsF fs v.2 hf hv.2 h4 h2 h3
      exact ⟨s, u', h6, h7⟩

theorem part_pointsV : ∀ (vs : Variants) (j : Nat) (v : vs.Val) {i : Nat} {rest : List PathElement}
    {b : Nat} {o : Option Ty} {w : Ty} {f : Found}, FlatOnV vs i rest → ValidV vs v →
    variantAt vs i = some o → walkBy prims (o.getD number) rest = some (b, w) →
    partByV packs vs v i rest = some f →
    ∃ l u', (treeByV packs vs j v).sub 2 = some l ∧ l.sub b = some u' ∧ f.In u'
  | .nil, _, v, _, _, _, _, _, _, _, _, _, _, _ => Empty.elim v
  | .unit vs, j, .inl v, i, rest, b, o, w, f, hf, hv, h1, h2, h3 => by
    have h3 : (if i = 0 then (Found.tree (.leaf zeroNode)).ending rest else none) = some f := h3
    by_cases hi : i = 0
    · subst hi
      cases h1
      rw [if_pos rfl] at h3
      cases rest with
      | cons e l => cases h3
      | nil => cases h2; cases h3; exact ⟨_, _, node_sub_left, sub_one _, rfl⟩
    · rw [if_neg hi] at h3; cases h3
  | .unit vs, j, .inr v, i, rest, b, o, w, f, hf, hv, h1, h2, h3 => by
    have h3 : (if i = 0 then none else partByV packs vs v (i - 1) rest) = some f := h3
    match i with
    | 0 => cases h3
    | i + 1 => exact part_pointsV vs (j + 1) v hf hv h1 h2 h3
  | .data t vs, j, .inl v, i, rest, b, o, w, f, hf, hv, h1, h2, h3 => by
    have h3 : (if i = 0 then partBy packs t v rest else none) = some f := h3
    by_cases hi : i = 0
    · subst hi
      cases h1
      rw [if_pos rfl] at h3
      obtain ⟨u', h4, h5⟩ := part_points t v hv _ _ _ _ hf h2 h3
      exact ⟨_, u', node_sub_left, h4, h5⟩
    · rw [if_neg hi] at h3; cases h3
  | .data t vs, j, .inr v, i, rest, b, o, w, f, hf, hv, h1, h2, h3 => by
    have h3 : (if i = 0 then none else partByV packs vs v (i - 1) rest) = some f := h3
    match i with
    | 0 => cases h3
    | i + 1 => exact part_pointsV vs (j + 1) v hf hv h1 h2 h3

end

end Ssz
