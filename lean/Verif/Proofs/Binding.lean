import Verif.Spec.Overflow
import Verif.Proofs.Root

/-!
# Equal roots mean equal values, or a collision of the hash function
-/

namespace Ssz

open Spec

theorem append32_inj {a b c d : Node} (h : a.1 ++ b.1 = c.1 ++ d.1) : a = c ∧ b = d := by
  obtain ⟨h1, h2⟩ := List.append_inj h (by rw [a.2, c.2])
  exact ⟨Subtype.ext h1, Subtype.ext h2⟩

theorem node_bind {H : Bytes → Node} {l r l' r' : MTree}
    (h : (MTree.node l r).root H = (MTree.node l' r').root H) :
    (l.root H = l'.root H ∧ r.root H = r'.root H) ∨ Collide H (.node l r) (.node l' r') := by
  by_cases he : (l.root H).1 ++ (r.root H).1 = (l'.root H).1 ++ (r'.root H).1
  · exact Or.inl (append32_inj he)
  · exact Or.inr ⟨_, List.mem_cons_self, _, List.mem_cons_self, he, h⟩

theorem collide_mono {H : Bytes → Node} {s t s' t' : MTree} (h : Collide H s t)
    (hs : ∀ x ∈ s.inputs H, x ∈ s'.inputs H) (ht : ∀ x ∈ t.inputs H, x ∈ t'.inputs H) :
    Collide H s' t' := by
  obtain ⟨x, hx, y, hy, hne, he⟩ := h
  exact ⟨x, hs x hx, y, ht y hy, hne, he⟩

theorem inputs_left {H : Bytes → Node} {l r : MTree} :
    ∀ x ∈ l.inputs H, x ∈ (MTree.node l r).inputs H := fun x hx => by
  simp [MTree.inputs, hx]

theorem inputs_right {H : Bytes → Node} {l r : MTree} :
    ∀ x ∈ r.inputs H, x ∈ (MTree.node l r).inputs H := fun x hx => by
  simp [MTree.inputs, hx]

theorem inputs_full {H : Bytes → Node} {d : Nat} {ts : List MTree} (h : ts.length ≤ 2 ^ d)
    {t : MTree} (ht : t ∈ ts) : ∀ x ∈ t.inputs H, x ∈ (full d ts).inputs H := by
  induction d generalizing ts with
  | zero =>
    match ts, h with
    | [], _ => simp at ht
    | [a], _ =>
      simp at ht
      subst ht
      intro x hx
      simpa [full] using hx
  | succ d ih =>
    intro x hx
    rw [Nat.pow_succ] at h
    rw [← List.take_append_drop (2 ^ d) ts, List.mem_append] at ht
    rw [full]
    rcases ht with ht | ht
    · exact inputs_left x (ih (by simp; omega) ht x hx)
    · exact inputs_right x (ih (by simp; omega) ht x hx)

theorem full_bind {H : Bytes → Node} {d : Nat} {ts us : List MTree} (hl : ts.length = us.length)
    (hd : ts.length ≤ 2 ^ d) (h : (full d ts).root H = (full d us).root H) :
    ts.map (·.root H) = us.map (·.root H) ∨ Collide H (full d ts) (full d us) := by
  induction d generalizing ts us with
  | zero =>
    match ts, us, hl, hd with
    | [], [], _, _ => exact Or.inl rfl
    | [a], [b], _, _ =>
      simp [full] at h
      exact Or.inl (by simp [h])
  | succ d ih =>
    rw [Nat.pow_succ] at hd
    simp only [full] at h
    rcases node_bind h with ⟨h1, h2⟩ | hc
    · rcases ih (by simp; omega) (by simp; omega) h1 with e1 | c1
      · rcases ih (by simp; omega) (by simp; omega) h2 with e2 | c2
        · left
          rw [← List.take_append_drop (2 ^ d) ts, ← List.take_append_drop (2 ^ d) us,
            List.map_append, List.map_append, e1, e2]
        · exact Or.inr (collide_mono c2 inputs_right inputs_right)
      · exact Or.inr (collide_mono c1 inputs_left inputs_left)
    · exact Or.inr hc

theorem numLeaf_bind {H : Bytes → Node} {n m : Nat} (hn : n < 2 ^ 64) (hm : m < 2 ^ 64)
    (h : (numLeaf n).root H = (numLeaf m).root H) : n = m := by
  have h := congrArg (fun x => fromLeBytes x.1) h
  simp only [numLeaf_root, fromLeBytes_leBytes] at h
  have p : (256 : Nat) ^ 32 = 2 ^ 256 := by decide
  have q : (2 : Nat) ^ 64 < 2 ^ 256 := by decide
  rw [p, Nat.mod_eq_of_lt (by omega), Nat.mod_eq_of_lt (by omega)] at h
  exact h

theorem take_chunkify (b : Bytes) : (flat (chunkify b)).take b.length = b := by
  rw [← packBytes_eq, packBytes]
  split
  · rw [List.take_append_of_le_length (Nat.le_refl _), List.take_length]
  · exact List.take_length

theorem chunkify_inj {a b : Bytes} (hl : a.length = b.length) (h : chunkify a = chunkify b) :
    a = b := by
  rw [← take_chunkify a, ← take_chunkify b, h, hl]

theorem pad32_inj {a b : Bytes} (hl : a.length = b.length) (ha : a.length ≤ 32)
    (h : pad32 a = pad32 b) : a = b := by
  have h := congrArg Subtype.val h
  rw [pad32_short ha, pad32_short (by omega), hl] at h
  exact List.append_cancel_right h

theorem packs_enc_inj {t : Ty} (hp : packs t = true) (hl : Legal t) (hs : fixedLen t < 2 ^ 32)
    {v w : t.Val} (hv : Valid t v) (hw : Valid t w) (h : enc t v = enc t w) :
    norm t v = norm t w := by
  let E : Env := ⟨false, fun _ => zeroNode⟩
  have hf := packs_fits hp hl hs
  have sm : ∀ u, Valid t u → Small t u := fun u hu =>
    small_of_length t u (by rw [enc_length t u (packs_fixed hp) hu]; exact hs)
  have d1 := de_enc E t v hl hf hv (sm v hv)
  have d2 := de_enc E t w hl hf hw (sm w hw)
  rw [h, d2] at d1
  injection d1 with d1
  exact d1.symm

theorem packBits_inj {a b : List Bool} (hl : a.length = b.length) (h : packBits a = packBits b) :
    a = b := by
  rcases Nat.eq_zero_or_pos a.length with h0 | h0
  · rw [List.eq_nil_of_length_eq_zero h0, List.eq_nil_of_length_eq_zero (by omega : b.length = 0)]
  · have d1 := Bitvector.deserialize_packBits h0 (l := a) rfl
    have d2 := Bitvector.deserialize_packBits h0 (l := b) hl.symm
    rw [h, d2] at d1
    injection d1 with d1
    exact (congrArg Bits.live d1).symm

theorem flatMap_inj {α β γ : Type} {f : α → List γ} {g : α → β} {k : Nat} {xs ys : List α}
    (hl : xs.length = ys.length) (hx : ∀ x ∈ xs, (f x).length = k) (hy : ∀ y ∈ ys, (f y).length = k)
    (hi : ∀ x ∈ xs, ∀ y ∈ ys, f x = f y → g x = g y) (h : xs.flatMap f = ys.flatMap f) :
    xs.map g = ys.map g := by
  induction xs generalizing ys with
  | nil => cases ys with
    | nil => rfl
    | cons y ys => simp at hl
  | cons x xs ih => cases ys with
    | nil => simp at hl
    | cons y ys =>
      rw [List.flatMap_cons, List.flatMap_cons] at h
      obtain ⟨h1, h2⟩ := List.append_inj h (by rw [hx x (by simp), hy y (by simp)])
      rw [List.map_cons, List.map_cons, hi x (by simp) y (by simp) h1,
        ih (by simpa using hl) (fun a ha => hx a (by simp [ha])) (fun a ha => hy a (by simp [ha]))
          (fun a ha b hb => hi a (by simp [ha]) b (by simp [hb])) h2]

theorem map_bind {α β : Type} {H : Bytes → Node} {f : α → MTree} {g : α → β} {xs ys : List α}
    (hi : ∀ x ∈ xs, ∀ y ∈ ys, (f x).root H = (f y).root H → g x = g y ∨ Collide H (f x) (f y))
    (h : (xs.map f).map (·.root H) = (ys.map f).map (·.root H)) :
    xs.map g = ys.map g ∨ ∃ x ∈ xs, ∃ y ∈ ys, Collide H (f x) (f y) := by
  induction xs generalizing ys with
  | nil => cases ys with
    | nil => exact Or.inl rfl
    | cons y ys => simp at h
  | cons x xs ih => cases ys with
    | nil => simp at h
    | cons y ys =>
      simp only [List.map_cons, List.cons.injEq] at h
      rcases hi x (by simp) y (by simp) h.1 with e | c
      · rcases ih (fun a ha b hb => hi a (by simp [ha]) b (by simp [hb])) h.2 with es | ⟨a, ha, b, hb, c⟩
        · exact Or.inl (by rw [List.map_cons, List.map_cons, e, es])
        · exact Or.inr ⟨a, by simp [ha], b, by simp [hb], c⟩
      · exact Or.inr ⟨x, by simp, y, by simp, c⟩

/-- Collections of the same length with the same root. -/
theorem parts_bind {H : Bytes → Node} {t : Ty} {d : Nat} {xs ys : List t.Val} (hl : Legal t)
    (hs : packs t = true → fixedLen t < 2 ^ 32) (hx : ∀ x ∈ xs, Valid t x)
    (hy : ∀ y ∈ ys, Valid t y) (hlen : xs.length = ys.length)
    (hd : chunkCountBy packs t xs.length ≤ 2 ^ d)
    (hi : ∀ x ∈ xs, ∀ y ∈ ys, (treeBy packs t x).root H = (treeBy packs t y).root H →
      norm t x = norm t y ∨ Collide H (treeBy packs t x) (treeBy packs t y))
    (h : (full d (partsOf t xs)).root H = (full d (partsOf t ys)).root H) :
    xs.map (norm t) = ys.map (norm t) ∨ Collide H (full d (partsOf t xs)) (full d (partsOf t ys)) := by
  have l1 := partsOf_length hx
  have l2 := partsOf_length hy
  rcases full_bind (by rw [l1, l2, hlen]) (by rw [l1]; exact hd) h with he | c
  · by_cases hp : packs t = true
    · left
      unfold partsOf at he
      rw [if_pos hp, if_pos hp, leaves_root, leaves_root] at he
      have he := chunkify_inj (by
        rw [flatMap_enc_length hp hx, flatMap_enc_length hp hy, hlen]) he
      exact flatMap_inj (k := fixedLen t) hlen
        (fun x hx' => enc_length t x (packs_fixed hp) (hx x hx'))
        (fun y hy' => enc_length t y (packs_fixed hp) (hy y hy'))
        (fun x hx' y hy' e => packs_enc_inj hp hl (hs hp) (hx x hx') (hy y hy') e) he
    · have e1 : partsOf t xs = xs.map (treeBy packs t) := by rw [partsOf, if_neg hp]
      have e2 : partsOf t ys = ys.map (treeBy packs t) := by rw [partsOf, if_neg hp]
      rw [e1, e2] at he
      rcases map_bind (g := norm t) hi he with e | ⟨x, hx', y, hy', c⟩
      · exact Or.inl e
      · right
        refine collide_mono c (inputs_full (by rw [l1]; exact hd) ?_)
          (inputs_full (by rw [l2, ← hlen]; exact hd) ?_)
        · rw [e1]; exact List.mem_map.mpr ⟨x, hx', rfl⟩
        · rw [e2]; exact List.mem_map.mpr ⟨y, hy', rfl⟩
  · exact Or.inr c

theorem norm_bits {b c : Bits} (h : b.live = c.live) :
    (⟨b.live, padBits b.live.length⟩ : Bits) = ⟨c.live, padBits c.live.length⟩ := by rw [h]

/-- The tree of an enum value has the position of the variant on its right. -/
theorem treeByV_node : ∀ (vs : Variants) (i : Nat) (v : vs.Val),
    ∃ l j, i ≤ j ∧ j < i + countV vs ∧ treeByV packs vs i v = .node l (numLeaf j)
  | .nil, _, v => v.elim
  | .unit rest, i, .inl _ => ⟨_, i, Nat.le_refl _, by simp [countV], rfl⟩
  | .unit rest, i, .inr v => by
    obtain ⟨l, j, h1, h2, h3⟩ := treeByV_node rest (i + 1) v
    exact ⟨l, j, by omega, by simp only [countV]; omega, h3⟩
  | .data t rest, i, .inl v => ⟨_, i, Nat.le_refl _, by simp [countV], rfl⟩
  | .data t rest, i, .inr v => by
    obtain ⟨l, j, h1, h2, h3⟩ := treeByV_node rest (i + 1) v
    exact ⟨l, j, by omega, by simp only [countV]; omega, h3⟩

mutual

theorem bind_ok (H : Bytes → Node) : ∀ (t : Ty) (v w : t.Val), Legal t → Ranged t → Valid t v →
    Valid t w → InMemory t v → InMemory t w →
    (treeBy packs t v).root H = (treeBy packs t w).root H →
    norm t v = norm t w ∨ Collide H (treeBy packs t v) (treeBy packs t w)
  | .uint u, v, w, _, _, _, _, _, _, h => by
    left
    have h : pad32 (enc (.uint u) v) = pad32 (enc (.uint u) w) := h
    have h := pad32_inj (by simp [enc]) (by simp only [enc, leBytes_length]; cases u <;> decide) h
    exact packs_enc_inj (t := .uint u) rfl trivial (by cases u <;> decide) trivial trivial h
  | .u256, v, w, _, _, _, _, _, _, h => by
    left
    have h : pad32 (enc .u256 v) = pad32 (enc .u256 w) := h
    have h := pad32_inj (by simp [enc]) (by simp [enc]) h
    exact packs_enc_inj (t := .u256) rfl trivial (by decide) trivial trivial h
  | .bool, v, w, _, _, _, _, _, _, h => by
    left
    have h : pad32 (enc .bool v) = pad32 (enc .bool w) := h
    have h := pad32_inj (by simp [enc]) (by simp [enc]) h
    exact packs_enc_inj (t := .bool) rfl trivial (by decide) trivial trivial h
  | .node, v, w, _, _, _, _, _, _, h => Or.inl h
  | .array t n, v, w, hl, hb, hv, hw, hmv, hmw, h => by
    rcases parts_bind hl.2 hb.2 hv hw (by rw [v.2, w.2]) (by rw [v.2]; exact le_pow_depthFor _)
      (fun x hx y hy => bind_ok H t x y hl.2 hb.1 (hv x hx) (hw y hy) (hmv.2 x hx) (hmw.2 y hy)) h
      with e | c
    · exact Or.inl (Subtype.ext e)
    · exact Or.inr c
  | .vector t n, v, w, hl, hb, hv, hw, hmv, hmw, h => by
    have e1 : List.length v = n := hv.1
    have e2 : List.length w = n := hw.1
    exact parts_bind hl.2 hb.2 hv.2 hw.2 (by rw [e1, e2]) (by rw [e1]; exact le_pow_depthFor _)
      (fun x hx y hy => bind_ok H t x y hl.2 hb.1 (hv.2 x hx) (hw.2 y hy) (hmv.2 x hx) (hmw.2 y hy))
      h
  | .list t n, v, w, hl, hb, hv, hw, hmv, hmw, h => by
    have e1 : List.length v ≤ n := hv.1
    rcases node_bind h with ⟨h1, h2⟩ | c
    · have hlen := numLeaf_bind (Nat.lt_of_lt_of_le hmv.1.1 (by decide))
        (Nat.lt_of_lt_of_le hmw.1.1 (by decide)) h2
      rcases parts_bind (t := t) hl hb.2 hv.2 hw.2 hlen
        (Nat.le_trans (chunkCountBy_le e1) (le_pow_depthFor _))
        (fun x hx y hy => bind_ok H t x y hl hb.1 (hv.2 x hx) (hw.2 y hy) (hmv.2 x hx) (hmw.2 y hy))
        h1 with e | c
      · exact Or.inl e
      · exact Or.inr (collide_mono c inputs_left inputs_left)
    · exact Or.inr c
  | .bitvector n, v, w, hl, hb, hv, hw, _, _, h => by
    have e1 : v.live.length = n := hv
    have e2 : w.live.length = n := hw
    rcases full_bind (by rw [leaves_length, leaves_length, packBits_length, packBits_length, e1, e2])
      (by
        have := le_pow_depthFor ((n + 255) / 256)
        rw [leaves_length, packBits_length, e1]; omega) h with e | c
    · left
      rw [leaves_root, leaves_root] at e
      exact norm_bits (packBits_inj (by rw [e1, e2])
        (chunkify_inj (by rw [packBits_length, packBits_length, e1, e2]) e))
    · exact Or.inr c
  | .bitlist n, v, w, hl, hb, hv, hw, _, _, h => by
    have e1 : v.live.length ≤ n := hv.1
    have e2 : w.live.length ≤ n := hw.1
    have hb : n < 2 ^ 64 := hb
    rcases node_bind h with ⟨h1, h2⟩ | c
    · have hlen := numLeaf_bind (by omega) (by omega) h2
      rcases full_bind (by rw [leaves_length, leaves_length, packBits_length, packBits_length, hlen])
        (by
          have := le_pow_depthFor ((n + 255) / 256)
          rw [leaves_length, packBits_length]; omega) h1 with e | c
      · left
        rw [leaves_root, leaves_root] at e
        exact norm_bits (packBits_inj hlen
          (chunkify_inj (by rw [packBits_length, packBits_length, hlen]) e))
      · exact Or.inr (collide_mono c inputs_left inputs_left)
    · exact Or.inr c
  | .option t, v, w, hl, hb, hv, hw, hmv, hmw, h => by
    match v, w with
    | none, none => exact Or.inl rfl
    | none, some y =>
      rcases node_bind (l := .leaf zeroNode) (r := numLeaf 0) (l' := treeBy packs t y)
        (r' := numLeaf 1) h with ⟨_, h2⟩ | c
      · have := numLeaf_bind (by decide) (by decide) h2; omega
      · exact Or.inr c
    | some x, none =>
      rcases node_bind (l := treeBy packs t x) (r := numLeaf 1) (l' := .leaf zeroNode)
        (r' := numLeaf 0) h with ⟨_, h2⟩ | c
      · have := numLeaf_bind (by decide) (by decide) h2; omega
      · exact Or.inr c
    | some x, some y =>
      rcases node_bind (l := treeBy packs t x) (r := numLeaf 1) (l' := treeBy packs t y)
        (r' := numLeaf 1) h with ⟨h1, _⟩ | c
      · rcases bind_ok H t x y hl hb (hv x rfl) (hw y rfl) (hmv x rfl) (hmw y rfl) h1 with e | c
        · exact Or.inl (congrArg some e)
        · exact Or.inr (collide_mono c inputs_left inputs_left)
      · exact Or.inr c
  | .newtype t, v, w, hl, hb, hv, hw, hmv, hmw, h => bind_ok H t v w hl hb hv hw hmv hmw h
  | .container fs, v, w, hl, hb, hv, hw, hmv, hmw, h => by
    have l1 := treesByF_length packs fs v
    have l2 := treesByF_length packs fs w
    have d1 : (treesByF packs fs v).length ≤ 2 ^ depthFor (countF fs) :=
      Nat.le_trans (Nat.le_of_eq l1) (le_pow_depthFor _)
    have d2 : (treesByF packs fs w).length ≤ 2 ^ depthFor (countF fs) :=
      Nat.le_trans (Nat.le_of_eq l2) (le_pow_depthFor _)
    rcases full_bind (l1.trans l2.symm) d1 h with e | c
    · rcases bindF_ok H fs v w hl.2.2 hb.1 hv hw hmv hmw e with e | ⟨x, hx, y, hy, c⟩
      · exact Or.inl e
      · exact Or.inr (collide_mono c
          (inputs_full d1 hx)
          (inputs_full d2 hy))
    · exact Or.inr c
  | .union vs, v, w, hl, hb, hv, hw, hmv, hmw, h =>
    bindV_ok H vs 0 v w hl.2 hb hv hw hmv hmw (by
        obtain ⟨hs, -⟩ := hl
        cases vs with
        | nil => exact hs.elim
        | unit rest => obtain ⟨_, _, h⟩ := hs; simp only [countV]; omega
        | data t rest => obtain ⟨_, h⟩ := hs; simp only [countV]; omega) h

theorem bindF_ok (H : Bytes → Node) : ∀ (fs : Fields) (v w : fs.Val), LegalF fs → RangedF fs →
    ValidF fs v → ValidF fs w → InMemoryF fs v → InMemoryF fs w →
    (treesByF packs fs v).map (·.root H) = (treesByF packs fs w).map (·.root H) →
    normF fs v = normF fs w ∨
      ∃ x ∈ treesByF packs fs v, ∃ y ∈ treesByF packs fs w, Collide H x y
  | .nil, _, _, _, _, _, _, _, _, _ => Or.inl rfl
  | .cons name t rest, v, w, hl, hb, hv, hw, hmv, hmw, h => by
    simp only [treesByF, List.map_cons, List.cons.injEq] at h
    rcases bind_ok H t v.1 w.1 hl.1 hb.1 hv.1 hw.1 hmv.1 hmw.1 h.1 with e | c
    · rcases bindF_ok H rest v.2 w.2 hl.2 hb.2 hv.2 hw.2 hmv.2 hmw.2 h.2 with e' | ⟨x, hx, y, hy, c⟩
      · exact Or.inl (Prod.ext e e')
      · exact Or.inr ⟨x, List.mem_cons_of_mem _ hx, y, List.mem_cons_of_mem _ hy, c⟩
    · exact Or.inr ⟨_, List.mem_cons_self, _, List.mem_cons_self, c⟩

theorem bindV_ok (H : Bytes → Node) : ∀ (vs : Variants) (i : Nat) (v w : vs.Val), LegalV vs →
    RangedV vs → ValidV vs v → ValidV vs w → InMemoryV vs v → InMemoryV vs w →
    i + countV vs < 2 ^ 64 →
    (treeByV packs vs i v).root H = (treeByV packs vs i w).root H →
    normV vs v = normV vs w ∨ Collide H (treeByV packs vs i v) (treeByV packs vs i w)
  | .nil, _, v, _, _, _, _, _, _, _, _, _ => v.elim
  | .unit _, _, .inl _, .inl _, _, _, _, _, _, _, _, _ => Or.inl rfl
  | .unit rest, i, .inl _, .inr w, _, _, _, _, _, _, hc, h => by
    simp only [countV] at hc
    obtain ⟨l', j, hj, hj2, e⟩ := treeByV_node rest (i + 1) w
    have h : (MTree.node (.leaf zeroNode) (numLeaf i)).root H = (treeByV packs rest (i + 1) w).root H :=
      h
    show _ ∨ Collide H (.node (.leaf zeroNode) (numLeaf i)) (treeByV packs rest (i + 1) w)
    rw [e] at h ⊢
    rcases node_bind h with ⟨_, h2⟩ | c
    · have := numLeaf_bind (by omega) (by omega) h2; omega
    · exact Or.inr c
  | .unit rest, i, .inr v, .inl _, _, _, _, _, _, _, hc, h => by
    simp only [countV] at hc
    obtain ⟨l', j, hj, hj2, e⟩ := treeByV_node rest (i + 1) v
    have h : (treeByV packs rest (i + 1) v).root H = (MTree.node (.leaf zeroNode) (numLeaf i)).root H :=
      h
    show _ ∨ Collide H (treeByV packs rest (i + 1) v) (.node (.leaf zeroNode) (numLeaf i))
    rw [e] at h ⊢
    rcases node_bind h with ⟨_, h2⟩ | c
    · have := numLeaf_bind (by omega) (by omega) h2; omega
    · exact Or.inr c
  | .unit rest, i, .inr v, .inr w, hl, hb, hv, hw, hmv, hmw, hc, h => by
    simp only [countV] at hc
    rcases bindV_ok H rest (i + 1) v w hl hb hv hw hmv hmw (by omega) h with e | c
    · exact Or.inl (congrArg Sum.inr e)
    · exact Or.inr c
  | .data t rest, i, .inl v, .inl w, hl, hb, hv, hw, hmv, hmw, hc, h => by
    rcases node_bind (l := treeBy packs t v) (r := numLeaf i) (l' := treeBy packs t w)
      (r' := numLeaf i) h with ⟨h1, _⟩ | c
    · rcases bind_ok H t v w hl.1 hb.1 hv hw hmv hmw h1 with e | c
      · exact Or.inl (congrArg Sum.inl e)
      · exact Or.inr (collide_mono c inputs_left inputs_left)
    · exact Or.inr c
  | .data t rest, i, .inl v, .inr w, hl, hb, hv, hw, hmv, hmw, hc, h => by
    simp only [countV] at hc
    obtain ⟨l', j, hj, hj2, e⟩ := treeByV_node rest (i + 1) w
    have h : (MTree.node (treeBy packs t v) (numLeaf i)).root H =
      (treeByV packs rest (i + 1) w).root H := h
    show _ ∨ Collide H (.node (treeBy packs t v) (numLeaf i)) (treeByV packs rest (i + 1) w)
    rw [e] at h ⊢
    rcases node_bind h with ⟨_, h2⟩ | c
    · have := numLeaf_bind (by omega) (by omega) h2; omega
    · exact Or.inr c
  | .data t rest, i, .inr v, .inl w, hl, hb, hv, hw, hmv, hmw, hc, h => by
    simp only [countV] at hc
    obtain ⟨l', j, hj, hj2, e⟩ := treeByV_node rest (i + 1) v
    have h : (treeByV packs rest (i + 1) v).root H =
      (MTree.node (treeBy packs t w) (numLeaf i)).root H := h
    show _ ∨ Collide H (treeByV packs rest (i + 1) v) (.node (treeBy packs t w) (numLeaf i))
    rw [e] at h ⊢
    rcases node_bind h with ⟨_, h2⟩ | c
    · have := numLeaf_bind (by omega) (by omega) h2; omega
    · exact Or.inr c
  | .data t rest, i, .inr v, .inr w, hl, hb, hv, hw, hmv, hmw, hc, h => by
    simp only [countV] at hc
    rcases bindV_ok H rest (i + 1) v w hl.2 hb.2 hv hw hmv hmw (by omega) h with e | c
    · exact Or.inl (congrArg Sum.inr e)
    · exact Or.inr c

end

end Ssz
