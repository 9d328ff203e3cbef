import Verif.Proofs.Update
import Verif.Proofs.Answer

/-!
# The answers of the prover along a path, for every type
-/

namespace Ssz

open Spec

/-- The answer of a part, with the branch continued. -/
def joined (B : List Node) (r : Res MerkError (Node × List Node)) : Res MerkError (Node × List Node) :=
  match r with
  | .ok a => .ok (a.1, a.2 ++ B)
  | .err e => .err e
  | .panic => .panic

theorem joined_joined (A B : List Node) (r : Res MerkError (Node × List Node)) :
    joined A (joined B r) = joined (B ++ A) r := by
  cases r <;> simp [joined]

/-- Below a leaf of a layer the answer is that of the part there with the branch of the leaf. -/
theorem layer_below {H : Bytes → Node} {l : Layer}
    {inner : Nat → Nat → Res MerkError (Node × List Node)} {q : Nat} (hf : l.Fits)
    (hq' : q < 2 ^ l.height) (b : Nat) (hb : 1 < b) :
    l.answer H inner (gcat (2 ^ l.height + q) b) =
      joined (l.branch H (2 ^ l.height + q)) (inner q b) := by
  obtain ⟨k, i, hi, rfl⟩ := exists_pow_add (Nat.le_of_lt hb)
  have hk : 0 < k := by
    rcases Nat.eq_zero_or_pos k with rfl | h
    · simp at hi hb; omega
    · exact h
  have hg : gcat (2 ^ l.height + q) (2 ^ k + i) = 2 ^ (l.height + k) + (q * 2 ^ k + i) := by
    rw [gcat_pow hi, Nat.add_mul, ← Nat.pow_add, Nat.add_assoc]
  have hlt : q * 2 ^ k + i < 2 ^ (l.height + k) := by
    have := Nat.mul_le_mul_right (2 ^ k) (show q + 1 ≤ 2 ^ l.height from hq')
    rw [Nat.pow_add]
    rw [Nat.add_mul] at this
    omega
  have hdiv : (2 ^ (l.height + k) + (q * 2 ^ k + i)) / 2 ^ k = 2 ^ l.height + q := by
    rw [Nat.pow_add, ← Nat.add_assoc, ← Nat.add_mul, Nat.mul_comm,
      Nat.mul_add_div (Nat.two_pow_pos _), Nat.div_eq_of_lt hi, Nat.add_zero]
  have hmod : (2 ^ (l.height + k) + (q * 2 ^ k + i)) % 2 ^ k = i := by
    rw [Nat.pow_add, ← Nat.add_assoc, ← Nat.add_mul, Nat.mul_comm, Nat.mul_add_mod,
      Nat.mod_eq_of_lt hi]
  have h1 := Nat.two_pow_pos (l.height + k)
  rw [hg, Layer.answer, if_neg (by omega), log2_pow_add hlt, if_neg (by omega),
    show l.height + k - l.height = k by omega, hdiv, hmod, Nat.add_sub_cancel_left]
  cases h : inner q (2 ^ k + i) with
  | ok a => simp only [joined, if_pos hf]
  | err e => rfl
  | panic => rfl

/-- At a leaf of a layer the answer is the part there, and below it the answer of the part with the
branch of the leaf. -/
theorem layer_composes {H : Bytes → Node} {l : Layer}
    {inner : Nat → Nat → Res MerkError (Node × List Node)} {q : Nat} {s : MTree} (hf : l.Fits)
    (hq : q < 2 ^ l.depth) (hs : l.parts[q]? = some s) :
    l.answer H inner (2 ^ l.height + q) = .ok (s.root H, l.branch H (2 ^ l.height + q)) ∧
    ∀ b, 1 < b → l.answer H inner (gcat (2 ^ l.height + q) b) =
      joined (l.branch H (2 ^ l.height + q)) (inner q b) := by
  have hq' : q < 2 ^ l.height :=
    Nat.lt_of_lt_of_le hq (Nat.pow_le_pow_right (by decide) (Nat.le_add_right _ _))
  have h0 := Nat.two_pow_pos l.height
  constructor
  · rw [Layer.answer, if_neg (by omega), log2_pow_add hq', if_pos (Nat.le_refl _), if_pos hf]
    congr 2
    obtain ⟨d, ps, m⟩ := l
    cases m with
    | none =>
      show ((full d ps).nodeAt H (2 ^ d + q)).getD zeroNode = _
      rw [MTree.nodeAt, full_sub hq, show ps[q]? = some s from hs]
      rfl
    | some m =>
      have h1 : 2 ^ (d + 1) = 2 * 2 ^ d := by rw [Nat.pow_succ, Nat.mul_comm]
      have h2 := Nat.two_pow_pos d
      have h3 : q < 2 ^ d := hq
      have hq' : q < 2 ^ (d + 1) := hq'
      show (if 2 ^ (d + 1) + q = 1 then _ else if 2 ^ (d + 1) + q = 3 then _ else
        ((full (d + 1) ps).nodeAt H (2 ^ (d + 1) + q)).getD zeroNode) = _
      rw [if_neg (by omega), if_neg (by
          intro h
          have : d = 0 := by
            by_contra hd
            have := Nat.one_lt_two_pow hd
            omega
          subst this
          simp at h h3
          omega), MTree.nodeAt, full_sub hq', show ps[q]? = some s from hs]
      rfl
  · exact layer_below hf hq'

/-- The answers along a path: at its end the node of the part, and below it the answers of the part
with the branch of its node. -/
def Composes (H : Bytes → Node) (u : Ty) (x : u.Val) (t : Ty) (v : t.Val) (g : Nat) : Prop :=
  ∃ B, (g = 1 → B = []) ∧
    (∀ a, answer H t v g = .ok a → a.2 = B ∧
      (a.1 = (layer u x).tree.root H ∨ a.1 = (treeBy packs u x).root H)) ∧
    ∀ b, 1 < b → answer H t v (gcat g b) = joined B (answer H u x b)

theorem composes_nil {H : Bytes → Node} {t : Ty} {v : t.Val} : Composes H t v t v 1 := by
  refine ⟨[], fun _ => rfl, fun a h => ?_, fun b hb => ?_⟩
  · rw [answer, Layer.answer, if_neg (by decide), if_pos (by
      rw [show Nat.log2 1 = 0 by decide +kernel]; exact Nat.zero_le _)] at h
    split at h
    · cases h
      exact ⟨by rw [Layer.branch, if_pos (by decide)], .inl (node_one _ _)⟩
    · cases h
  · rw [one_gcat (Nat.le_of_lt hb)]
    cases answer H t v b <;> simp [joined]

/-- One step of a path. -/
theorem composes_step {H : Bytes → Node} {u t t' : Ty} {x : u.Val} {v : t.Val} {y : t'.Val} {q b : Nat}
    (hf : (layer t v).Fits) (hq : q < 2 ^ (layer t v).depth)
    (hs : (layer t v).parts[q]? = some (treeBy packs t' y))
    (hi : ∀ b, inner H t v q b = answer H t' y b) (hb : 1 ≤ b) (hc : Composes H u x t' y b)
    (hu : (treeBy packs t' y).sub b = some (treeBy packs u x)) :
    Composes H u x t v (gcat (2 ^ (layer t v).height + q) b) := by
  obtain ⟨B, h1, h2, h3⟩ := hc
  obtain ⟨h4, h5⟩ := layer_composes (H := H) (inner := inner H t v) hf hq hs
  have h0 := Nat.two_pow_pos (layer t v).height
  refine ⟨B ++ (layer t v).branch H (2 ^ (layer t v).height + q), fun hg => ?_, fun a ha => ?_,
    fun c hc => ?_⟩
  · have h6 := le_gcat (2 ^ (layer t v).height + q) b
    have h7 := le_gcat_right (show 1 ≤ 2 ^ (layer t v).height + q by omega) hb
    rw [h1 (by omega), show 2 ^ (layer t v).height + q = 1 by omega, Layer.branch,
      if_pos (Nat.le_refl _)]
    rfl
  · rcases Nat.lt_or_eq_of_le hb with hb | rfl
    · rw [answer, h5 b hb, hi] at ha
      cases h : answer H t' y b with
      | ok c =>
        rw [h] at ha
        cases ha
        obtain ⟨h6, h7⟩ := h2 c h
        exact ⟨by rw [← h6], h7⟩
      | err e => rw [h] at ha; cases ha
      | panic => rw [h] at ha; cases ha
    · rw [gcat_one, answer, h4] at ha
      cases ha
      rw [sub_one, Option.some.injEq] at hu
      exact ⟨by rw [h1 rfl]; rfl, .inr (by rw [hu])⟩
  · rw [gcat_assoc hb (Nat.le_of_lt hc), answer, h5 _ (Nat.lt_of_lt_of_le hc (le_gcat_right hb
      (Nat.le_of_lt hc))), hi, h3 c hc, joined_joined]

/-! ## All types -/

theorem coll_composes {H : Bytes → Node} {u t T : Ty} {x : u.Val} {v : T.Val} {y : t.Val} {n i b : Nat}
    {vs : List t.Val} {m : Option Nat} (hk : packs t = false) (hi : i < n)
    (hlay : layer T v = ⟨depthFor (itemCount prims t n), collParts t vs, m⟩)
    (hin : ∀ q b, inner H T v q b = elemAnswer n vs (fun x => answer H t x) q b)
    (hv : ∀ v ∈ vs, Valid t v) (hn : vs.length ≤ n) (hy : vs[i]? = some y) (hb : 1 ≤ b)
    (hc : Composes H u x t y b) (hu : (treeBy packs t y).sub b = some (treeBy packs u x)) :
    Composes H u x T v (gcat (2 ^ (layer T v).height + i * itemLen prims t / 32) b) := by
  have hq : i * itemLen prims t / 32 = i := by
    rw [unpacked_item hk, Nat.mul_div_cancel _ (by decide)]
  have hp := item_pos (t := t) hi
  rw [hq] at hp ⊢
  refine composes_step (t' := t) (y := y) ?_ ?_ ?_ (fun b => ?_) hb hc hu
  · rw [hlay]
    exact narrow_fits (fun h => by rw [hk] at h; cases h) hv hn
  · rw [hlay]
    exact hp
  · rw [hlay]
    show (collParts t vs)[i]? = _
    rw [collParts, if_neg (by simp [hk]), List.getElem?_map, hy]
    rfl
  · rw [hin, elemAnswer, if_neg (by omega), hy]

/-- An enum value or `Option` with a payload. -/
theorem pair_composes {H : Bytes → Node} {u t T : Ty} {x : u.Val} {v : T.Val} {y : t.Val} {b m : Nat}
    (hlay : layer T v = ⟨0, [treeBy packs t y], some m⟩) (hin : ∀ b, inner H T v 0 b = answer H t y b)
    (hb : 1 ≤ b) (hc : Composes H u x t y b)
    (hu : (treeBy packs t y).sub b = some (treeBy packs u x)) : Composes H u x T v (gcat 2 b) := by
  have h := composes_step (H := H) (t := T) (v := v) (q := 0) (t' := t) (y := y)
    (by rw [hlay]; exact Nat.one_le_two_pow) (Nat.two_pow_pos _) (by rw [hlay]; rfl) hin hb hc hu
  rw [hlay] at h
  exact h

/-- The payload of an enum value. -/
theorem payload_composes {H : Bytes → Node} {u : Ty} {x : u.Val} : ∀ (vs : Variants) (j : Nat) (v : vs.Val)
    {i : Nat} {rest : List PathElement} {o : Option Ty}, LegalV vs → BoundedV vs → ShallowV vs →
    ValidV vs v → InMemoryV vs v → LeadsToV u x vs v i rest → variantAt vs i = some o →
    ∃ (t : Ty) (y : t.Val), o = some t ∧ (∃ m, layerV vs j v = ⟨0, [treeBy packs t y], some m⟩) ∧
      (∀ b, innerV H vs v b = answer H t y b) ∧ Fair t y ∧ LeadsTo u x t y rest
  | .nil, _, v, _, _, _, _, _, _, _, _, _, _ => Empty.elim v
  | .unit vs, j, .inl v, i, rest, o, hl, hb, hs, hv, hm, h, h1 => (show False from h).elim
  | .unit vs, j, .inr v, i, rest, o, hl, hb, hs, hv, hm, h, h1 => by
    obtain ⟨hi, h⟩ : 0 < i ∧ LeadsToV u x vs v (i - 1) rest := h
    match i with
    | 0 => omega
    | i + 1 => exact payload_composes vs (j + 1) v hl hb hs hv hm h h1
  | .data t vs, j, .inl v, i, rest, o, hl, hb, hs, hv, hm, h, h1 => by
    obtain ⟨rfl, h⟩ : i = 0 ∧ LeadsTo u x t v rest := h
    cases h1
    exact ⟨t, v, rfl, ⟨_, rfl⟩, fun _ => rfl, ⟨hl.1, hb.1, hs.1, hv, hm⟩, h⟩
  | .data t vs, j, .inr v, i, rest, o, hl, hb, hs, hv, hm, h, h1 => by
    obtain ⟨hi, h⟩ : 0 < i ∧ LeadsToV u x vs v (i - 1) rest := h
    match i with
    | 0 => omega
    | i + 1 => exact payload_composes vs (j + 1) v hl.2 hb.2 hs.2 hv hm h h1

theorem variantAt_pos : ∀ {vs : Variants} {i : Nat} {o : Option Ty}, variantAt vs i = some o →
    0 < countV vs
  | .nil, _, _, h => by cases h
  | .unit _, _, _, _ => Nat.succ_pos _
  | .data _ _, _, _, _ => Nat.succ_pos _

/-- A field of a struct. -/
theorem field_part {H : Bytes → Node} {u : Ty} {x : u.Val} : ∀ (fs : Fields) (v : fs.Val)
    {name : String} {rest : List PathElement} {k : Nat} {t : Ty}, LegalF fs → BoundedF fs →
    ShallowF fs → ValidF fs v → InMemoryF fs v → LeadsToF u x fs v name rest →
    fieldAt fs name = some (k, t) →
    ∃ y : t.Val, (treesByF packs fs v)[k]? = some (treeBy packs t y) ∧
      (∀ b, innerF H fs v k b = answer H t y b) ∧ Fair t y ∧ LeadsTo u x t y rest
  | .nil, _, _, _, _, _, _, _, _, _, _, h, _ => h.elim
  | .cons n t fs, v, name, rest, k, _, hl, hb, hs, hv, hm, h, h1 => by
    rw [fieldAt] at h1
    rw [LeadsToF] at h
    by_cases hn : name = n
    · rw [if_pos hn] at h1 h
      cases h1
      exact ⟨v.1, rfl, fun _ => rfl, ⟨hl.1, hb.1, hs.1, hv.1, hm.1⟩, h⟩
    · rw [if_neg hn] at h1 h
      obtain ⟨⟨k', u'⟩, h4, h5⟩ := Option.map_eq_some_iff.1 h1
      cases h5
      exact field_part fs v.2 hl.2 hb.2 hs.2 hv.2 hm.2 h h4

theorem composes_end {H : Bytes → Node} {u t w : Ty} {x : u.Val} {v : t.Val} {g : Nat}
    (h : (⟨t, v⟩ : Σ t : Ty, t.Val) = ⟨u, x⟩) (hw : walkBy prims t [] = some (g, w)) :
    Composes H u x t v g := by
  cases h
  cases hw
  exact composes_nil

theorem composes_basic {H : Bytes → Node} {u t w : Ty} {x : u.Val} {v : t.Val} {path : List PathElement}
    {g : Nat} (h : path = [] ∧ (⟨t, v⟩ : Σ t : Ty, t.Val) = ⟨u, x⟩)
    (hw : walkBy prims t path = some (g, w)) : Composes H u x t v g := by
  obtain ⟨rfl, h⟩ := h
  exact composes_end h hw

/-- The answers of every value along a path to a part with a node of its own. -/
theorem leads_composes (H : Bytes → Node) (u : Ty) (x : u.Val) : ∀ (t : Ty) (v : t.Val)
    (path : List PathElement) (g : Nat) (w : Ty), Fair t v → LeadsTo u x t v path →
    walkBy prims t path = some (g, w) → Composes H u x t v g
  | .uint _, _, _, _, _, _, h, hw => composes_basic h hw
  | .u256, _, _, _, _, _, h, hw => composes_basic h hw
  | .bool, _, _, _, _, _, h, hw => composes_basic h hw
  | .node, _, _, _, _, _, h, hw => composes_basic h hw
  | .bitvector _, _, _, _, _, _, h, hw => composes_basic h hw
  | .bitlist _, _, _, _, _, _, h, hw => composes_basic h hw
  | .array t n, v, path, g, w, hF, h, hw => by
    match path with
    | [] => exact composes_end h hw
    | .field _ :: _ => exact h.elim
    | .length :: _ => exact h.elim
    | .selector :: _ => exact h.elim
    | .index i :: rest =>
      obtain ⟨a, u', b, h1, h2, rfl⟩ := walk_cons.1 hw
      obtain ⟨hk, y, hy, h⟩ := h
      rw [stepBy] at h1
      split at h1
      · rename_i hi
        cases h1
        have hmem := List.mem_of_getElem? hy
        have hF' : Fair t y := ⟨hF.legal.2, hF.bounded.1, hF.shallow.2, hF.valid y hmem,
          hF.inMemory.2 y hmem⟩
        exact coll_composes (T := .array t n) (v := v) (n := n) (vs := v.1) hk hi rfl (fun _ _ => rfl)
          hF.valid (Nat.le_of_eq v.2) hy (walk_pos h2)
          (leads_composes H u x t y rest b _ hF' h h2) (leads_reached u x t y rest hF' h _ _ h2).2.1
      · cases h1
  | .vector t n, v, path, g, w, hF, h, hw => by
    match path with
    | [] => exact composes_end h hw
    | .field _ :: _ => exact h.elim
    | .length :: _ => exact h.elim
    | .selector :: _ => exact h.elim
    | .index i :: rest =>
      obtain ⟨a, u', b, h1, h2, rfl⟩ := walk_cons.1 hw
      obtain ⟨hk, y, hy, h⟩ := h
      rw [stepBy] at h1
      split at h1
      · rename_i hi
        cases h1
        have hmem := List.mem_of_getElem? hy
        have hF' : Fair t y := ⟨hF.legal.2, hF.bounded.1, hF.shallow.2, hF.valid.2 y hmem,
          hF.inMemory.2 y hmem⟩
        exact coll_composes (T := .vector t n) (v := v) (n := n) (vs := v) hk hi rfl (fun _ _ => rfl)
          hF.valid.2 (Nat.le_of_eq hF.valid.1) hy (walk_pos h2)
          (leads_composes H u x t y rest b _ hF' h h2) (leads_reached u x t y rest hF' h _ _ h2).2.1
      · cases h1
  | .list t n, v, path, g, w, hF, h, hw => by
    match path with
    | [] => exact composes_end h hw
    | .field _ :: _ => exact h.elim
    | .length :: _ => exact h.elim
    | .selector :: _ => exact h.elim
    | .index i :: rest =>
      obtain ⟨a, u', b, h1, h2, rfl⟩ := walk_cons.1 hw
      obtain ⟨hk, y, hy, h⟩ := h
      rw [stepBy] at h1
      split at h1
      · rename_i hi
        cases h1
        have hmem := List.mem_of_getElem? hy
        have hF' : Fair t y := ⟨hF.legal, hF.bounded.1, hF.shallow.2, hF.valid.2 y hmem,
          hF.inMemory.2 y hmem⟩
        have e : 2 * 2 ^ depthFor (itemCount prims t n) = 2 ^ (layer (.list t n) v).height := by
          show _ = 2 ^ (depthFor (itemCount prims t n) + 1)
          rw [Nat.pow_succ, Nat.mul_comm]
        rw [e]
        exact coll_composes (T := .list t n) (v := v) (n := n) (vs := v) hk hi rfl (fun _ _ => rfl)
          hF.valid.2 hF.valid.1 hy (walk_pos h2)
          (leads_composes H u x t y rest b _ hF' h h2) (leads_reached u x t y rest hF' h _ _ h2).2.1
      · cases h1
  | .option t, v, path, g, w, hF, h, hw => by
    match path with
    | [] => exact composes_end h hw
    | .field _ :: _ => exact h.elim
    | .length :: _ => exact h.elim
    | .selector :: _ => exact h.elim
    | .index i :: rest =>
      obtain ⟨a, u', b, h1, h2, rfl⟩ := walk_cons.1 hw
      obtain ⟨rfl, y, hy, h⟩ := h
      cases hy
      cases h1
      have hF' : Fair t y := ⟨hF.legal, hF.bounded, hF.shallow, hF.valid y rfl, hF.inMemory y rfl⟩
      exact pair_composes (T := .option t) (t := t) (y := y) rfl (fun _ => rfl) (walk_pos h2)
        (leads_composes H u x t y rest b _ hF' h h2) (leads_reached u x t y rest hF' h _ _ h2).2.1
  | .newtype t, v, path, g, w, hF, h, hw => by
    match path with
    | [] => exact composes_end h hw
    | e :: rest =>
      exact leads_composes H u x t v (e :: rest) g w
        ⟨hF.legal, hF.bounded, hF.shallow, hF.valid, hF.inMemory⟩ h hw
  | .container fs, v, path, g, w, hF, h, hw => by
    match path with
    | [] => exact composes_end h hw
    | .index _ :: _ => exact h.elim
    | .length :: _ => exact h.elim
    | .selector :: _ => exact h.elim
    | .field name :: rest =>
      obtain ⟨a, u', b, h1, h2, rfl⟩ := walk_cons.1 hw
      obtain ⟨⟨k, u'⟩, h3, h4⟩ := Option.map_eq_some_iff.1 (show (fieldAt fs name).map _ = _ from h1)
      cases h4
      obtain ⟨y, h5, h6, hF', h7⟩ := field_part (H := H) fs v hF.legal.2.2 hF.bounded.1 hF.shallow.2
        hF.valid hF.inMemory h h3
      refine composes_step (t := .container fs) (v := v) (q := k) (t' := u') (y := y) ?_
        (Nat.lt_of_lt_of_le (fieldAt_lt h3) (le_pow_depthFor _)) h5 h6 (walk_pos h2)
        (leads_composes H u x u' y rest b _ hF' h7 h2) (leads_reached u x u' y rest hF' h7 _ _ h2).2.1
      show (treesByF packs fs v).length ≤ 2 ^ (depthFor (countF fs) + 0)
      exact Nat.le_trans (Nat.le_of_eq (treesByF_length (pk := packs) (fs := fs) (v := v)))
        (le_pow_depthFor _)
  | .union vs, v, path, g, w, hF, h, hw => by
    match path with
    | [] => exact composes_end h hw
    | .field _ :: _ => exact h.elim
    | .length :: _ => exact h.elim
    | .selector :: _ => exact h.elim
    | .index i :: rest =>
      obtain ⟨a, u', b, h1, h2, rfl⟩ := walk_cons.1 hw
      obtain ⟨o, h3, h4⟩ := Option.map_eq_some_iff.1 (show (variantAt vs i).map _ = _ from h1)
      cases h4
      obtain ⟨t, y, rfl, ⟨m, h5⟩, h6, hF', h7⟩ := payload_composes (H := H) vs 0 v hF.legal.2 hF.bounded
        hF.shallow hF.valid hF.inMemory h h3
      refine pair_composes (T := .union vs) (t := t) (y := y) h5 (fun b => ?_) (walk_pos h2)
        (leads_composes H u x t y rest b _ hF' h7 h2) (leads_reached u x t y rest hF' h7 _ _ h2).2.1
      rw [inner, if_neg (by have := variantAt_pos h3; omega), h6]
termination_by t _ path => (path.length, sizeOf t)

end Ssz
