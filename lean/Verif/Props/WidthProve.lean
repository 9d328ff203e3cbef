import Verif.Props.Demo
import Verif.Props.Prove
import Verif.Props.Width
import Verif.Proofs.WidthProve

/-!
# Property C88: the making of proofs on targets with a smaller `usize`

`t.proveW b E v path` is `prove` where `usize` has `b` bits.
-/

namespace Ssz

open Spec

/-- With 64 bits this is the function of the rest of the model. -/
theorem C88_same (E : Env) (t : Ty) (v : t.Val) (path : List PathElement) :
    t.proveW 64 E v path = prove E (t.impl E) v path := by
  unfold Ty.proveW prove
  rw [show t.indexW (E.on 64) 1 path = generalizedIndex (t.impl E) path from indexW_64 E t 1 path]
  simp only [proofW_64]

/-- C88, without overflow checks: the proof is the one that the 64-bit target makes for the generalized
index modulo `2^b`. -/
theorem C88_release_partial (b : Nat) (h32 : 32 ≤ b) (h64 : b ≤ 64) (E : Env) (hE : E.debug = false) (t : Ty)
    (v : t.Val) (path : List PathElement) (hl : Legal t) (hs : ShallowW b t) (hv : Valid t v)
    (hm : InMemoryW b t v) :
    t.proveW b E v path = (generalizedIndex (t.impl E) path >>= fun g =>
      computeProof E (t.impl E) v (Prover.ofIndex (g % 2 ^ b)) >>= fun p => .ok (p.proof, p.witness)) := by
  have h := C83_release_partial E hE b h64 (by omega) t (hs.fits h32) path
  unfold Ty.proveW
  rw [show E.on b = ⟨b, false⟩ by rw [Env.on, hE], h]
  cases generalizedIndex (t.impl E) path with
  | panic => rfl
  | err e => rfl
  | ok g =>
    simp only [Res.map_ok, Res.ok_bind]
    rw [proofW_eq h32 h64 E t v hl hs hv hm _ (show (Prover.ofIndex (g % 2 ^ b)).proof.index < 2 ^ b from
      Nat.mod_lt _ (Nat.two_pow_pos b))]

/-- C88: where the generalized index of the path is in the range of the target, `prove` does what it does
on a 64-bit target: the same proof, the same error or a panic. -/
theorem C88_prove_partial (b : Nat) (h32 : 32 ≤ b) (h64 : b ≤ 64) (E : Env) (t : Ty) (v : t.Val)
    (path : List PathElement) (g : Nat) (hl : Legal t) (hs : ShallowW b t) (hv : Valid t v)
    (hm : InMemoryW b t v) (hg : generalizedIndex (t.impl E) path = .ok g) (hb : g < 2 ^ b) :
    t.proveW b E v path = prove E (t.impl E) v path := by
  have h : t.indexW (E.on b) 1 path = .ok g := by
    cases hE : E.debug with
    | false =>
      rw [show E.on b = ⟨b, false⟩ by rw [Env.on, hE],
        C83_release_partial E hE b h64 (by omega) t (hs.fits h32) path, hg, Res.map_ok, Nat.mod_eq_of_lt hb]
    | true =>
      rw [show E.on b = ⟨b, true⟩ by rw [Env.on, hE]]
      exact (C83_debug_partial E hE b h64 t (hs.fits h32) path).2 g hg hb
  unfold Ty.proveW prove
  rw [h, hg]
  simp only [Res.ok_bind]
  rw [proofW_eq h32 h64 E t v hl hs hv hm _ (show (Prover.ofIndex g).proof.index < 2 ^ b from hb)]

/-- C88, with overflow checks: `prove` does what it does on a 64-bit target, or panics, and it panics where
the index is out of range. -/
theorem C88_debug_partial (b : Nat) (h32 : 32 ≤ b) (h64 : b ≤ 64) (E : Env) (hE : E.debug = true) (t : Ty)
    (v : t.Val) (path : List PathElement) (hl : Legal t) (hs : ShallowW b t) (hv : Valid t v)
    (hm : InMemoryW b t v) :
    (t.proveW b E v path = .panic ∨ t.proveW b E v path = prove E (t.impl E) v path) ∧
    ∀ g, generalizedIndex (t.impl E) path = .ok g → 2 ^ b ≤ g → t.proveW b E v path = .panic := by
  have h := C83_debug_partial E hE b h64 t (hs.fits h32) path
  have hon : E.on b = ⟨b, true⟩ := by rw [Env.on, hE]
  have hlt := indexW_lt (E.on b) t 1 (Nat.one_lt_two_pow (show b ≠ 0 by omega)) path
  have big : ∀ g, generalizedIndex (t.impl E) path = .ok g → 2 ^ b ≤ g → t.proveW b E v path = .panic := by
    intro g hg hb
    rcases h.1 with h1 | h1
    · unfold Ty.proveW
      rw [hon, h1, Res.panic_bind]
    · rw [hon, h1, hg] at hlt
      exact absurd (show g < 2 ^ b from hlt g rfl) (by omega)
  refine ⟨?_, big⟩
  rcases hg : generalizedIndex (t.impl E) path with g | e | _
  · by_cases hb : g < 2 ^ b
    · exact .inr (C88_prove_partial b h32 h64 E t v path g hl hs hv hm hg hb)
    · exact .inl (big g hg (by omega))
  · unfold Ty.proveW prove
    rw [hon, hg]
    rcases h.1 with h1 | h1
    · rw [h1]; exact .inl rfl
    · rw [h1, hg]; exact .inr rfl
  · unfold Ty.proveW prove
    rw [hon, hg]
    rcases h.1 with h1 | h1
    · rw [h1]; exact .inl rfl
    · rw [h1, hg]; exact .inl rfl

/-- C88: a proof made on the target for a path whose index is in range, under the conditions of
`C37_verifies_partial`, verifies there and on a 64-bit target; its index is that of the path, and its witness is the root that
`hash_tree_root` computes there. -/
theorem C88_verifies_partial (b : Nat) (h32 : 32 ≤ b) (h64 : b ≤ 64) (E : Env) (t : Ty) (v : t.Val)
    (path : List PathElement) (g : Nat) (p : Proof) (w : Node) (hl : Legal t) (hs : ShallowW b t)
    (hv : Valid t v) (hm : InMemoryW b t v) (hg : generalizedIndex (t.impl E) path = .ok g) (hb : g < 2 ^ b)
    (hf : FlatOn t path) (hd : path = [] → SameDepth t) (ha : Active t v path)
    (hfit : E.debug = false → ∀ i w, walkBy prims t path = some (i, w) → i < 2 ^ 64)
    (h : t.proveW b E v path = .ok (p, w)) :
    p.verifyW (E.on b) E.sha256 w = .ok () ∧ p.verify E w = .ok () ∧ p.index = g ∧
      t.rootW b E v = .ok w := by
  rw [C88_prove_partial b h32 h64 E t v path g hl hs hv hm hg hb] at h
  have hB := hs.bounded h32 h64
  have hS := hs.shallow h32 h64
  have hM := hm.memory h64
  have h1 := C37_verifies_partial E t v path p w hl hB hS hv hM hf hd ha hfit h
  have h2 : p.index = g := by
    rw [prove_answer E t v path hl hB hS hv hM, hg, Res.ok_bind] at h
    obtain ⟨a, _, h⟩ := Res.bind_eq_ok.1 h
    cases h
    rfl
  have h3 : w = (treeBy packs t v).root E.sha256 := by
    rcases prove_on E hl hB hS hv hM hf hd ha hfit hg with ⟨_, h3⟩ | ⟨u, _, h4⟩
    · rw [h] at h3; cases h3
    · rw [h] at h4; cases h4; rfl
  refine ⟨?_, h1, h2, by rw [h3]; exact rootW_ok h32 h64 E hl hs hv hm⟩
  rw [(C83_verify (E.on b) h64 E).1 p w (by rw [h2]; exact hb)]
  exact h1

theorem Demo.ty_shallowW : ShallowW 32 Demo.ty := by
  simp [Demo.ty, Demo.unionTy, ShallowW, ShallowWF, ShallowWV, itemCount, itemLen, prims, fixedLen, elementW,
    HugeW, packs, UintTy.bits, countF]

theorem Demo.val_inMemoryW : InMemoryW 32 Demo.ty Demo.val := by
  refine ⟨trivial, ⟨⟨by decide, fun _ => by decide⟩, fun _ _ => trivial⟩,
    show 3 < 2 ^ 32 by decide, ?_, ?_,
    ⟨⟨by decide, fun _ => by decide⟩, fun _ _ => trivial⟩, trivial, show 11 < 2 ^ 32 by decide,
    trivial, trivial⟩
  · intro x hx
    cases hx
    exact ⟨⟨by decide, fun _ => by decide⟩, fun _ _ => trivial⟩
  · refine ⟨⟨by decide, fun h => by simp [packs] at h⟩, fun x hx => ⟨?_, fun _ _ => trivial⟩⟩
    have h : ∀ x ∈ ([[5], [6, 7]] : List (List (BitVec 16))), x.length ≤ 3 := by decide
    have h := h x hx
    refine ⟨Nat.lt_of_le_of_lt h (by decide), fun _ => ?_⟩
    exact Nat.lt_of_le_of_lt (Nat.mul_le_mul_right (fixedLen (.uint .u16)) h) (by decide)

/-- With 32 bits, the proof of `C36` is made as with 64. -/
example (E : Env) : ∃ p w, Demo.ty.proveW 32 E Demo.val Demo.path = .ok (p, w) ∧ p.index = 322 ∧
    p.verifyW (E.on 32) E.sha256 w = .ok () ∧ Demo.ty.rootW 32 E Demo.val = .ok w := by
  have hfit : ∀ i w, walkBy prims Demo.ty Demo.path = some (i, w) → i < 2 ^ 64 := fun i w h => by
    have h := gindex_std Demo.ty_std h
    rw [Demo.gindex_path] at h
    cases h; decide
  obtain ⟨u, hu, _⟩ := C32_points_packed_partial E _ Demo.val Demo.path 322 (.bytes 2 [7, 0])
    (flat_on _ _ Demo.ty_flat) Demo.val_valid (fun _ => ⟨countable_of_shallow Demo.ty_shallow, hfit⟩)
    (Demo.gi_path E) rfl
  have h1 := prove_node E Demo.ty_legal Demo.ty_bounded Demo.ty_shallow Demo.ty_flat Demo.val_valid
    Demo.val_inMemory (Demo.gi_path E) hu
  rw [← C88_prove_partial 32 (by decide) (by decide) E Demo.ty Demo.val Demo.path 322 Demo.ty_legal
    Demo.ty_shallowW Demo.val_valid Demo.val_inMemoryW (Demo.gi_path E) (by decide)] at h1
  have h2 := C88_verifies_partial 32 (by decide) (by decide) E Demo.ty Demo.val Demo.path 322 _ _ Demo.ty_legal
    Demo.ty_shallowW Demo.val_valid Demo.val_inMemoryW (Demo.gi_path E) (by decide)
    (flat_on _ _ Demo.ty_flat) (fun h => (by cases h)) Demo.path_active (fun _ => hfit) h1
  exact ⟨_, _, h1, h2.2.2.1, h2.1, h2.2.2.2⟩

/-! ## Indices out of range -/

/-- `List<List<u8, 2^28>, 2^20>` -/
def records : Ty := .list (.list (.uint .u8) (2 ^ 28)) (2 ^ 20)

/-- One record of 33 bytes. -/
def recordsVal : records.Val := ([List.replicate 33 7] : List (List (BitVec 8)))

theorem records_ok : Legal records ∧ ShallowW 32 records ∧ Flat records ∧ Valid records recordsVal ∧
    InMemoryW 32 records recordsVal := by
  have hlen : ∀ l : List (BitVec 8), l ∈ [List.replicate 33 7] → l.length = 33 := by
    intro l hl
    rw [List.mem_singleton.1 hl, List.length_replicate]
  refine ⟨trivial, ⟨by decide +kernel, ⟨fun h => (by cases h), fun h => (by cases h)⟩,
      fun h => absurd (show 2 ^ 31 < 2 ^ 20 from h) (by decide),
      by decide +kernel, ⟨fun h => (by cases h), fun _ => (by decide : (1 : Nat) < 2 ^ 32)⟩,
      fun h => absurd (show 2 ^ 32 ≤ 2 ^ 28 * 1 from h) (by decide), trivial⟩,
    ⟨rfl, rfl, trivial⟩,
    ⟨(by decide : (1 : Nat) ≤ 2 ^ 20), fun l hl =>
      ⟨Nat.le_trans (Nat.le_of_eq (hlen l hl)) (by decide), fun _ _ => trivial⟩⟩,
    ⟨⟨(by decide : (1 : Nat) < 2 ^ 26), fun h => (by cases h)⟩, fun l hl =>
      ⟨⟨Nat.lt_of_le_of_lt (Nat.le_of_eq (hlen l hl)) (by decide), fun _ =>
        Nat.lt_of_le_of_lt (Nat.le_of_eq (congrArg (· * 1) (hlen l hl))) (by decide)⟩, fun _ _ => trivial⟩⟩⟩

theorem records_index (E : Env) : generalizedIndex (records.impl E) [.index 0, .index 32] = .ok (2 ^ 45 + 1) := by
  rw [← (C83_same E).1]
  generalize E.debug = d
  cases d <;> decide +kernel

/-- C88, that proofs are the same on all targets, refuted: with 64 bits there is a proof of byte 32 of the
first record. With 32 bits and without overflow checks, the proof made for this path is one of the whole
list, with an empty branch; it verifies. -/
theorem C88_wrap_refuted (E : Env) (hE : E.debug = false) : Legal records ∧ ShallowW 32 records ∧
    Valid records recordsVal ∧ InMemoryW 32 records recordsVal ∧
    ∃ p w, prove E (records.impl E) recordsVal [.index 0, .index 32] = .ok (p, w) ∧ p.index = 2 ^ 45 + 1 ∧
      p.branch.length = 45 ∧
      records.proveW 32 E recordsVal [.index 0, .index 32] = .ok (⟨w, [], 1⟩, w) ∧
      (Proof.mk w [] 1).verifyW (E.on 32) E.sha256 w = .ok () := by
  obtain ⟨hl, hs, hf, hv, hm⟩ := records_ok
  have hB := hs.bounded (by decide) (by decide)
  have hS := hs.shallow (by decide) (by decide)
  have hM := hm.memory (by decide)
  have hg := records_index E
  have hwalk : ∀ i w, walkBy prims records [.index 0, .index 32] = some (i, w) → i < 2 ^ 64 := fun i w h => by
    have h2 : (walkBy prims records [.index 0, .index 32]).map (·.1) = some (2 ^ 45 + 1) := by decide +kernel
    rw [h] at h2
    cases h2
    decide
  obtain ⟨u, hu, _⟩ := C32_points_packed_partial E records recordsVal [.index 0, .index 32] (2 ^ 45 + 1)
    (.bytes 0 [7]) (flat_on _ _ hf) hv (fun _ => ⟨countable_of_shallow hS, hwalk⟩) hg rfl
  have h1 := prove_node E hl hB hS hf hv hM hg hu
  have h2 := prove_node E (path := []) (g := 1) hl hB hS hf hv hM rfl (sub_one _)
  rw [branchAt_one (Nat.le_refl 1)] at h2
  have h3 := C88_release_partial 32 (by decide) (by decide) E hE records recordsVal [.index 0, .index 32] hl hs hv hm
  have h4 := C88_release_partial 32 (by decide) (by decide) E hE records recordsVal [] hl hs hv hm
  have h5 := C88_prove_partial 32 (by decide) (by decide) E records recordsVal [] 1 hl hs hv hm rfl (by decide)
  rw [hg] at h3
  have h6 : records.proveW 32 E recordsVal [.index 0, .index 32] = prove E (records.impl E) recordsVal [] :=
    h3.trans (h4.symm.trans h5)
  have h7 := climb_complete (H := E.sha256) hu
  refine ⟨hl, hs, hv, hm, _, _, h1, rfl, ?_, h6.trans h2, ?_⟩
  · exact h7.2.trans (by decide +kernel)
  · rw [(C83_verify (E.on 32) (show 32 ≤ 64 by decide) E).1 _ _ (by decide : 1 < 2 ^ 32)]
    rw [verify_eq E _ _ (by decide : 1 < 2 ^ 64), if_neg (by decide : (1 : Nat) ≠ 0), if_pos ⟨(by decide : 0 = Nat.log2 1), rfl⟩]

/-! ## Trees out of range -/

/-- C88, that proofs can be made wherever roots can be computed, refuted with twice the number of chunks of
`ShallowW`: on a target with `b` bits the empty `List<Node, 2^(b-7)>` has its root, and a 64-bit target proves
the list and its length, but `prove` panics for every path that it does not refuse, in every build. -/
theorem C88_tree_refuted (b : Nat) (h32 : 32 ≤ b) (h64 : b < 64) (E : Env) :
    (∃ r, (Ty.list .node (2 ^ (b - 7))).rootW b E ([] : List Node) = .ok r) ∧
    (∀ path, path = [] ∨ path = [.length] →
      ∃ p w, prove E ((Ty.list .node (2 ^ (b - 7))).impl E) ([] : List Node) path = .ok (p, w)) ∧
    ∀ path, (Ty.list .node (2 ^ (b - 7))).proveW b E ([] : List Node) path = .panic ∨
      ∃ e, (Ty.list .node (2 ^ (b - 7))).proveW b E ([] : List Node) path = .err e := by
  have p7 : 2 ^ b = 128 * 2 ^ (b - 7) := by conv_lhs => rw [show b = 7 + (b - 7) by omega, Nat.pow_add]
  have p5 : 2 ^ (b - 5) = 4 * 2 ^ (b - 7) := by
    conv_lhs => rw [show b - 5 = 2 + (b - 7) by omega, Nat.pow_add]
  have pos := Nat.two_pow_pos (b - 7)
  have h56 : 2 ^ (b - 7) ≤ 2 ^ 56 := Nat.pow_le_pow_right (by decide) (by omega)
  have hitem : itemLen prims .node = 32 := rfl
  have he : elementW .node := ⟨fun h => (by cases h), fun _ => (by decide : (32 : Nat) < 2 ^ 32)⟩
  have hm : InMemoryW b (.list .node (2 ^ (b - 7))) ([] : List Node) :=
    ⟨⟨Nat.two_pow_pos _, fun _ => Nat.lt_of_le_of_lt (Nat.le_of_eq (Nat.zero_mul _)) (Nat.two_pow_pos _)⟩,
      fun _ h => (by cases h)⟩
  have hv : Valid (.list .node (2 ^ (b - 7))) ([] : List Node) := ⟨Nat.zero_le _, fun _ h => (by cases h)⟩
  have hB : Bounded (.list .node (2 ^ (b - 7))) :=
    ⟨trivial, fun _ => (by decide : (32 : Nat) < 2 ^ 32), show 2 ^ (b - 7) * 32 < 2 ^ 64 by omega⟩
  have hS : Shallow (.list .node (2 ^ (b - 7))) := ⟨by unfold itemCount; rw [hitem]; omega, trivial⟩
  have hf : Flat (.list .node (2 ^ (b - 7))) := ⟨rfl, trivial⟩
  have hh : ¬ HugeW b .node (2 ^ (b - 7)) := fun h =>
    absurd (show 2 ^ b ≤ 2 ^ (b - 7) * 32 from h) (by omega)
  refine ⟨⟨_, (htrW_rooted h32 (by omega) E (.list .node (2 ^ (b - 7))) ([] : List Node) trivial ⟨trivial, he⟩ hv hm).1
    (fun h => h.elim hh fun ⟨_, h, _⟩ => (by cases h))⟩, ?_, ?_⟩
  · rintro path (rfl | rfl)
    · exact ⟨_, _, prove_node E (g := 1) trivial hB hS hf hv (hm.memory (by omega)) rfl (sub_one _)⟩
    · have hg : generalizedIndex ((Ty.list .node (2 ^ (b - 7))).impl E) [.length] = .ok 3 := by
        rw [← (C83_same E).1]
        generalize E.debug = d
        cases d <;> rfl
      have hsub : ∀ l r : MTree, (MTree.node l r).sub 3 = some r := fun l r => by
        rw [MTree.sub, if_neg (by decide), show 3 / 2 = 1 by decide, sub_one]
        rfl
      exact ⟨_, _, prove_node E trivial hB hS hf hv (hm.memory (by omega)) hg (hsub _ _)⟩
  · intro path
    have hr : ∀ g, (Ty.list .node (2 ^ (b - 7))).indexW (E.on b) 1 path = .ok g → 1 ≤ g ∧ g < 2 ^ (b - 5) := by
      intro g hg
      match path, hg with
      | [], hg => cases hg; omega
      | .field _ :: _, hg => cases hg
      | .selector :: _, hg => cases hg
      | [.length], hg =>
        rw [Ty.indexW] at hg
        simp only [List.isEmpty_nil, if_true, mul_fits (W := E.on b) (x := 1) (y := 2) (show 1 * 2 < 2 ^ b by omega),
          Res.lift_ok, Res.ok_bind, add_fits (W := E.on b) (x := 1 * 2) (y := 1) (show 1 * 2 + 1 < 2 ^ b by omega)] at hg
        cases hg
        omega
      | .length :: _ :: _, hg => cases hg
      | .index i :: rest, hg =>
        rw [Ty.indexW] at hg
        simp only at hg
        split at hg
        · cases hg
        · rename_i hi
          rw [itemLengthW_eq he.1, hitem] at hg
          rw [mul_fits (show i * 32 < 2 ^ b by omega), mul_fits (show 1 * 2 < 2 ^ b by omega),
            countW_ok (show 2 ^ (b - 7) * 32 + 31 < 2 ^ b by omega)] at hg
          simp only [Res.lift_ok, Res.ok_bind] at hg
          rw [show (2 ^ (b - 7) * 32 + 31) / 32 = 2 ^ (b - 7) by omega,
            nextW_ok (by omega) (Nat.pow_le_pow_right (by decide) (by omega)), depthFor_pow] at hg
          simp only [Res.lift_ok, Res.ok_bind] at hg
          rw [mul_fits (show 1 * 2 * 2 ^ (b - 7) < 2 ^ b by omega)] at hg
          simp only [Res.lift_ok, Res.ok_bind] at hg
          rw [show i * 32 / 32 = i by omega, add_fits (show 1 * 2 * 2 ^ (b - 7) + i < 2 ^ b by omega)] at hg
          simp only [Res.lift_ok, Res.ok_bind, Ty.indexW, defaultComputeGeneralizedIndex] at hg
          split at hg
          · cases hg; omega
          · cases hg
    unfold Ty.proveW
    cases hi : (Ty.list .node (2 ^ (b - 7))).indexW (E.on b) 1 path with
    | err e => exact .inr ⟨e, rfl⟩
    | panic => exact .inl rfl
    | ok g =>
      left
      obtain ⟨h1, h2⟩ := hr g hi
      have hc := assembleChunksW_ok h32 E (t := .node) (vs := []) trivial (fun _ => by decide)
        (fun _ h => (by cases h)) hm.1 (fun _ h => (by cases h))
      have hw : ∀ (n : Nat) (v : (Ty.list .node n).Val) (pr : Prover), (Ty.list .node n).proofW b E v pr =
          computeProofW b E (itemChunkCountW (E.on b) (Ty.node.itemLengthW (E.on b)) n) (some (List.length v))
            (assembleChunksW b E (Ty.node.impl E) (fun x => Ty.node.rootW b E x) v)
            (collectionElementW (fun x p => Ty.node.proofW b E x p) n v) pr := fun n v pr => by rw [Ty.proofW]
      have hw := hw (2 ^ (b - 7)) ([] : List Node) (Prover.ofIndex g)
      rw [show assembleChunksW b E (Ty.node.impl E) (fun x => Ty.node.rootW b E x) ([] : List Node) = _ from hc] at hw
      rw [Res.ok_bind, hw, itemLengthW_eq he.1, hitem,
        countW_ok (show 2 ^ (b - 7) * 32 + 31 < 2 ^ b by omega),
        show (2 ^ (b - 7) * 32 + 31) / 32 = 2 ^ (b - 7) by omega,
        computeProofW_panic h32 E _ _ _ (Prover.ofIndex g) h1 h2]
      rfl

end Ssz
