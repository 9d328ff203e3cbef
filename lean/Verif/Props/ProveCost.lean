import Verif.Proofs.ProveCost
import Verif.Props.Cost
import Verif.Props.Prove
import Verif.Props.ProveAt

/-!
# C80: what a proof costs

`Verif.Model.ProveCost` has the prover with a counter for calls of the hash function.
-/

namespace Ssz

open Spec Counted

/-- C76, exact for whole values: `hash_tree_root` calls the hash function once for each inner node with
data below it and once for each length or selector. -/
theorem C76_value (E : Env) (t : Ty) (v : t.Val) (hl : Legal t) (hb : Bounded t) (hv : Valid t v)
    (hm : InMemory t v) : (t.rootC E v).1.hashes = rootCost t v :=
  rootC_exact E t v hl hb hv hm

/-- C80: the prover with the counter returns what the one without returns, for every input. -/
theorem C80_same (E : Env) (t : Ty) (v : t.Val) :
    (∀ path, (t.proveC E v path).2 = prove E (t.impl E) v path) ∧
    ∀ p, (t.computeProofC E v p).2 = computeProof E (t.impl E) v p :=
  ⟨proveC_res E t v, tyComputeProofC_res E t v⟩

/-- C80: how often a proof at an index calls the hash function: exactly `proofCost` times if it
succeeds, and not more often if it fails or panics. -/
theorem C80_exact (E : Env) (t : Ty) (v : t.Val) (g : Nat) (hl : Legal t) (hb : Bounded t)
    (hs : Shallow t) (hv : Valid t v) (hm : InMemory t v) (hg : g < 2 ^ 64) :
    (t.computeProofC E v (Prover.ofIndex g)).1.hashes ≤ proofCost t v g ∧
    ∀ p, computeProof E (t.impl E) v (Prover.ofIndex g) = .ok p →
      (t.computeProofC E v (Prover.ofIndex g)).1.hashes = proofCost t v g := by
  obtain ⟨h1, h2⟩ := computeProofC_costs E t v hl hb hs hv hm (Prover.ofIndex g) hg
  exact ⟨h1, fun p hp => h2 p ((tyComputeProofC_res E t v _).trans hp)⟩

/-- C80, the same for `prove`: the index is that of the path, and finding it costs nothing. -/
theorem C80_prove (E : Env) (t : Ty) (v : t.Val) (path : List PathElement) (g : Nat) (hl : Legal t)
    (hb : Bounded t) (hs : Shallow t) (hv : Valid t v) (hm : InMemory t v)
    (hp : generalizedIndex (t.impl E) path = .ok g) (hg : g < 2 ^ 64) :
    (t.proveC E v path).1.hashes ≤ proofCost t v g ∧
    ∀ p, prove E (t.impl E) v path = .ok p → (t.proveC E v path).1.hashes = proofCost t v g := by
  have h : Costs (t.proveC E v path) (proofCost t v g) := by
    refine costs_free_bind fun i hi => ?_
    rw [hp] at hi
    cases hi
    exact costs_bind_free (computeProofC_costs E t v hl hb hs hv hm (Prover.ofIndex g) hg)
  exact ⟨h.1, fun p h2 => h.2 p ((proveC_res E t v path).trans h2)⟩

/-- C80: a proof hashes all inner nodes of the tree over the direct parts of the value, with the room
that the type has for parts, whatever parts there are and wherever the index leads. -/
theorem C80_room (E : Env) (t : Ty) (v : t.Val) (g : Nat) (p : Prover) (hl : Legal t) (hb : Bounded t)
    (hs : Shallow t) (hv : Valid t v) (hm : InMemory t v) (hg : g < 2 ^ 64)
    (h : computeProof E (t.impl E) v (Prover.ofIndex g) = .ok p) :
    2 ^ (layer t v).height ≤ (t.computeProofC E v (Prover.ofIndex g)).1.hashes + 1 := by
  rw [(C80_exact E t v g hl hb hs hv hm hg).2 p h]
  have := proofCost_ge t v g
  omega

/-- C80: so a proof in a list calls the hash function at least twice for each chunk that the list might
have, also if it is empty, while its root costs less than 65 calls for each value in it. -/
theorem C80_list (E : Env) (t : Ty) (n : Nat) (v : (Ty.list t n).Val) (g : Nat) (p : Prover)
    (hl : Legal (.list t n)) (hb : Bounded (.list t n)) (hs : Shallow (.list t n))
    (hv : Valid (.list t n) v) (hm : InMemory (.list t n) v) (hg : g < 2 ^ 64)
    (h : computeProof E ((Ty.list t n).impl E) v (Prover.ofIndex g) = .ok p) :
    2 * itemCount prims t n ≤ ((Ty.list t n).computeProofC E v (Prover.ofIndex g)).1.hashes ∧
    ((Ty.list t n).rootC E v).1.hashes < 65 * values (.list t n) v := by
  refine ⟨?_, (C76_root E (.list t n) v hl hb).1⟩
  rw [(C80_exact E _ v g hl hb hs hv hm hg).2 p h]
  have h1 := le_pow_depthFor (itemCount prims t n)
  have h2 := Nat.two_pow_pos (depthFor (itemCount prims t n))
  show _ ≤ partsCost (.list t n) v + (2 ^ (depthFor (itemCount prims t n) + 1) - 1) + 1 + _
  rw [Nat.pow_succ]
  omega

/-- C80: what a proof costs at most: for each type inside the type, 65 calls for each value and the room
that the type has for parts. -/
theorem C80_bound (E : Env) (t : Ty) (v : t.Val) (g : Nat) (hl : Legal t) (hb : Bounded t)
    (hs : Shallow t) (hv : Valid t v) (hm : InMemory t v) (hg : g < 2 ^ 64) :
    (t.computeProofC E v (Prover.ofIndex g)).1.hashes ≤ typeSize t * (65 * values t v) + room t :=
  Nat.le_trans (C80_exact E t v g hl hb hs hv hm hg).1 (proofCost_le t v hl hb hv hm g)

/-! ## Examples -/

/-- The type and the value of the examples, at the index of a path through five layers. -/
example : Legal Demo.ty ∧ Bounded Demo.ty ∧ Shallow Demo.ty ∧ Valid Demo.ty Demo.val ∧
    InMemory Demo.ty Demo.val ∧ (322 : Nat) < 2 ^ 64 :=
  ⟨Demo.ty_legal, Demo.ty_bounded, Demo.ty_shallow, Demo.val_valid, Demo.val_inMemory, by decide⟩

/-- The counter and the specification, on this value: deeper indices cost more. -/
example : (Demo.ty.computeProofC ⟨true, fun _ => zeroNode⟩ Demo.val (Prover.ofIndex 322)).1.hashes = 37 ∧
    proofCost Demo.ty Demo.val 322 = 37 ∧ proofCost Demo.ty Demo.val 1 = 23 ∧
    rootCost Demo.ty Demo.val = 19 ∧ typeSize Demo.ty = 22 ∧ values Demo.ty Demo.val = 26 ∧
    room Demo.ty = 41 := by decide +kernel

/-- The empty list of the type `List<u64, 2^40>`. -/
def wideTy : Ty := .list (.uint .u64) (2 ^ 40)

def wideVal : wideTy.Val := show List (BitVec 64) from []

theorem wideTy_ok : Legal wideTy ∧ Bounded wideTy ∧ Shallow wideTy ∧ Valid wideTy wideVal ∧
    InMemory wideTy wideVal :=
  ⟨trivial, by simp [wideTy, Bounded, packs, fixedLen, UintTy.bits], by simp [wideTy, Shallow, itemCount, itemLen, prims, fixedLen, UintTy.bits],
    ⟨Nat.zero_le _, fun _ h => absurd h List.not_mem_nil⟩,
    ⟨⟨by decide, fun _ => by decide⟩, fun _ h => absurd h List.not_mem_nil⟩⟩

/-- Its root costs one call; a proof of its length, as of anything else in it, `2^39`. -/
example (E : Env) : (wideTy.rootC E wideVal).1.hashes = 1 ∧ proofCost wideTy wideVal 3 = 2 ^ 39 := by
  obtain ⟨h1, h2, h3, h4, h5⟩ := wideTy_ok
  refine ⟨(C76_value E wideTy wideVal h1 h2 h4 h5).trans ?_, ?_⟩ <;> decide +kernel

/-- This proof succeeds. -/
example (E : Env) : ∃ p, computeProof E (wideTy.impl E) wideVal (Prover.ofIndex 3) = .ok p := by
  obtain ⟨h1, h2, h3, h4, h5⟩ := wideTy_ok
  rw [C57_exact_partial E wideTy wideVal 3 h1 h2 h3 h4 h5 (by decide), answer, Layer.answer,
    if_neg (by decide), if_pos (by decide +kernel), if_pos (by decide +kernel)]
  exact ⟨_, rfl⟩

end Ssz
