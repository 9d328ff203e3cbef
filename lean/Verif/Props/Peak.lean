import Verif.Proofs.Peak
import Verif.Props.Cost
import Verif.Props.ProveCost

/-!
# C89: what the making of roots and proofs holds in memory

`Verif.Model.Peak` has the functions with the largest number of bytes that are held in byte vectors at one
time.
-/

namespace Ssz

open Spec Peak

/-- C89: the functions with the number return what those without return, for every input. -/
theorem C89_same (E : Env) (t : Ty) (v : t.Val) :
    (t.rootP E v).2 = (t.impl E).hashTreeRoot v ∧
    (∀ path, (t.proveP E v path).2 = prove E (t.impl E) v path) ∧
    (∀ p, (t.computeProofP E v p).2 = computeProof E (t.impl E) v p) ∧
    (∀ chunks limit, (merkleizeP E chunks limit).2 = merkleize E chunks limit) ∧
    ∀ chunks n, (computeMerkleTreeP E chunks n).2 = computeMerkleTree E chunks n :=
  ⟨rootP_res E t v, proveP_res E t v, tyComputeProofP_res E t v, merkleizeP_res E,
    computeMerkleTreeP_res E⟩

/-- C89: `merkleize` holds one copy of the chunks, whatever the limit, so also where the tree is much
larger; and not more if it fails or panics. -/
theorem C89_merkleize (E : Env) (chunks : Bytes) (limit : Option Nat) :
    (merkleizeP E chunks limit).1 ≤ chunks.length ∧
    (chunks.length % 32 = 0 → ∀ r, merkleize E chunks limit = .ok r →
      (merkleizeP E chunks limit).1 = chunks.length) :=
  ⟨merkleizeP_le E chunks limit, fun h r hr =>
    (merkleizeP_takes E h limit).2 r ((merkleizeP_res E chunks limit).trans hr)⟩

/-- C89: how much `hash_tree_root` holds, exactly. -/
theorem C89_root (E : Env) (t : Ty) (v : t.Val) (hl : Legal t) (hb : Bounded t) (hv : Valid t v)
    (hm : InMemory t v) : (t.rootP E v).1 = rootMem t v :=
  rootP_exact E t v hl hb hv hm

/-- C89: this is at most 64 bytes for each value inside, whatever the bounds in the type, also for values
that are not valid and where it fails or panics. -/
theorem C89_values (E : Env) (t : Ty) (v : t.Val) (hl : Legal t) (hb : Bounded t) :
    (t.rootP E v).1 ≤ 64 * values t v :=
  rootP_le E t v hl hb

/-- C89: so for what was decoded from `b` it depends on the length of `b` and the number of types in the
type, not on the bounds in it. -/
theorem C89_decoded (E : Env) (t : Ty) (b : Bytes) (v : t.Val) (hl : Legal t) (hf : Fits t)
    (hb : Bounded t) (hlen : b.length < 2 ^ 63)
    (h : deserialize (t.impl E).toSerializable b = .ok v) :
    (t.rootP E v).1 ≤ 64 * (typeSize t * max 1 b.length) := by
  have h1 := C89_values E t v hl hb
  have h2 : dataBytes t v ≤ b.length := by
    obtain ⟨h3, h4, _⟩ := de_sound E t b v hl hf hlen h
    exact Nat.le_trans (dataBytes_le t v hl h3 h4)
      (accepts_enc_length t b v ((de_iff E t b v hl hf hlen).1 h))
  have h3 : typeSize t * max 1 (dataBytes t v) ≤ typeSize t * max 1 b.length :=
    Nat.mul_le_mul_left _ (by omega)
  have h4 := values_le t v
  omega

/-- C89: how much a proof at an index holds: exactly `proofMem` if it succeeds, and not more if it fails or
panics. -/
theorem C89_proof (E : Env) (t : Ty) (v : t.Val) (g : Nat) (hl : Legal t) (hb : Bounded t)
    (hs : Shallow t) (hv : Valid t v) (hm : InMemory t v) (hg : g < 2 ^ 64) :
    (t.computeProofP E v (Prover.ofIndex g)).1 ≤ proofMem t v g ∧
    ∀ p, computeProof E (t.impl E) v (Prover.ofIndex g) = .ok p →
      (t.computeProofP E v (Prover.ofIndex g)).1 = proofMem t v g := by
  obtain ⟨h1, h2⟩ := computeProofP_takes E t v hl hb hs hv hm (Prover.ofIndex g) hg
  exact ⟨h1, fun p hp => h2 p ((tyComputeProofP_res E t v _).trans hp)⟩

/-- C89, the same for `prove`: the index is that of the path, and finding it holds nothing. -/
theorem C89_prove (E : Env) (t : Ty) (v : t.Val) (path : List PathElement) (g : Nat) (hl : Legal t)
    (hb : Bounded t) (hs : Shallow t) (hv : Valid t v) (hm : InMemory t v)
    (hp : generalizedIndex (t.impl E) path = .ok g) (hg : g < 2 ^ 64) :
    (t.proveP E v path).1 ≤ proofMem t v g ∧
    ∀ p, prove E (t.impl E) v path = .ok p → (t.proveP E v path).1 = proofMem t v g := by
  have h : Takes (t.proveP E v path) (proofMem t v g) := by
    refine takes_free_bind fun i hi => ?_
    rw [hp] at hi
    cases hi
    exact takes_bind_free (computeProofP_takes E t v hl hb hs hv hm (Prover.ofIndex g) hg)
  exact ⟨h.1, fun p h2 => h.2 p ((proveP_res E t v path).trans h2)⟩

/-- C89: what a proof holds at most: 64 bytes for each value and for each leaf that the types inside have
room for. -/
theorem C89_bound (E : Env) (t : Ty) (v : t.Val) (g : Nat) (hl : Legal t) (hb : Bounded t)
    (hs : Shallow t) (hv : Valid t v) (hm : InMemory t v) (hg : g < 2 ^ 64) :
    (t.computeProofP E v (Prover.ofIndex g)).1 ≤ 64 * (values t v + room t) :=
  Nat.le_trans (C89_proof E t v g hl hb hs hv hm hg).1 (proofMem_le t v hl hb hv hm g)

/-- C89: a proof that succeeds holds all nodes of the tree over the direct parts of the value, with the
room that the type has for parts, whatever parts there are and wherever the index leads. -/
theorem C89_room (E : Env) (t : Ty) (v : t.Val) (g : Nat) (p : Prover) (hl : Legal t) (hb : Bounded t)
    (hs : Shallow t) (hv : Valid t v) (hm : InMemory t v) (hg : g < 2 ^ 64)
    (h : computeProof E (t.impl E) v (Prover.ofIndex g) = .ok p) :
    32 * (2 ^ ((layer t v).height + 1) - 1) ≤ (t.computeProofP E v (Prover.ofIndex g)).1 := by
  rw [(C89_proof E t v g hl hb hs hv hm hg).2 p h]
  exact proofMem_ge t v g

/-- C89: so a proof in a list holds at least 128 bytes for each chunk that the list might have, also if it
is empty, while its root takes at most 64 bytes for each value in it. -/
theorem C89_list (E : Env) (t : Ty) (n : Nat) (v : (Ty.list t n).Val) (g : Nat) (p : Prover)
    (hl : Legal (.list t n)) (hb : Bounded (.list t n)) (hs : Shallow (.list t n))
    (hv : Valid (.list t n) v) (hm : InMemory (.list t n) v) (hg : g < 2 ^ 64)
    (h : computeProof E ((Ty.list t n).impl E) v (Prover.ofIndex g) = .ok p) :
    128 * itemCount prims t n ≤ ((Ty.list t n).computeProofP E v (Prover.ofIndex g)).1 ∧
    ((Ty.list t n).rootP E v).1 ≤ 64 * values (.list t n) v := by
  refine ⟨?_, C89_values E (.list t n) v hl hb⟩
  rw [(C89_proof E _ v g hl hb hs hv hm hg).2 p h]
  have h1 := le_pow_depthFor (itemCount prims t n)
  have h2 := Nat.two_pow_pos (depthFor (itemCount prims t n))
  show _ ≤ max _ (max _ (32 * (layer (.list t n) v).parts.length +
    (32 * (2 ^ (depthFor (itemCount prims t n) + 1 + 1) - 1) + 32)))
  rw [Nat.pow_succ, Nat.pow_succ]
  omega

/-! ## Examples -/

/-- The type and the value of the examples, at the index of a path through five layers. -/
example : Legal Demo.ty ∧ Bounded Demo.ty ∧ Shallow Demo.ty ∧ Valid Demo.ty Demo.val ∧
    InMemory Demo.ty Demo.val ∧ (322 : Nat) < 2 ^ 64 :=
  ⟨Demo.ty_legal, Demo.ty_bounded, Demo.ty_shallow, Demo.val_valid, Demo.val_inMemory, by decide⟩

/-- The number and the specification, on this value. -/
example : (Demo.ty.computeProofP ⟨true, fun _ => zeroNode⟩ Demo.val (Prover.ofIndex 322)).1 = 1280 ∧
    proofMem Demo.ty Demo.val 322 = 1280 ∧ proofMem Demo.ty Demo.val 1 = 1280 ∧
    (Demo.ty.rootP ⟨true, fun _ => zeroNode⟩ Demo.val).1 = 576 ∧
    rootMem Demo.ty Demo.val = 576 ∧ values Demo.ty Demo.val = 26 ∧ room Demo.ty = 41 := by decide +kernel

/-- Two lists in a list with room for `2^40`, one of them empty. -/
example : Legal hugeTy ∧ Bounded hugeTy ∧ Fits hugeTy ∧ rootMem hugeTy hugeVal = 128 ∧
    64 * values hugeTy hugeVal = 320 :=
  ⟨trivial, by simp [hugeTy, Bounded, packs, fixedLen, UintTy.bits], trivial, by decide +kernel,
    by decide +kernel⟩

/-- The root of an empty list of the type `List<u64, 2^40>` takes 32 bytes; a proof of its length, which
succeeds (`Verif.Props.ProveCost`), `2^45`. -/
example (E : Env) : (wideTy.rootP E wideVal).1 = 32 ∧ proofMem wideTy wideVal 3 = 2 ^ 45 := by
  obtain ⟨h1, h2, h3, h4, h5⟩ := wideTy_ok
  refine ⟨(C89_root E wideTy wideVal h1 h2 h4 h5).trans ?_, ?_⟩ <;> decide +kernel

/-- The hypotheses of `C89_room` and `C89_list` hold of it. -/
example (E : Env) : ∃ p, computeProof E (wideTy.impl E) wideVal (Prover.ofIndex 3) = .ok p ∧
    128 * 2 ^ 38 ≤ (wideTy.computeProofP E wideVal (Prover.ofIndex 3)).1 := by
  obtain ⟨h1, h2, h3, h4, h5⟩ := wideTy_ok
  have h : ∃ p, computeProof E (wideTy.impl E) wideVal (Prover.ofIndex 3) = .ok p := by
    rw [C57_exact_partial E wideTy wideVal 3 h1 h2 h3 h4 h5 (by decide), answer, Layer.answer,
      if_neg (by decide), if_pos (by decide +kernel), if_pos (by decide +kernel)]
    exact ⟨_, rfl⟩
  obtain ⟨p, hp⟩ := h
  exact ⟨p, hp, (C89_list E (.uint .u64) (2 ^ 40) wideVal 3 p h1 h2 h3 h4 h5 (by decide) hp).1⟩

/-- Three chunks with a limit of `2^40`: 96 bytes. -/
example (E : Env) (a b c : Node) : (merkleizeP E (flat [a, b, c]) (some (2 ^ 40))).1 = 96 := by
  have h := (C89_merkleize E (flat [a, b, c]) (some (2 ^ 40))).2 (flat_mod _) _
    (merkleize_some_ok E [a, b, c] (show 3 ≤ 2 ^ 40 by decide) (by decide))
  rw [h, flat_length]
  rfl

end Ssz
