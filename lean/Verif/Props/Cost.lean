import Verif.Proofs.Cost
import Verif.Proofs.TreeBuild

/-!
# C76: merkleization works on the data, not on the limit

`Verif.Model.Cost` has the functions of merkleization with two counters: calls of the hash function
and loop iterations.
-/

namespace Ssz

open Spec Counted

/-- C76: the functions with counters return what those without return, for every input. -/
theorem C76_same (E : Env) (t : Ty) (v : t.Val) :
    (t.rootC E v).2 = (t.impl E).hashTreeRoot v ∧
    (∀ chunks limit, (merkleizeC E chunks limit).2 = merkleize E chunks limit) ∧
    (∀ chunks n, (computeMerkleTreeC E chunks n).2 = computeMerkleTree E chunks n) :=
  ⟨rootC_res E t v, merkleizeC_res E, computeMerkleTreeC_res E⟩

/-- C76: `merkleize` calls the hash function once for each inner node that has a chunk of the data below
it, and for no other. -/
theorem C76_exact (E : Env) (ns : List Node) :
    (ns.length ≤ 2 ^ 63 →
      (merkleizeC E (flat ns) none).1.hashes = above (depthFor ns.length) ns.length) ∧
    (∀ l, ns.length ≤ l → l ≤ 2 ^ 63 →
      (merkleizeC E (flat ns) (some l)).1.hashes = above (depthFor l) ns.length) :=
  ⟨merkleizeC_none_hashes E ns, fun _ => merkleizeC_some_hashes E ns⟩

theorem above_deeper {d n : Nat} (k : Nat) (h0 : 0 < n) (h : n ≤ 2 ^ d) :
    above (d + k) n = above d n + k := by
  induction k with
  | zero => rfl
  | succ k ih =>
    have h1 : n ≤ 2 ^ (d + k) := Nat.le_trans h (Nat.pow_le_pow_right (by decide) (by omega))
    rw [← Nat.add_assoc, above, if_neg (by omega), Nat.min_eq_left h1, ih,
      Nat.sub_eq_zero_of_le h1, above_zero]
    omega

/-- C76: a limit costs one call for each level that it adds to the tree, and nothing if there is no
data. -/
theorem C76_limit (E : Env) (ns : List Node) (l : Nat) (h : ns.length ≤ l) (hl : l ≤ 2 ^ 63) :
    (merkleizeC E (flat ns) (some l)).1.hashes =
      if ns = [] then 0
      else (merkleizeC E (flat ns) none).1.hashes + (depthFor l - depthFor ns.length) := by
  rw [merkleizeC_some_hashes E ns h hl, merkleizeC_none_hashes E ns (Nat.le_trans h hl)]
  split
  · rename_i h0
    rw [h0]
    exact above_zero _
  · rename_i h0
    have h1 := depthFor_mono h
    conv_lhs => rw [show depthFor l = depthFor ns.length + (depthFor l - depthFor ns.length) by omega]
    exact above_deeper _ (List.length_pos_iff.2 h0) (le_pow_depthFor _)

/-- C76: `merkleize` with any limit, also where it fails or panics: at most 63 calls and 191 loop
iterations more than there are chunks. -/
theorem C76_merkleize (E : Env) (chunks : Bytes) (limit : Option Nat) :
    (merkleizeC E chunks limit).1.hashes ≤ chunks.length / 32 + 63 ∧
    (merkleizeC E chunks limit).1.steps ≤ chunks.length / 32 + 191 :=
  merkleizeC_within E chunks limit

/-- C76: `hash_tree_root` of a value, whatever the bounds in its type: at most 65 calls of the hash
function and 194 iterations for each value inside. -/
theorem C76_root (E : Env) (t : Ty) (v : t.Val) (hl : Legal t) (hb : Bounded t) :
    (t.rootC E v).1.hashes < 65 * values t v ∧ (t.rootC E v).1.steps < 194 * values t v := by
  have h := rootC_within E t v hl hb
  have h1 := values_pos t v
  obtain ⟨h2, h3⟩ := h
  omega

/-- C76: so hashing what was decoded from `b` takes a number of calls that depends on the length of `b`
and the number of types in the type, not on the bounds in it. -/
theorem C76_decoded (E : Env) (t : Ty) (b : Bytes) (v : t.Val) (hl : Legal t) (hf : Fits t)
    (hb : Bounded t) (hlen : b.length < 2 ^ 63)
    (h : deserialize (t.impl E).toSerializable b = .ok v) :
    (t.rootC E v).1.hashes < 65 * (typeSize t * max 1 b.length) ∧
    (t.rootC E v).1.steps < 194 * (typeSize t * max 1 b.length) := by
  have h1 := C76_root E t v hl hb
  have h2 : dataBytes t v ≤ b.length := by
    obtain ⟨h3, h4, _⟩ := de_sound E t b v hl hf hlen h
    exact Nat.le_trans (dataBytes_le t v hl h3 h4)
      (accepts_enc_length t b v ((de_iff E t b v hl hf hlen).1 h))
  have h3 : typeSize t * max 1 (dataBytes t v) ≤ typeSize t * max 1 b.length :=
    Nat.mul_le_mul_left _ (by omega)
  have h4 := values_le t v
  omega

/-- By contrast, in the trees that the prover builds `compute_merkle_tree` calls the hash function for
every inner node, whatever the chunks are. -/
theorem C76_prover (E : Env) (chunks : Bytes) (n : Nat) (tree : Tree) (h0 : 0 < n)
    (hn : n < 2 ^ 63) (h : computeMerkleTree E chunks n = .ok tree) :
    (computeMerkleTreeC E chunks n).1.hashes = n - 1 :=
  computeMerkleTreeC_hashes h0 hn h

/-! ## Examples -/

/-- Three chunks with a limit of `2^40`: 3 calls for the data, 38 for the other levels. -/
example (E : Env) (a b c : Node) :
    (merkleizeC E (flat [a, b, c]) (some (2 ^ 40))).1.hashes = 41 ∧
    (merkleizeC E (flat [a, b, c]) none).1.hashes = 3 := by
  have h := C76_exact E [a, b, c]
  refine ⟨(h.2 (2 ^ 40) (show 3 ≤ 2 ^ 40 by decide) (by decide)).trans ?_, (h.1 (show 3 ≤ 2 ^ 63 by decide)).trans ?_⟩
  · rw [show depthFor (2 ^ 40) = 40 by decide +kernel]; exact (by decide +kernel : above 40 3 = 41)
  · rw [show depthFor [a, b, c].length = 2 from (by decide +kernel : depthFor 3 = 2)]; exact (by decide +kernel : above 2 3 = 3)

/-- Depth 4, five leaves: 3 + 2 + 1 + 1 inner nodes above them. -/
example : above 4 5 = 7 ∧ above 4 16 = 15 ∧ above 4 0 = 0 ∧ above 40 1 = 40 := by decide +kernel

/-- `List<List<u64, 2^40>, 2^40>` -/
def hugeTy : Ty := .list (.list (.uint .u64) (2 ^ 40)) (2 ^ 40)

/-- Two lists, one empty. -/
def hugeVal : hugeTy.Val := show List (List (BitVec 64)) from [[1, 2], []]

example : Legal hugeTy ∧ Bounded hugeTy ∧ Fits hugeTy ∧ typeSize hugeTy = 3 ∧
    values hugeTy hugeVal = 5 :=
  ⟨trivial, by simp [hugeTy, Bounded, packs, fixedLen, UintTy.bits], trivial, rfl, rfl⟩

/-- What the root of this value costs, by the counters. -/
example : (hugeTy.rootC ⟨true, fun _ => zeroNode⟩ hugeVal).1.hashes = 81 := by decide +kernel

/-- The tree of the prover for an empty list of the type `List<Node, 1024>`: 1023 calls. -/
example (E : Env) : (computeMerkleTreeC E [] 1024).1.hashes = 1023 := by
  obtain ⟨ns, h, -⟩ := computeMerkleTree_ok E (d := 10) (ts := []) (by decide) (by decide)
  exact C76_prover E [] 1024 _ (by decide) (by decide) h

end Ssz
