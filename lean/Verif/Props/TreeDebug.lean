import Verif.Model.TreeDebug
import Verif.Proofs.TreeBuild

/-!
# Property C63: the `Debug` text of Merkle trees
-/

namespace Ssz

theorem hexPairs_length : ∀ (cs : List Char) (b : Bytes), Serde.hexPairs cs = some b →
    2 * b.length = cs.length
  | [], b, h => by
    simp only [Serde.hexPairs, Option.some.injEq] at h
    subst h
    rfl
  | [_], _, h => by simp [Serde.hexPairs] at h
  | a :: c :: rest, b, h => by
    simp only [Serde.hexPairs] at h
    split at h
    · rename_i h'
      simp only [Option.some.injEq] at h
      subst h
      have := hexPairs_length rest _ h'
      simp only [List.length_cons]
      omega
    · cases h

theorem stripPrefix_length (cs : List Char) : (Serde.stripPrefix cs).length ≤ cs.length := by
  unfold Serde.stripPrefix
  split
  · simp only [List.length_cons]; omega
  · exact Nat.le_refl _

/-- 32 bytes are too short to be the text of a node. -/
theorem fromHex_chunk (b : Bytes) (h : b.length ≤ 32) : Node.fromHex b = none := by
  unfold Node.fromHex
  split
  · rename_i bytes hb
    have h1 := hexPairs_length _ _ hb
    have h2 := stripPrefix_length (b.map fun b => Char.ofNat b.toNat)
    rw [List.length_map] at h2
    rw [dif_neg (by omega)]
  · rfl

/-- The nodes of any buffer that is not empty cannot be listed. -/
theorem debugEntries_panic (tree : Tree) (h : tree ≠ []) : Tree.debugEntries tree = .panic := by
  unfold Tree.debugEntries Tree.nodes
  rw [byteChunks, dif_neg (by simpa using h), List.map_cons,
    fromHex_chunk _ (by rw [List.length_take]; omega)]
  rfl

theorem copyInto_length {ε : Type} {b b' src : Bytes} {s e : Nat}
    (h : (copyInto b s e src : Res ε Bytes) = .ok b') : b'.length = b.length := by
  unfold copyInto at h
  split at h
  · rename_i hc
    injection h with h
    subst h
    simp only [List.length_append, List.length_take, List.length_drop]
    omega
  · cases h

theorem treeLoop_length (E : Env) : ∀ (i : Nat) (b b' : Bytes), treeLoop E i b = .ok b' →
    b'.length = b.length
  | 0, b, b', h => by
    rw [treeLoop] at h
    injection h with h
    rw [h]
  | i + 1, b, b', h => by
    rw [treeLoop] at h
    obtain ⟨_, _, h⟩ := Res.bind_eq_ok.mp h
    obtain ⟨_, _, h⟩ := Res.bind_eq_ok.mp h
    obtain ⟨_, _, h⟩ := Res.bind_eq_ok.mp h
    obtain ⟨b1, h1, h⟩ := Res.bind_eq_ok.mp h
    rw [treeLoop_length E (i - 1) b1 b' h, copyInto_length h1]
termination_by i => i

theorem mul_mod {E : Env} {a b c : Nat} (h : E.mul a b = .ok c) : c = a * b % 2 ^ 64 := by
  unfold Env.mul at h
  split at h
  · rename_i hc
    injection h with h
    rw [← h]
    exact (Nat.mod_eq_of_lt hc).symm
  · split at h
    · cases h
    · injection h with h
      exact h.symm

theorem sub_mod {E : Env} {a b c : Nat} (h : E.sub a b = .ok c) : c = a - b ∧ b ≤ a ∨ c = a + 2 ^ 64 - b := by
  unfold Env.sub at h
  split at h
  · rename_i hc
    injection h with h
    exact .inl ⟨h.symm, hc⟩
  · split at h
    · cases h
    · injection h with h
      exact .inr h.symm

/-- C63 is false: for every tree the library builds, `Debug` panics, as it takes the 32 bytes of each
node for the hexadecimal text of a node. -/
theorem C63_tree_debug_refuted (E : Env) (chunks : Bytes) (leafCount : Nat) (tree : Tree)
    (h : computeMerkleTree E chunks leafCount = .ok tree) : Tree.debugEntries tree = .panic := by
  refine debugEntries_panic tree fun h0 => ?_
  subst h0
  have h : (do
      let twice ← (E.mul 2 leafCount).lift
      let nodeCount ← (E.sub twice 1).lift
      let interiorCount ← (E.sub nodeCount leafCount).lift
      let leafStart ← (E.mul interiorCount 32).lift
      let size ← (E.mul nodeCount 32).lift
      let buffer ← zeros size
      let stop ← (E.add leafStart chunks.length).lift
      let buffer' ← copyInto buffer leafStart stop chunks
      treeLoop E (nodeCount - 1) buffer' : Res MerkError Tree) = .ok [] := by
    unfold computeMerkleTree at h
    obtain ⟨_, _, h⟩ := Res.bind_eq_ok.mp h
    simp only at h
    split at h
    · obtain ⟨_, _, h⟩ := Res.bind_eq_ok.mp h
      exact h
    · exact h
  obtain ⟨twice, h1, h⟩ := Res.bind_eq_ok.mp h
  obtain ⟨nodeCount, h2, h⟩ := Res.bind_eq_ok.mp h
  obtain ⟨_, _, h⟩ := Res.bind_eq_ok.mp h
  obtain ⟨_, _, h⟩ := Res.bind_eq_ok.mp h
  obtain ⟨size, h3, h⟩ := Res.bind_eq_ok.mp h
  obtain ⟨buffer, h4, h⟩ := Res.bind_eq_ok.mp h
  obtain ⟨_, _, h⟩ := Res.bind_eq_ok.mp h
  obtain ⟨buffer', h5, h⟩ := Res.bind_eq_ok.mp h
  have hl := treeLoop_length E _ _ _ h
  rw [copyInto_length h5] at hl
  have hs : buffer.length = size := by
    unfold zeros at h4
    split at h4
    · injection h4 with h4
      rw [← h4, List.length_replicate]
    · cases h4
  have hz : size = 0 := by rw [← hs]; exact hl.symm
  subst hz
  rw [Res.lift_eq_ok] at h1 h2 h3
  -- The number of nodes is odd, so `32` times it is not a multiple of `2^64`.
  have e1 := mul_mod h1
  have e2 := sub_mod h2
  have e3 := mul_mod h3
  omega

/-- A tree with two leaves. -/
example (E : Env) : ∃ tree, computeMerkleTree E (flat [zeroNode, zeroNode]) 2 = .ok tree := by
  obtain ⟨ns, h, _⟩ := computeMerkleTree_ok E (d := 1) (ts := [.leaf zeroNode, .leaf zeroNode])
    (by decide) (by decide)
  exact ⟨_, h⟩

/-- The text of a node is read: `0x` and 64 zeros. -/
example : Node.fromHex (48 :: 120 :: List.replicate 64 48) = some zeroNode := by decide +kernel

end Ssz
