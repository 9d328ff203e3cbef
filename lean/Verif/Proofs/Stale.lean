import Verif.Proofs.Binding

/-!
# Bitlists with stale bits in their storage
-/

namespace Ssz

open Spec

theorem Bits.rawSlice_eq (b : Bits) : b.rawSlice = Spec.packBits (b.live ++ b.dead) := chunks8_map _

/-- Setting the bit behind the first bits of a byte. -/
theorem byteOfBits_set_true (l : List Bool) (d : Bool) (ds : List Bool) :
    byteOfBits (l ++ d :: ds) ||| (1 : Byte) <<< l.length = byteOfBits (l ++ true :: ds) := by
  apply BitVec.eq_of_getLsbD_eq
  intro i hi
  rw [BitVec.getLsbD_or, byteOfBits_getLsbD _ _ hi, byteOfBits_getLsbD _ _ hi,
    BitVec.getLsbD_shiftLeft]
  have h1 : (1 : Byte).getLsbD (i - l.length) = decide (i - l.length = 0) := by
    have := BitVec.getLsbD_one (w := 8) (i := i - l.length)
    simp
  rw [h1]
  rcases Nat.lt_trichotomy i l.length with h2 | h2 | h2
  · simp [List.getD, List.getElem?_append_left h2, h2]
  · subst h2; simp [List.getD, hi]
  · simp only [List.getD]
    obtain ⟨k, rfl⟩ : ∃ k, i = l.length + (k + 1) := ⟨i - l.length - 1, by omega⟩
    simp [List.getElem?_append_right]

/-- The encoding of a `Bitlist`, whatever its unused bits: the delimiting bit overwrites the first
of them, the others follow. -/
theorem Bitlist.serialize_exact {n : Nat} {v : Bits} (h : v.live.length ≤ n) (hw : v.WF)
    (buf : Bytes) :
    Bitlist.serializeWithLength n v true buf =
      (buf ++ Spec.packBits (v.live ++ true :: v.dead.tail),
        .ok (Spec.packBits (v.live ++ true :: v.dead.tail)).length) := by
  have h1 : ¬ v.len > n := by simp only [Bits.len]; omega
  simp only [Bitlist.serializeWithLength, h1, if_false, if_true, Bits.rawSlice_eq]
  rw [Bits.WF] at hw
  obtain ⟨live, dead⟩ := v
  have hlen : (⟨live, dead⟩ : Bits).len = live.length := rfl
  rw [hlen]
  simp only at h hw ⊢
  by_cases hm : live.length % 8 = 0
  · have hd : dead = [] := List.eq_nil_of_length_eq_zero (by omega)
    subst hd
    rw [if_pos hm, List.append_nil, List.tail_nil, packBits_append8 _ _ hm]
    have : Spec.packBits [true] = [1] := by decide
    rw [this]
    simp
  · rw [if_neg hm]
    cases dead with
    | nil =>
      rw [List.length_nil] at hw
      omega
    | cons d ds =>
      rw [List.length_cons] at hw
      have e : live = live.take (live.length / 8 * 8) ++ live.drop (live.length / 8 * 8) := by
        rw [List.take_append_drop]
      have hl8 : (live.drop (live.length / 8 * 8)).length = live.length % 8 := by
        simp; omega
      have key : ∀ x : Bool, Spec.packBits (live ++ x :: ds) =
          Spec.packBits (live.take (live.length / 8 * 8)) ++
            [byteOfBits (live.drop (live.length / 8 * 8) ++ x :: ds)] := by
        intro x
        conv => lhs; rw [e, List.append_assoc]
        rw [packBits_append8 _ _ (by simp; omega), packBits_single
          (live.drop (live.length / 8 * 8) ++ x :: ds) (by simp)
          (by rw [List.length_append, List.length_cons]; omega)]
      rw [List.tail_cons, key, key, ← List.append_assoc, orLast_concat, ← hl8, byteOfBits_set_true]
      simp

/-- The stale bits behind the delimiting bit are visible. -/
theorem stale_encoding_iff {v : Bits} (hw : v.WF) :
    Spec.packBits (v.live ++ true :: v.dead.tail) = Spec.packBits (v.live ++ [true]) ↔
      ∀ x ∈ v.dead.tail, x = false := by
  rw [Bits.WF] at hw
  by_cases hd : v.dead = []
  · rw [hd]
    simp
  have hd0 : 0 < v.dead.length := List.length_pos_iff.2 hd
  have hl : (v.live ++ [true] ++ padBits (v.live ++ [true]).length).length =
      (v.live ++ true :: v.dead.tail).length := by
    simp only [padBits, List.length_append, List.length_cons, List.length_nil,
      List.length_replicate, List.length_tail]
    omega
  have hp := packBits_append_pad (v.live ++ [true])
  constructor
  · intro h
    rw [← hp] at h
    have := packBits_inj hl.symm h
    rw [List.append_assoc, List.append_cancel_left_eq, List.singleton_append, List.cons.injEq] at this
    rw [this.2]
    intro x hx
    exact (List.mem_replicate.1 hx).2
  · intro h
    have ht : v.dead.tail = padBits (v.live ++ [true]).length := by
      refine List.eq_replicate_iff.2 ⟨?_, h⟩
      simp only [padBits, List.length_append, List.length_cons, List.length_nil,
        List.length_replicate] at hl ⊢
      omega
    rw [← hp, List.append_assoc, List.singleton_append, ht]

theorem Bitlist.packBits_exact {n : Nat} {v : Bits} (h : v.live.length ≤ n) :
    Bitlist.packBits n v = .ok (flat (chunkify (Spec.packBits (v.live ++ v.dead)))) := by
  have h1 : ¬ v.len > n := by simp only [Bits.len]; omega
  simp only [Bitlist.packBits, Bitlist.serializeWithLength, h1, if_false, Bool.false_eq_true,
    Bits.rawSlice_eq, List.nil_append, packBytes_eq]

/-- The Merkle tree that is hashed for a `Bitlist`: its leaves hold the unused bits, too. -/
def storedTree (n : Nat) (v : Bits) : MTree :=
  .node (full (depthFor ((n + 255) / 256)) (leaves (Spec.packBits (v.live ++ v.dead))))
    (numLeaf v.live.length)

theorem bitlist_root_exact (E : Env) {n : Nat} {v : Bits} (hn : n < 2 ^ 64) (h : v.live.length ≤ n)
    (hw : v.WF) :
    ((Ty.bitlist n).impl E).hashTreeRoot v = .ok ((storedTree n v).root E.sha256) := by
  show (Bitlist.packBits n v >>= fun chunks => merkleize E chunks (some (bitsChunkCount n)) >>=
    fun dataRoot => mixInDecoration E dataRoot v.len) = _
  rw [Bits.WF] at hw
  rw [Bitlist.packBits_exact h, Res.ok_bind, merkleize_some_ok _ _
    (by rw [chunkify_bits_length, bitsChunkCount, List.length_append]; omega)
    (by unfold bitsChunkCount; omega),
    Res.ok_bind, mixInDecoration_ok E (by simp only [Bits.len]; omega)]
  rw [← leaves_root E.sha256, full_root_eq]
  rfl

/-- Bitlists with the same bits and the same root have the same unused bits, or there is a
collision. -/
theorem storedTree_bind {H : Bytes → Node} {n : Nat} {v w : Bits} (hv : v.WF) (hw : w.WF)
    (hn : v.live.length ≤ n) (hl : v.live = w.live)
    (h : (storedTree n v).root H = (storedTree n w).root H) :
    v = w ∨ Collide H (storedTree n v) (storedTree n w) := by
  obtain ⟨live, dead⟩ := v
  obtain ⟨live', dead'⟩ := w
  simp only at hl
  subst hl
  simp only [Bits.WF] at hv hw
  have hlen : (live ++ dead).length = (live ++ dead').length := by
    rw [List.length_append, List.length_append, hv, hw]
  rcases node_bind h with ⟨h1, _⟩ | c
  · rcases full_bind (by
      rw [leaves_length, leaves_length, packBits_length, packBits_length]
      exact congrArg (fun k => ((k + 7) / 8 + 31) / 32) hlen)
      (by
        have := le_pow_depthFor ((n + 255) / 256)
        rw [leaves_length, packBits_length, List.length_append]
        simp only at hn ⊢
        omega) h1 with e | c
    · left
      rw [leaves_root, leaves_root] at e
      have := packBits_inj hlen (chunkify_inj (by
        rw [packBits_length, packBits_length]
        exact congrArg (fun k => (k + 7) / 8) hlen) e)
      rw [List.append_cancel_left_eq] at this
      rw [show dead = dead' from this]
    · exact Or.inr (collide_mono c inputs_left inputs_left)
  · exact Or.inr c

end Ssz
