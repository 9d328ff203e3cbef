import Verif.Proofs.Root

/-!
# `hash_tree_root` does not panic
-/

namespace Ssz

open Spec

/-- An error, or a sequence of `k` nodes. -/
def Chunky (r : Res MerkError Bytes) (k : Nat) : Prop :=
  (∃ ns : List Node, ns.length = k ∧ r = .ok (flat ns)) ∨ ∃ e, r = .err e

theorem chunky_ok (ns : List Node) : Chunky (.ok (flat ns)) ns.length := .inl ⟨ns, rfl, rfl⟩

theorem ok_or_err {ε α : Type} {x : Res ε α} (h : x ≠ .panic) : (∃ a, x = .ok a) ∨ ∃ e, x = .err e := by
  cases x with
  | ok a => exact .inl ⟨a, rfl⟩
  | err e => exact .inr ⟨e, rfl⟩
  | panic => exact absurd rfl h

theorem elementsLoop_chunky {α : Type} {f : α → Res MerkError Node} (xs : List α) (ns : List Node)
    (i : Nat) (hi : i + xs.length = ns.length) (h : ∀ x ∈ xs, f x ≠ .panic) :
    Chunky (elementsToChunksLoop f i xs (flat ns)) ns.length := by
  induction xs generalizing i ns with
  | nil => exact chunky_ok ns
  | cons x xs ih =>
    rw [List.length_cons] at hi
    rcases ok_or_err (h x (by simp)) with ⟨c, hc⟩ | ⟨e, he⟩
    · rw [elementsToChunksLoop, hc, Res.ok_bind,
        copyInto_flat (ns := ns) (i := i) c (by omega) rfl rfl rfl, Res.ok_bind]
      have := ih (ns.set i c) (i + 1) (by rw [List.length_set]; omega)
        (fun y hy => h y (by simp [hy]))
      rwa [List.length_set] at this
    · rw [elementsToChunksLoop, he]
      exact .inr ⟨e, rfl⟩

theorem assembleChunks_chunky (E : Env) {t : Ty} {vs : List t.Val} (hl : Legal t)
    (hs : packs t = true → fixedLen t < 2 ^ 32) (hh : held t vs.length)
    (hr : ∀ v ∈ vs, (t.impl E).hashTreeRoot v ≠ .panic) :
    Chunky (assembleChunks E (t.impl E) vs) (chunkCountBy packs t vs.length) := by
  unfold assembleChunks
  rw [impl_isComposite]
  by_cases hp : packs t = true
  · have hv : ∀ v ∈ vs, Valid t v := fun v _ => packs_valid v hp
    have h1 := packLoop_ok vs [] (fun v hx => packs_serialize E hp hl (hs hp) (hv v hx))
    rw [hp]
    simp only [Bool.not_true, Bool.false_eq_true, if_false, pack, h1, Res.map_ok, List.nil_append,
      packBytes_eq]
    have := chunky_ok (chunkify (vs.flatMap (enc t)))
    rw [chunkify_length, flatMap_enc_length hp hv] at this
    rwa [chunkCountBy, if_pos hp]
  · have hp : packs t = false := by simpa using hp
    rw [hp]
    simp only [Bool.not_false, if_true, elementsToChunks]
    have h0 := hh.1
    have h1 : vs.length * 32 < usizeMod := by simp only [usizeMod]; omega
    have h2 : vs.length * 32 < isizeMax1 := by simp only [isizeMax1]; omega
    rw [Env.mul_eq_ok h1, Res.lift_ok, Res.ok_bind, zeros, if_pos h2, Res.ok_bind, ← flat_replicate]
    have := elementsLoop_chunky vs (List.replicate vs.length zeroNode) 0 (by simp) hr
    rw [List.length_replicate] at this
    rwa [chunkCountBy, if_neg (by simp [hp])]

theorem merkleize_none_np (E : Env) {r : Res MerkError Bytes} {k : Nat} (h : Chunky r k)
    (hk : k ≤ 2 ^ 63) : (r >>= fun c => merkleize E c none) ≠ .panic := by
  rcases h with ⟨ns, hn, rfl⟩ | ⟨e, rfl⟩
  · rw [Res.ok_bind, merkleize_none_ok _ _ (by omega)]
    simp
  · simp

theorem merkleize_some_np (E : Env) (ns : List Node) {l : Nat} (hk : ns.length ≤ 2 ^ 63)
    (hl : l ≤ 2 ^ 63) : merkleize E (flat ns) (some l) ≠ .panic := by
  by_cases h : ns.length ≤ l
  · rw [merkleize_some_ok _ _ h hl]; simp
  · rw [merkleize_exceeds _ _ (by omega) hk]; simp

theorem mixIn_np (E : Env) {n : Nat} (h : n < 2 ^ 64) (r : Node) :
    mixInDecoration E r n ≠ .panic := by
  rw [mixInDecoration_ok E h]; simp

theorem bind_np {ε α β : Type} {x : Res ε α} {f : α → Res ε β} (h : x ≠ .panic)
    (hf : ∀ a, x = .ok a → f a ≠ .panic) : (x >>= f) ≠ .panic := by
  rw [Ne, Res.bind_eq_panic]
  rintro (h' | ⟨a, h1, h2⟩)
  · exact h h'
  · exact hf a h1 h2

theorem list_htr_np (E : Env) {t : Ty} {n : Nat} {vs : List t.Val} (hl : Legal t)
    (hs : packs t = true → fixedLen t < 2 ^ 32)
    (hb : if packs t then n * fixedLen t < 2 ^ 64 else n ≤ 2 ^ 63) (hh : held t vs.length)
    (hr : ∀ v ∈ vs, (t.impl E).hashTreeRoot v ≠ .panic) :
    (SimpleSerialize.list E (t.impl E) n).hashTreeRoot vs ≠ .panic := by
  have hc := assembleChunks_chunky E hl hs hh hr
  have hk := held_chunks hh
  have h0 := hh.1
  simp only [SimpleSerialize.list, impl_isComposite]
  rcases hc with ⟨ns, hn, hc⟩ | ⟨e, hc⟩
  · rw [hc, Res.ok_bind]
    by_cases hp : packs t = true
    · rw [if_pos hp] at hb
      simp only [hp, Bool.not_true, Bool.false_eq_true, if_false,
        listChunkCount_ok E hl hp (hs hp) hb, Res.lift_ok, Res.ok_bind]
      refine bind_np (merkleize_some_np E ns (by omega) ?_) fun _ _ => mixIn_np E (by omega) _
      rw [chunkCountBy, if_pos hp]; omega
    · have hp : packs t = false := by simpa using hp
      rw [hp] at hb
      simp only [hp, Bool.not_false, if_true]
      exact bind_np (merkleize_some_np E ns (by omega) (by simpa using hb)) fun _ _ =>
        mixIn_np E (by omega) _
  · rw [hc]; simp

theorem container_htr_np (E : Env) {fs : Fields} {v : fs.Val} (hc : countF fs ≤ 2 ^ 58)
    (h : ∀ i ns, i + countF fs = ns.length →
      Chunky ((fs.impls E).assembleLoop v i (flat ns)) ns.length) :
    (SimpleSerialize.container E (fs.impls E)).hashTreeRoot v ≠ .panic := by
  show ((fs.impls E).assembleChunks v >>= fun chunks => merkleize E chunks none) ≠ _
  have := h 0 (List.replicate (countF fs) zeroNode) (by simp)
  rw [List.length_replicate, flat_replicate] at this
  unfold FieldImpls.assembleChunks
  rw [count_impls]
  exact merkleize_none_np E this (by omega)

theorem bitlist_len_le {n : Nat} {v : Bits} {b : Bytes} (h : Bitlist.packBits n v = .ok b) :
    v.live.length ≤ n ∧ b = packBytes v.rawSlice := by
  simp only [Bitlist.packBits, Bitlist.serializeWithLength] at h
  by_cases hn : v.len > n
  · simp [hn] at h
  · simp only [hn, if_false, Bool.false_eq_true, List.nil_append, Res.ok.injEq] at h
    exact ⟨by simpa [Bits.len] using hn, h.symm⟩

theorem rawSlice_length (v : Bits) : v.rawSlice.length = (v.live.length + v.dead.length + 7) / 8 := by
  rw [Bits.rawSlice, chunks8_map, packBits_length, List.length_append]

theorem bitvector_htr_np (E : Env) {n : Nat} {v : Bits} (hl : 0 < n) (hb : n < 2 ^ 64)
    (hm : v.live.length < 2 ^ 64) : (SimpleSerialize.bitvector E n).hashTreeRoot v ≠ .panic := by
  show (Bitvector.packBits n v >>= fun chunks => merkleize E chunks (some (bitsChunkCount n))) ≠ _
  have h : Bitvector.packBits n v = .ok (flat (chunkify (Spec.packBits v.live))) := by
    have h1 : Bitvector.serialize n v [] =
        ((chunks8 v.live).map byteOfBits, .ok (bitvectorByteLength n)) := by
      rw [Bitvector.serialize, if_neg (by omega)]
      rfl
    simp only [Bitvector.packBits, h1, ← packBytes_eq, chunks8_map]
  rw [h, Res.ok_bind]
  exact merkleize_some_np E _ (by rw [chunkify_bits_length]; omega)
    (by unfold bitsChunkCount; omega)

theorem bitlist_htr_np (E : Env) {n : Nat} {v : Bits} (hb : n < 2 ^ 64)
    (hm : v.live.length < 2 ^ 64) (hs : v.dead.length = (padBits v.live.length).length) :
    (SimpleSerialize.bitlist E n).hashTreeRoot v ≠ .panic := by
  show (Bitlist.packBits n v >>= fun chunks => merkleize E chunks (some (bitsChunkCount n)) >>=
    fun dataRoot => mixInDecoration E dataRoot v.len) ≠ _
  refine bind_np ?_ fun b h => ?_
  · simp only [Bitlist.packBits, Bitlist.serializeWithLength]
    by_cases hn : v.len > n <;> simp [hn]
  · obtain ⟨_, rfl⟩ := bitlist_len_le h
    rw [packBytes_eq]
    refine bind_np (merkleize_some_np E _ ?_ (by unfold bitsChunkCount; omega))
      fun _ _ => mixIn_np E hm _
    rw [chunkify_length, rawSlice_length, hs, padBits, List.length_replicate]
    omega

mutual

theorem htr_np (E : Env) : ∀ (t : Ty) (v : t.Val), Legal t → Bounded t → InMemory t v → Stored t v →
    (t.impl E).hashTreeRoot v ≠ .panic
  | .uint u, v, _, _, _, _ => by
    rw [htr_ok E (.uint u) v trivial trivial trivial trivial]; simp
  | .u256, v, _, _, _, _ => by
    rw [htr_ok E .u256 v trivial trivial trivial trivial]; simp
  | .bool, v, _, _, _, _ => by
    rw [htr_ok E .bool v trivial trivial trivial trivial]; simp
  | .node, v, _, _, _, _ => by
    rw [htr_ok E .node v trivial trivial trivial trivial]; simp
  | .array t n, v, hl, hb, hm, hs => by
    have := held_chunks hm.1
    exact merkleize_none_np E (assembleChunks_chunky E hl.2 hb.2 hm.1
      fun x hx => htr_np E t x hl.2 hb.1 (hm.2 x hx) (hs x hx)) (by omega)
  | .vector t n, v, hl, hb, hm, hs => by
    have := held_chunks hm.1
    exact merkleize_none_np E (assembleChunks_chunky E hl.2 hb.2 hm.1
      fun x hx => htr_np E t x hl.2 hb.1 (hm.2 x hx) (hs x hx)) (by omega)
  | .list t n, v, hl, hb, hm, hs =>
    list_htr_np E hl hb.2.1 hb.2.2 hm.1 fun x hx => htr_np E t x hl hb.1 (hm.2 x hx) (hs x hx)
  | .bitvector _, _, hl, hb, hm, _ => bitvector_htr_np E hl hb hm
  | .bitlist _, _, _, hb, hm, hs => bitlist_htr_np E hb hm hs
  | .option t, v, hl, hb, hm, hs => by
    match v with
    | none =>
      show (toNode (List.replicate 32 0) >>= fun chunks => mixInDecoration E chunks 0) ≠ _
      rw [show List.replicate 32 (0 : Byte) = zeroNode.1 by rfl, toNode_node, Res.ok_bind]
      exact mixIn_np E (by decide) _
    | some x =>
      show (((t.impl E).hashTreeRoot x).map (·.1) >>= fun bytes => toNode bytes >>= fun chunks =>
        mixInDecoration E chunks 1) ≠ _
      rcases ok_or_err (htr_np E t x hl hb (hm x rfl) (hs x rfl)) with ⟨c, hc⟩ | ⟨e, he⟩
      · rw [hc, Res.map_ok, Res.ok_bind, toNode_node, Res.ok_bind]
        exact mixIn_np E (by decide) _
      · rw [he]; simp
  | .newtype t, v, hl, hb, hm, hs => by
    show ((t.impl E).hashTreeRoot v >>= fun chunk =>
      copyInto (List.replicate (1 * 32) 0) (0 * 32) ((0 + 1) * 32) chunk.1 >>= fun chunks =>
      merkleize E chunks none) ≠ _
    refine bind_np (htr_np E t v hl hb hm hs) fun c _ => ?_
    rw [← flat_replicate, copyInto_flat (ns := List.replicate 1 zeroNode) (i := 0) c
        (by simp) rfl rfl rfl]
    exact merkleize_none_np E (chunky_ok _) (by simp)
  | .container fs, v, hl, hb, hm, hs =>
    container_htr_np E hb.2 fun i ns hi => htrF_np E fs v i ns hl.2.2 hb.1 hm hs hi
  | .union vs, v, hl, hb, hm, hs =>
    htrV_np E vs 0 v hl.2 hb hm hs (by
        obtain ⟨hs, -⟩ := hl
        cases vs with
        | nil => exact hs.elim
        | unit rest => obtain ⟨_, _, h⟩ := hs; simp only [countV]; omega
        | data t rest => obtain ⟨_, h⟩ := hs; simp only [countV]; omega)

theorem htrF_np (E : Env) : ∀ (fs : Fields) (v : fs.Val) (i : Nat) (ns : List Node), LegalF fs →
    BoundedF fs → InMemoryF fs v → StoredF fs v → i + countF fs = ns.length →
    Chunky ((fs.impls E).assembleLoop v i (flat ns)) ns.length
  | .nil, _, _, ns, _, _, _, _, _ => chunky_ok ns
  | .cons name t rest, v, i, ns, hl, hb, hm, hs, hi => by
    show Chunky ((t.impl E).hashTreeRoot v.1 >>= fun chunk =>
      copyInto (flat ns) (i * 32) ((i + 1) * 32) chunk.1 >>= fun chunks' =>
      (rest.impls E).assembleLoop v.2 (i + 1) chunks') _
    simp only [countF] at hi
    rcases ok_or_err (htr_np E t v.1 hl.1 hb.1 hm.1 hs.1) with ⟨c, hc⟩ | ⟨e, he⟩
    · rw [hc, Res.ok_bind, copyInto_flat (ns := ns) (i := i) c (by omega) rfl rfl rfl, Res.ok_bind]
      have := htrF_np E rest v.2 (i + 1) (ns.set i c) hl.2 hb.2 hm.2 hs.2
        (by rw [List.length_set]; omega)
      rwa [List.length_set] at this
    · rw [he]
      exact .inr ⟨e, rfl⟩

theorem htrV_np (E : Env) : ∀ (vs : Variants) (i : Nat) (v : vs.Val), LegalV vs → BoundedV vs →
    InMemoryV vs v → StoredV vs v → i + countV vs < 2 ^ 64 →
    (vs.impls E).hashTreeRoot E i v ≠ .panic
  | .nil, _, v, _, _, _, _, _ => v.elim
  | .unit rest, i, .inl _, _, _, _, _, _ => mixIn_np E (by decide) _
  | .unit rest, i, .inr v, hl, hb, hm, hs, hc =>
    htrV_np E rest (i + 1) v hl hb hm hs (by simp only [countV] at hc; omega)
  | .data t rest, i, .inl v, hl, hb, hm, hs, hc =>
    bind_np (htr_np E t v hl.1 hb.1 hm hs) fun _ _ => mixIn_np E (by omega) _
  | .data t rest, i, .inr v, hl, hb, hm, hs, hc =>
    htrV_np E rest (i + 1) v hl.2 hb.2 hm hs (by simp only [countV] at hc; omega)

end

end Ssz
