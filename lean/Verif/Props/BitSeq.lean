import Verif.Proofs.Facts
import Verif.Proofs.Stale
import Verif.Props.Demo

/-!
# Properties C19 and C20: bit sequences

`Bits.live` is the sequence of bits a user sees.
-/

namespace Ssz

open Spec

/-! ## C19 -/

/-- Mutations of a `Bitlist`. -/
inductive BitOp where
  | push (bit : Bool)
  | pop
  | set (i : Nat) (bit : Bool)

/-- The effect of the code. -/
def BitOp.run (b : Bits) : BitOp → Bits
  | .push bit => b.push bit
  | .pop => b.pop
  | .set i bit => (b.set i bit).1

/-- The effect on a list of booleans. -/
def BitOp.spec (l : List Bool) : BitOp → List Bool
  | .push bit => l ++ [bit]
  | .pop => l.dropLast
  | .set i bit => l.set i bit

theorem BitOp.run_live (b : Bits) (op : BitOp) : (op.run b).live = op.spec b.live := by
  cases op with
  | push bit =>
    simp only [run, spec, Bits.push]
    split <;> rfl
  | pop =>
    simp only [run, spec, Bits.pop]
    split
    · rename_i h
      rw [List.getLast?_eq_none_iff] at h
      simp [h]
    · split <;> rfl
  | set i bit =>
    simp only [run, spec, Bits.set]
    split
    · rfl
    · rename_i h
      rw [List.set_eq_of_length_le (by simpa using h)]

/-- C19, operations: after any sequence of mutations the bits seen are those of a list of booleans
after the same mutations. -/
theorem C19_operations (b : Bits) (ops : List BitOp) :
    (ops.foldl BitOp.run b).live = ops.foldl BitOp.spec b.live := by
  induction ops generalizing b with
  | nil => rfl
  | cons op ops ih => rw [List.foldl_cons, List.foldl_cons, ih, BitOp.run_live]

/-- C19, observations: `len` and `get`; `set` returns the previous bit. -/
theorem C19_observations (b : Bits) (i : Nat) (x : Bool) :
    b.len = b.live.length ∧ b.get i = b.live[i]? ∧ (b.set i x).2 = b.live[i]? ∧
      ∀ j, (b.set i x).1.get j = if i = j ∧ i < b.live.length then some x else b.live[j]? := by
  refine ⟨rfl, rfl, ?_, fun j => ?_⟩
  · simp only [Bits.set]
    split <;> simp_all
  · have h := BitOp.run_live b (.set i x)
    simp only [BitOp.run, BitOp.spec] at h
    simp only [Bits.get, h, List.getElem?_set]
    by_cases hij : i = j
    · subst hij
      by_cases hi : i < b.live.length <;> simp [hi]
    · simp [hij]

/-- The storage always consists of whole bytes (the hypothesis `Stored` of C09 holds of every
`Bitlist` a program can reach). -/
theorem C19_stored (b : Bits) (h : b.WF) (ops : List BitOp) : (ops.foldl BitOp.run b).WF := by
  induction ops generalizing b with
  | nil => exact h
  | cons op ops ih =>
    refine ih (op.run b) ?_
    obtain ⟨live, dead⟩ := b
    cases op with
    | push bit =>
      simp only [BitOp.run, Bits.push, Bits.WF] at h ⊢
      cases dead with
      | nil => simp at h ⊢; omega
      | cons d ds => simp at h ⊢; omega
    | pop =>
      simp only [BitOp.run, Bits.pop]
      split
      · exact h
      · rename_i x hx
        have hne : live ≠ [] := by rintro rfl; simp at hx
        have hpos : 0 < live.length := List.length_pos_iff.mpr hne
        split
        · simp only [Bits.WF, List.length_dropLast, List.length_nil]; omega
        · simp only [Bits.WF, List.length_dropLast, List.length_cons] at h ⊢; omega
    | set i bit =>
      simp only [BitOp.run, Bits.set]
      split
      · simpa [Bits.WF] using h
      · exact h

/-- C19 is false for serialization: after three `push(true)` and two `pop`s the `Bitlist` is
`[true]`, but its encoding decodes to `[true, true]`. -/
theorem C19_encoding_refuted : ∃ (n : Nat) (ops : List BitOp) (w : Bits) (b : Bytes),
    w.live ≠ ops.foldl BitOp.spec [] ∧ Valid (.bitlist n) w ∧
    ∀ E, serialize ((Ty.bitlist n).impl E).toSerializable (ops.foldl BitOp.run Bits.new) = .ok b ∧
      deserialize ((Ty.bitlist n).impl E).toSerializable b = .ok w := by
  refine ⟨8, [.push true, .push true, .push true, .pop, .pop],
    ⟨[true, true], List.replicate 6 false⟩, [7], by decide, ⟨by decide, by decide⟩, fun E => ⟨?_, ?_⟩⟩
  · unfold serialize
    show (match Bitlist.serializeWithLength 8 ⟨[true], [true, true, false, false, false, false, false]⟩
        true [] with
      | (result, .ok _) => Res.ok result
      | (_, .err e) => .err e
      | (_, .panic) => .panic) = _
    have h : (⟨[true], [true, true, false, false, false, false, false]⟩ : Bits).rawSlice = [7] := by
      decide +kernel
    simp [Bitlist.serializeWithLength, h, Bits.len, orLast]
  · have := de_enc E (.bitlist 8) (⟨[true, true], List.replicate 6 false⟩ : Bits) trivial
      (by simp [Fits]) ⟨by decide, by decide⟩ trivial
    exact this

/-- A `pop` that leaves no set bit behind: the list is empty, the removed bit is clear, or it was
the only bit of its byte. -/
def TidyOp (l : List Bool) : BitOp → Prop
  | .pop => l = [] ∨ l.getLast? = some false ∨ l.length % 8 = 1
  | _ => True

/-- All `pop`s of the sequence are tidy. -/
def TidyRun : List Bool → List BitOp → Prop
  | _, [] => True
  | l, op :: ops => TidyOp l op ∧ TidyRun (op.spec l) ops

theorem BitOp.run_clean (b : Bits) (op : BitOp) (hc : b.Clean) (ht : TidyOp b.live op) :
    (op.run b).Clean := by
  obtain ⟨live, dead⟩ := b
  cases op with
  | push bit =>
    rw [BitOp.run, Bits.push_clean hc]
    simp [Bits.Clean]
  | pop =>
    simp only [Bits.Clean] at hc
    subst hc
    simp only [BitOp.run, Bits.pop]
    split
    · rfl
    · rename_i x hx
      have hx : live.getLast? = some x := hx
      have hne : live ≠ [] := by rintro rfl; simp at hx
      have hpos : 0 < live.length := List.length_pos_iff.mpr hne
      split
      · rename_i h1
        have h1 : live.length % 8 = 1 := h1
        have h2 : (8 - (live.length - 1) % 8) % 8 = 0 := by omega
        simp [Bits.Clean, padBits, h2]
      · rename_i h1
        have h1 : live.length % 8 ≠ 1 := h1
        rcases ht with ht | ht | ht
        · exact absurd ht hne
        · have hxf : x = false := by
            have : some x = some false := hx.symm.trans ht
            exact Option.some.inj this
          have h2 : (8 - (live.length - 1) % 8) % 8 = (8 - live.length % 8) % 8 + 1 := by omega
          simp [Bits.Clean, padBits, h2, hxf, List.replicate_succ]
        · exact absurd ht h1
  | set i bit =>
    simp only [BitOp.run, Bits.set]
    split
    · simpa [Bits.Clean] using hc
    · exact hc

/-- C19 for serialization where it holds: starting from an empty, converted or decoded `Bitlist`
(all have clear unused bits), after `push`, `set` and tidy `pop`s, the encoding is that of the list
of booleans with the delimiting bit. Missing: `pop` of a set bit, where this is false. -/
theorem C19_encoding_partial (E : Env) (n : Nat) (b : Bits) (ops : List BitOp)
    (hc : b.dead = padBits b.live.length) (ht : TidyRun b.live ops)
    (hn : (ops.foldl BitOp.spec b.live).length ≤ n) :
    serialize ((Ty.bitlist n).impl E).toSerializable (ops.foldl BitOp.run b) =
      .ok (packBits (ops.foldl BitOp.spec b.live ++ [true])) := by
  induction ops generalizing b with
  | nil =>
    have := Bitlist.serialize_eq (n := n) (v := b) hn hc []
    unfold serialize
    show (match Bitlist.serializeWithLength n b true [] with
      | (result, .ok _) => Res.ok result
      | (_, .err e) => .err e
      | (_, .panic) => .panic) = _
    rw [this]
    rfl
  | cons op ops ih =>
    have hl := BitOp.run_live b op
    have := ih (op.run b) (BitOp.run_clean b op hc ht.1) (by rw [hl]; exact ht.2)
      (by rw [hl]; exact hn)
    rw [hl] at this
    exact this

/-- C19 for the hash tree root: two `Bitlist`s with clear unused bits and the same bits are the same
value, hence have the same root. -/
theorem C19_root_partial (E : Env) (n : Nat) (b c : Bits) (hb : b.dead = padBits b.live.length)
    (hc : c.dead = padBits c.live.length) (h : b.live = c.live) :
    ((Ty.bitlist n).impl E).hashTreeRoot b = ((Ty.bitlist n).impl E).hashTreeRoot c := by
  obtain ⟨bl, bd⟩ := b
  obtain ⟨cl, cd⟩ := c
  simp only at hb hc h
  subst h
  rw [hb, hc]

/-- C19, exactly what `serialize` writes for a `Bitlist` with any unused bits (`WF`: they fill the
last byte; see `C19_stored`): the bits, the delimiting bit in place of the first unused bit, then
the other unused bits. -/
theorem C19_encoding_exact_partial (E : Env) (n : Nat) (b : Bits) (hw : b.WF)
    (hn : b.live.length ≤ n) :
    serialize ((Ty.bitlist n).impl E).toSerializable b =
      .ok (packBits (b.live ++ true :: b.dead.tail)) := by
  unfold serialize
  show (match Bitlist.serializeWithLength n b true [] with
    | (result, .ok _) => Res.ok result
    | (_, .err e) => .err e
    | (_, .panic) => .panic) = _
  rw [Bitlist.serialize_exact hn hw]
  rfl

/-- C19: the encoding is that of the list of booleans exactly when all unused bits behind the first
are clear. -/
theorem C19_encoding_iff_partial (E : Env) (n : Nat) (b : Bits) (hw : b.WF)
    (hn : b.live.length ≤ n) :
    serialize ((Ty.bitlist n).impl E).toSerializable b = .ok (packBits (b.live ++ [true])) ↔
      ∀ x ∈ b.dead.tail, x = false := by
  rw [C19_encoding_exact_partial E n b hw hn, Res.ok.injEq, stale_encoding_iff hw]

/-- C19: a `Bitlist` survives the round trip exactly then. -/
theorem C19_round_trip_iff_partial (E : Env) (n : Nat) (b : Bits) (hw : b.WF)
    (hn : b.live.length ≤ n) (h64 : n + 8 < 2 ^ 64) :
    (∃ bytes w, serialize ((Ty.bitlist n).impl E).toSerializable b = .ok bytes ∧
      deserialize ((Ty.bitlist n).impl E).toSerializable bytes = .ok w ∧ w.live = b.live) ↔
      ∀ x ∈ b.dead.tail, x = false := by
  rw [← C19_encoding_iff_partial E n b hw hn]
  constructor
  · rintro ⟨bytes, w, hs, hd, hl⟩
    rw [hs, ← hl, (Bitlist.deserialize_sound h64 hd).2.2]
  · intro h
    exact ⟨_, ⟨b.live, padBits b.live.length⟩, h, Bitlist.deserialize_packBits h64 hn, rfl⟩

/-- C19, exactly what `hash_tree_root` hashes: the chunks hold the unused bits behind the bits. -/
theorem C19_root_exact_partial (E : Env) (n : Nat) (b : Bits) (hw : b.WF) (hn : b.live.length ≤ n)
    (h64 : n < 2 ^ 64) :
    ((Ty.bitlist n).impl E).hashTreeRoot b = .ok ((MTree.node
      (full (depthFor ((n + 255) / 256)) (leaves (packBits (b.live ++ b.dead))))
      (numLeaf b.live.length)).root E.sha256) :=
  bitlist_root_exact E h64 hn hw

/-- C19: the root is that of the list of booleans exactly when all unused bits are clear, unless the
computation of the two roots exhibits a collision. -/
theorem C19_root_iff_partial (E : Env) (n : Nat) (b : Bits) (hw : b.WF) (hn : b.live.length ≤ n)
    (h64 : n < 2 ^ 64) :
    (((Ty.bitlist n).impl E).hashTreeRoot b = .ok (htr E.sha256 (.bitlist n) b) ↔
      ∀ x ∈ b.dead, x = false) ∨
    Collide E.sha256 (MTree.node
      (full (depthFor ((n + 255) / 256)) (leaves (packBits (b.live ++ b.dead))))
      (numLeaf b.live.length)) (tree (.bitlist n) b) := by
  have hc : (⟨b.live, padBits b.live.length⟩ : Bits).WF := by simp [Bits.WF, padBits]
  have ht : storedTree n ⟨b.live, padBits b.live.length⟩ = tree (.bitlist n) b := by
    rw [storedTree, packBits_append_pad]
    rfl
  rw [bitlist_root_exact E h64 hn hw, Res.ok.injEq,
    show htr E.sha256 (.bitlist n) b = (tree (.bitlist n) b).root E.sha256 from rfl, ← ht]
  by_cases h : (storedTree n b).root E.sha256 =
      (storedTree n ⟨b.live, padBits b.live.length⟩).root E.sha256
  · rcases storedTree_bind hw hc hn rfl h with e | c
    · left
      refine ⟨fun _ x hx => ?_, fun _ => h⟩
      rw [e] at hx
      exact (List.mem_replicate.1 hx).2
    · exact .inr c
  · left
    refine ⟨fun h' => absurd h' h, fun hx => absurd ?_ h⟩
    have : b.dead = padBits b.live.length := List.eq_replicate_iff.2 ⟨hw, hx⟩
    rw [← this]

/-- After pushing eleven set bits and popping two, one unused bit behind the first is set; after
popping one, the set unused bit is hidden by the delimiting bit, but still in the root. -/
example : (⟨List.replicate 9 true, [true, true, false, false, false, false, false]⟩ : Bits).WF ∧
    (⟨List.replicate 10 true, [true, false, false, false, false, false]⟩ : Bits).WF ∧
    ([.push true, .push true, .pop] : List BitOp).foldl BitOp.run
        ⟨List.replicate 9 true, List.replicate 7 false⟩ =
      ⟨List.replicate 10 true, [true, false, false, false, false, false]⟩ :=
  ⟨by simp [Bits.WF], by simp [Bits.WF], by decide⟩

example : TidyRun [] [.push true, .push false, .pop, .set 0 false, .pop, .pop] := by
  simp [TidyRun, TidyOp, BitOp.spec]

/-! ## C20 -/

/-- C20, mutation: after any sequence of `set`s the bits are those of a list of booleans; the length
does not change. -/
theorem C20_set (b : Bits) (sets : List (Nat × Bool)) :
    (sets.foldl (fun b s => (b.set s.1 s.2).1) b).live =
      sets.foldl (fun l s => l.set s.1 s.2) b.live ∧
    (sets.foldl (fun b s => (b.set s.1 s.2).1) b).live.length = b.live.length := by
  induction sets generalizing b with
  | nil => exact ⟨rfl, rfl⟩
  | cons s sets ih =>
    have hl := BitOp.run_live b (.set s.1 s.2)
    simp only [BitOp.run, BitOp.spec] at hl
    simp only [List.foldl_cons]
    obtain ⟨h1, h2⟩ := ih (b.set s.1 s.2).1
    exact ⟨by rw [h1, hl], by rw [h2, hl]; simp⟩

/-- C20, encoding and root depend on the bits only, whatever the unused storage holds. -/
theorem C20_bits_only (E : Env) (n : Nat) (b c : Bits) (h : b.live = c.live) (buf : Bytes) :
    ((Ty.bitvector n).impl E).serialize b buf = ((Ty.bitvector n).impl E).serialize c buf ∧
    ((Ty.bitvector n).impl E).hashTreeRoot b = ((Ty.bitvector n).impl E).hashTreeRoot c := by
  have hs : Bitvector.serialize n b = Bitvector.serialize n c := by
    unfold Bitvector.serialize
    rw [h]
  refine ⟨congrFun hs buf, ?_⟩
  show (Bitvector.packBits n b >>= _) = (Bitvector.packBits n c >>= _)
  unfold Bitvector.packBits
  rw [hs]

/-- C20, encoding: the bits packed eight to a byte, for every sequence of `set`s on a `Bitvector`. -/
theorem C20_encoding (E : Env) (n : Nat) (hn : 0 < n) (b : Bits) (h : b.live.length = n)
    (sets : List (Nat × Bool)) :
    serialize ((Ty.bitvector n).impl E).toSerializable
        (sets.foldl (fun b s => (b.set s.1 s.2).1) b) =
      .ok (packBits (sets.foldl (fun l s => l.set s.1 s.2) b.live)) := by
  obtain ⟨h1, h2⟩ := C20_set b sets
  rw [← h1]
  exact serialize_eq_ok.mpr ⟨_, Bitvector.serialize_eq hn (h2.trans h) []⟩

/-- C20, `Default` and conversion from booleans. -/
theorem C20_default (n : Nat) (hn : 0 < n) :
    ∃ b : Bits, (Bitvector.default n : Res Error Bits) = .ok b ∧ b.live = List.replicate n false :=
  ⟨Bits.repeatFalse n, by simp [Bitvector.default, Nat.ne_of_gt hn], rfl⟩

example : (⟨[true, false, true], List.replicate 5 false⟩ : Bits).live.length = 3 := rfl

end Ssz
