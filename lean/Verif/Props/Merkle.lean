import Verif.Proofs.Std
import Verif.Proofs.Binding
import Verif.Proofs.Overflow
import Verif.Proofs.Equal
import Verif.Proofs.NoPanic
import Verif.Spec.Sha256
import Verif.Props.Demo

/-!
# Properties C24 to C31: Merkleization and hash tree roots

`E` ranges over both build modes and all hash functions. `release` and `debug` are the two build
modes with the real SHA-256. `Bounded t` says that the bounds of `t` lie in the range the code is
made for (trees of depth at most 63, byte sizes below `2^64`), `InMemory t v` that the value is not
larger than the memory of a 64-bit machine.
-/

namespace Ssz

open Spec

/-! ## C24 -/

/-- `full d` is what its name says: a tree in which all leaves have depth `d`, and they are the given
ones followed by zeros. -/
theorem full_perfect (d : Nat) (ns : List Node) (h : ns.length ≤ 2 ^ d) :
    (full d (ns.map .leaf)).Perfect d ∧
      (full d (ns.map .leaf)).leafNodes = ns ++ List.replicate (2 ^ d - ns.length) zeroNode := by
  induction d generalizing ns with
  | zero =>
    match ns, h with
    | [], _ => exact ⟨⟨_, rfl⟩, rfl⟩
    | [n], _ => exact ⟨⟨_, rfl⟩, rfl⟩
    | _ :: _ :: _, h => simp at h
  | succ d ih =>
    have h1 := ih (ns.take (2 ^ d)) (by rw [List.length_take]; omega)
    have h2 := ih (ns.drop (2 ^ d)) (by rw [List.length_drop]; omega)
    rw [List.map_take] at h1
    rw [List.map_drop] at h2
    refine ⟨⟨_, _, rfl, h1.1, h2.1⟩, ?_⟩
    rw [full, MTree.leafNodes, h1.2, h2.2, List.length_take, List.length_drop]
    by_cases hn : ns.length ≤ 2 ^ d
    · rw [Nat.min_eq_right hn, List.take_of_length_le hn, List.drop_of_length_le hn, List.nil_append,
        List.append_assoc, List.replicate_append_replicate]
      congr 2
      omega
    · rw [Nat.min_eq_left (by omega), Nat.sub_self, List.replicate_zero, List.append_nil,
        ← List.append_assoc, List.take_append_drop]
      congr 2
      omega

/-- The depth chosen is the least one whose power of two reaches `n`. -/
theorem depthFor_spec (n : Nat) : n ≤ 2 ^ depthFor n ∧ ∀ d, n ≤ 2 ^ d → depthFor n ≤ d :=
  ⟨le_pow_depthFor n, fun _ h => depthFor_le h⟩

/-- C24, with a limit: the result is the root of the tree whose leaves all have the least depth at
which there is room for `limit` of them, and are the chunks followed by zero chunks. -/
theorem C24_limit (E : Env) (chunks : List Node) (limit : Nat) (h : chunks.length ≤ limit)
    (hl : limit ≤ 2 ^ 63) : ∃ t : MTree,
    merkleize E (chunks.flatMap (·.1)) (some limit) = .ok (t.root E.sha256) ∧
      t.Perfect (depthFor limit) ∧
      t.leafNodes = chunks ++ List.replicate (2 ^ depthFor limit - chunks.length) zeroNode := by
  have h1 := full_perfect (depthFor limit) chunks (Nat.le_trans h (le_pow_depthFor limit))
  refine ⟨full (depthFor limit) (chunks.map .leaf), ?_, h1.1, h1.2⟩
  rw [full_root, List.map_map]
  refine (merkleize_some_ok E chunks h hl).trans ?_
  congr 2
  exact (List.map_id _).symm

/-- C24, without a limit: the number of chunks takes the place of the limit. -/
theorem C24_no_limit (E : Env) (chunks : List Node) (h : chunks.length ≤ 2 ^ 63) : ∃ t : MTree,
    merkleize E (chunks.flatMap (·.1)) none = .ok (t.root E.sha256) ∧
      t.Perfect (depthFor chunks.length) ∧
      t.leafNodes =
        chunks ++ List.replicate (2 ^ depthFor chunks.length - chunks.length) zeroNode := by
  have h1 := full_perfect (depthFor chunks.length) chunks (le_pow_depthFor _)
  refine ⟨full (depthFor chunks.length) (chunks.map .leaf), ?_, h1.1, h1.2⟩
  rw [full_root, List.map_map]
  refine (merkleize_none_ok E chunks h).trans ?_
  congr 2
  exact (List.map_id _).symm

/-- Three chunks under a limit of five: the hypotheses hold, the tree has depth three. -/
example : [zeroNode, zeroNode, zeroNode].length ≤ 5 ∧ 5 ≤ 2 ^ 63 ∧ depthFor 5 = 3 :=
  ⟨by decide, by decide, by
    have h1 := (depthFor_spec 5).2 3 (by decide)
    have h2 := (depthFor_spec 5).1
    have : ¬ depthFor 5 ≤ 2 := fun h => by
      have := Nat.pow_le_pow_right (n := 2) (by decide) h
      omega
    omega⟩

/-! ## C25 -/

/-- C25 for the function that computes roots: with a limit it fails exactly when there are more
chunks than the limit, and the error names the limit. -/
theorem C25_merkleize_partial (E : Env) (chunks : List Node) (limit : Nat) (hc : chunks.length ≤ 2 ^ 63)
    (hl : limit ≤ 2 ^ 63) (e : MerkError) :
    merkleize E (chunks.flatMap (·.1)) (some limit) = .err e ↔
      limit < chunks.length ∧ e = .inputExceedsLimit limit := by
  by_cases h : chunks.length ≤ limit
  · have := merkleize_some_ok E chunks h hl
    unfold flat at this
    rw [this]
    simp only [reduceCtorEq, false_iff, not_and]
    omega
  · have := merkleize_exceeds E chunks (l := limit) (by omega) hc
    unfold flat at this
    rw [this]
    simp only [Res.err.injEq]
    exact ⟨fun h' => ⟨by omega, h'.symm⟩, fun h' => h'.2.symm⟩

theorem list_root_key (E : Env) (t : Ty) (n : Nat) (vs : List t.Val) (hl : Legal t)
    (hb : Bounded (.list t n)) (hv : ∀ v ∈ vs, Valid t v) (hm : InMemory (.list t n) vs) :
    ((Ty.list t n).impl E).hashTreeRoot vs =
      (merkleize E (flat ((partsOf t vs).map (·.root E.sha256))) (some (chunkCountBy packs t n)) >>=
        fun r => mixInDecoration E r vs.length) ∧
    chunkCountBy packs t n ≤ 2 ^ 63 ∧ (partsOf t vs).length = chunkCountBy packs t vs.length ∧
    chunkCountBy packs t vs.length ≤ 2 ^ 63 ∧ vs.length < 2 ^ 64 := by
  have hm : held t vs.length ∧ Each (InMemory t) vs := hm
  obtain ⟨hb0, hs, hb⟩ := hb
  have hr : ∀ v ∈ vs, (t.impl E).hashTreeRoot v = .ok ((treeBy packs t v).root E.sha256) :=
    fun v h => htr_ok E t v hl hb0 (hv v h) (hm.2 v h)
  have hk := held_chunks hm.1
  have h0 := hm.1.1
  have hp := partsOf_length hv
  refine ⟨?_, ?_, hp, by omega, by omega⟩
  · show (SimpleSerialize.list E (t.impl E) n).hashTreeRoot vs = _
    simp only [SimpleSerialize.list, impl_isComposite, assembleChunks_ok E hl hs hv hm.1 hr,
      Res.ok_bind]
    by_cases hp : packs t = true
    · rw [if_pos hp] at hb
      simp only [hp, Bool.not_true, Bool.false_eq_true, if_false,
        listChunkCount_ok E hl hp (hs hp) hb, Res.lift_ok, Res.ok_bind]
    · have hp : packs t = false := by simpa using hp
      simp only [hp, Bool.not_false, if_true, chunkCountBy, Bool.false_eq_true, if_false]
  · unfold chunkCountBy
    by_cases hp : packs t = true
    · rw [if_pos hp] at hb ⊢; omega
    · rw [if_neg hp] at hb ⊢; exact hb

/-- C25 for `List<T, N>`: with in-bounds elements the root fails exactly when the elements occupy
more chunks than `N` elements would, and then with `InputExceedsLimit`. -/
theorem C25_list_partial (E : Env) (t : Ty) (n : Nat) (vs : List t.Val) (hl : Legal t)
    (hb : Bounded (.list t n)) (hv : ∀ v ∈ vs, Valid t v) (hm : InMemory (.list t n) vs)
    (e : MerkError) :
    ((Ty.list t n).impl E).hashTreeRoot vs = .err e ↔
      chunkCountBy packs t n < chunkCountBy packs t vs.length ∧
        e = .inputExceedsLimit (chunkCountBy packs t n) := by
  obtain ⟨key, hlim, hp, hk, h64⟩ := list_root_key E t n vs hl hb hv hm
  have hm1 := C25_merkleize_partial E ((partsOf t vs).map (·.root E.sha256)) (chunkCountBy packs t n)
    (by rw [List.length_map, hp]; omega) hlim e
  rw [List.length_map, hp] at hm1
  rw [key, Res.bind_eq_err]
  refine Iff.trans ⟨?_, Or.inl⟩ hm1
  rintro (h | ⟨r, _, h⟩)
  · exact h
  · rw [mixInDecoration_ok E (by omega)] at h
    cases h

/-- Twelve `u64` in a `List<u64, 4>`: three chunks instead of one. -/
example : chunkCountBy packs (.uint .u64) 4 < chunkCountBy packs (.uint .u64) 12 ∧
    Bounded (.list (.uint .u64) 4) ∧
    InMemory (.list (.uint .u64) 4) (List.replicate 12 (5 : BitVec 64)) :=
  ⟨by decide, ⟨trivial, fun _ => by decide, by decide⟩,
    ⟨by decide, fun _ => by decide⟩, fun _ _ => trivial⟩

/-- C25 is false of `Bitlist<N>`: a sequence of more than `N` bits is reported as a failed
serialization, never as `InputExceedsLimit`, however many chunks it takes. -/
theorem C25_bitlist_refuted (E : Env) (n : Nat) (v : Bits) (h : n < v.live.length) :
    ((Ty.bitlist n).impl E).hashTreeRoot v =
      .err (.serializationError (.invalidInstance (.bounded n v.live.length))) := by
  have h1 : Bitlist.packBits n v =
      .err (.serializationError (.invalidInstance (.bounded n v.live.length))) := by
    simp [Bitlist.packBits, Bitlist.serializeWithLength, Bits.len, h]
  show (Bitlist.packBits n v >>= _) = _
  rw [h1, Res.err_bind]

example : (256 : Nat) < (Bits.repeatFalse 300).live.length := by
  simp only [Bits.repeatFalse, List.length_replicate]
  decide

/-! ## C26 -/

/-- C26: entry `d` of the table is the root of the full tree of depth `d` with zero leaves only. -/
theorem C26_zero_table (E : Env) (d : Nat) (h : d < 64) : ∃ t : MTree,
    contextIndex E d = .ok (t.root E.sha256).1 ∧ t.Perfect d ∧
      t.leafNodes = List.replicate (2 ^ d) zeroNode := by
  have h1 := full_perfect d [] (Nat.zero_le _)
  refine ⟨full d [], ?_, h1.1, by simpa using h1.2⟩
  rw [contextIndex_ok E h, full_root, List.map_nil, ← zeroRoot, rootD_nil, Nat.zero_add]

example : (63 : Nat) < 64 := by decide

/-- C26, range: a lookup is out of range exactly from depth 64 on, and a root computation over at
most `2^63` chunks, with a limit of at most `2^63` or without, makes no such lookup. -/
theorem C26_lookups (E : Env) (chunks : List Node) (limit : Option Nat)
    (hc : chunks.length ≤ 2 ^ 63) (hl : ∀ l ∈ limit, l ≤ 2 ^ 63) :
    (∀ d, contextIndex E d = .panic ↔ 64 ≤ d) ∧
      merkleize E (chunks.flatMap (·.1)) limit ≠ .panic := by
  refine ⟨fun d => ⟨fun h => ?_, contextIndex_panic E⟩, ?_⟩
  · by_contra hd
    rw [contextIndex_ok E (by omega)] at h
    cases h
  · cases limit with
    | none => exact merkleize_none_np E (chunky_ok chunks) hc
    | some l => exact merkleize_some_np E chunks hc (hl l rfl)

example : ([] : List Node).length ≤ 2 ^ 63 ∧ ∀ l ∈ some (2 ^ 63), l ≤ 2 ^ 63 := by
  simp

/-! ## C27 -/

/-- C27 where it holds: for types in which no element of an array, vector or list is a newtype of a
basic type or an array of packed values, the root is that of the specification. Arrays that are
exactly one chunk, such as `[u8; 32]`, are allowed. -/
theorem C27_conforms_partial (E : Env) (t : Ty) (v : t.Val) (hl : Legal t) (hb : Bounded t)
    (hstd : Std t) (hv : Valid t v) (hm : InMemory t v) :
    (t.impl E).hashTreeRoot v = .ok (htr E.sha256 t v) := by
  rw [htr_ok E t v hl hb hv hm, htr, tree, tree_std t v hstd]

example : Legal Demo.ty ∧ Bounded Demo.ty ∧ Std Demo.ty ∧ Valid Demo.ty Demo.val ∧
    InMemory Demo.ty Demo.val :=
  ⟨Demo.ty_legal, Demo.ty_bounded, Demo.ty_std, Demo.val_valid, Demo.val_inMemory⟩

/-- Lists and vectors of `[u8; 32]`, `[[u8; 32]; 1]` and `[u64; 4]` are among these types. -/
example : Std (.list (.array (.uint .u8) 32) (2 ^ 24)) ∧
    Std (.vector (.array (.array (.uint .u8) 32) 1) 64) ∧ Std (.array (.array (.uint .u64) 4) 3) ∧
    Legal (.list (.array (.uint .u8) 32) (2 ^ 24)) ∧ Bounded (.list (.array (.uint .u8) 32) (2 ^ 24)) :=
  ⟨⟨rfl, rfl, trivial⟩, ⟨rfl, rfl, rfl, trivial⟩, ⟨rfl, rfl, trivial⟩, ⟨by decide, trivial⟩,
    ⟨trivial, fun _ => by decide⟩, fun _ => by decide, by decide⟩

/-- What the root is for every type: that of the tree of the specification with one more rule, that
elements of type `Node` and arrays of packed values are packed as well, and newtypes of basic types
are not. -/
theorem C27_exact_partial (E : Env) (t : Ty) (v : t.Val) (hl : Legal t) (hb : Bounded t)
    (hv : Valid t v) (hm : InMemory t v) :
    (t.impl E).hashTreeRoot v = .ok ((treeBy packs t v).root E.sha256) := htr_ok E t v hl hb hv hm

/-- `Vector<[u8; 2], 2>` -/
def vectorOfArrays : Ty := .vector (.array (.uint .u8) 2) 2

def vectorOfArraysVal : vectorOfArrays.Val :=
  ([⟨[1, 2], rfl⟩, ⟨[3, 4], rfl⟩] : List { l : List (BitVec 8) // l.length = 2 })

/-- C27 is false: the bytes of arrays that are elements are packed together instead of each array
being a tree of its own. The witness is `Vector<[u8; 2], 2>`, with the real hash function. -/
theorem C27_conforms_refuted : ∃ (t : Ty) (v : t.Val), Legal t ∧ Fits t ∧ Bounded t ∧ Valid t v ∧
    InMemory t v ∧ ∀ E : Env, E.sha256 = Sha256.sha256 →
      (t.impl E).hashTreeRoot v ≠ .ok (htr E.sha256 t v) := by
  have hl : Legal vectorOfArrays := ⟨by decide, by decide, trivial⟩
  have hb : Bounded vectorOfArrays := ⟨⟨trivial, fun _ => by decide⟩, fun _ => by decide⟩
  have hv : Valid vectorOfArrays vectorOfArraysVal := ⟨rfl, fun _ _ _ _ => trivial⟩
  have hm : InMemory vectorOfArrays vectorOfArraysVal :=
    ⟨⟨by decide, fun _ => by decide⟩, fun x hx =>
      ⟨⟨by rw [x.2]; decide, fun _ => by rw [x.2]; decide⟩, fun _ _ => trivial⟩⟩
  refine ⟨vectorOfArrays, vectorOfArraysVal, hl, ⟨⟨trivial, by decide⟩, by decide⟩, hb, hv, hm,
    fun E hE => ?_⟩
  rw [htr_ok E vectorOfArrays vectorOfArraysVal hl hb hv hm, hE]
  simp only [ne_eq, Res.ok.injEq]
  decide +kernel

example : Legal vectorOfArrays ∧ Bounded vectorOfArrays ∧ Valid vectorOfArrays vectorOfArraysVal ∧
    InMemory vectorOfArrays vectorOfArraysVal ∧
    (treeBy packs vectorOfArrays vectorOfArraysVal).leafNodes = [pad32 [1, 2, 3, 4]] ∧
    (tree vectorOfArrays vectorOfArraysVal).leafNodes = [pad32 [1, 2], pad32 [3, 4]] :=
  ⟨⟨by decide, by decide, trivial⟩, ⟨⟨trivial, fun _ => by decide⟩, fun _ => by decide⟩,
    ⟨rfl, fun _ _ _ _ => trivial⟩, ⟨⟨by decide, fun _ => by decide⟩, fun x hx =>
      ⟨⟨by rw [x.2]; decide, fun _ => by rw [x.2]; decide⟩, fun _ _ => trivial⟩⟩,
    by decide +kernel, by decide +kernel⟩

/-! ## C28 -/

/-- C28 for types with bounds in the supported range: two values with the same root are equal, or two different strings with the same hash occur
among the strings hashed in computing the two roots (see `Collide`). The trees are those of the
specification, except that the implementation packs more element types; `C28_binding_std_partial` is the
statement for types where it does not. -/
theorem C28_binding_partial (E : Env) (t : Ty) (v w : t.Val) (hl : Legal t) (hb : Bounded t)
    (hv : Valid t v) (hw : Valid t w) (hmv : InMemory t v) (hmw : InMemory t w)
    (h : (t.impl E).hashTreeRoot v = (t.impl E).hashTreeRoot w) :
    norm t v = norm t w ∨ Collide E.sha256 (treeBy packs t v) (treeBy packs t w) := by
  rw [htr_ok E t v hl hb hv hmv, htr_ok E t w hl hb hw hmw, Res.ok.injEq] at h
  exact bind_ok E.sha256 t v w hl (bounded_ranged t hb).1 hv hw hmv hmw h

theorem C28_binding_std_partial (E : Env) (t : Ty) (v w : t.Val) (hl : Legal t) (hb : Bounded t)
    (hstd : Std t) (hv : Valid t v) (hw : Valid t w) (hmv : InMemory t v) (hmw : InMemory t w)
    (h : (t.impl E).hashTreeRoot v = (t.impl E).hashTreeRoot w) :
    norm t v = norm t w ∨ Collide E.sha256 (tree t v) (tree t w) := by
  have := C28_binding_partial E t v w hl hb hv hw hmv hmw h
  rwa [tree_std t v hstd, tree_std t w hstd] at this

example : Legal Demo.ty ∧ Bounded Demo.ty ∧ Valid Demo.ty Demo.val ∧ InMemory Demo.ty Demo.val ∧
    ∀ E, ∃ r, (Demo.ty.impl E).hashTreeRoot Demo.val = .ok r :=
  ⟨Demo.ty_legal, Demo.ty_bounded, Demo.val_valid, Demo.val_inMemory,
    fun E => ⟨_, htr_ok E _ _ Demo.ty_legal Demo.ty_bounded Demo.val_valid Demo.val_inMemory⟩⟩

/-! ## C29 -/

/-- C29 is false for packed elements: five bytes in a `List<u8, 4>` have a root. -/
theorem C29_overlong_refuted : ∃ (t : Ty) (n : Nat) (vs : List t.Val), Legal t ∧
    Bounded (.list t n) ∧ n < vs.length ∧
    ∀ E, ∃ r, ((Ty.list t n).impl E).hashTreeRoot vs = .ok r := by
  refine ⟨.uint .u8, 4, ([1, 2, 3, 4, 5] : List (BitVec 8)), trivial,
    ⟨trivial, fun _ => by decide, by decide⟩, by decide, fun E => ?_⟩
  have hb : Bounded (.list (.uint .u8) 4) := ⟨trivial, fun _ => by decide, by decide⟩
  have hm : InMemory (.list (.uint .u8) 4) ([1, 2, 3, 4, 5] : List (BitVec 8)) :=
    ⟨⟨by decide, fun _ => by decide⟩, fun _ _ => trivial⟩
  rcases ok_or_err (htr_np E (.list (.uint .u8) 4) ([1, 2, 3, 4, 5] : List (BitVec 8)) trivial hb hm
    (fun _ _ => trivial)) with h | ⟨e, h⟩
  · exact h
  · have := ((C25_list_partial E (.uint .u8) 4 ([1, 2, 3, 4, 5] : List (BitVec 8)) trivial hb
      (fun _ _ => trivial) hm e).mp h).1
    exact absurd this (by decide)

/-- C29, exactly, for every element type and every number of in-bounds elements: the list has a root
if and only if its elements occupy no more chunks than `N` elements would, and the root is then that
of the tree of all the elements, also those beyond `N`. -/
theorem C29_overlong_iff_partial (E : Env) (t : Ty) (n : Nat) (vs : List t.Val) (hl : Legal t)
    (hb : Bounded (.list t n)) (hv : ∀ v ∈ vs, Valid t v) (hm : InMemory (.list t n) vs) (r : Node) :
    ((Ty.list t n).impl E).hashTreeRoot vs = .ok r ↔
      chunkCountBy packs t vs.length ≤ chunkCountBy packs t n ∧
      r = (MTree.node (full (depthFor (chunkCountBy packs t n)) (partsOf t vs))
        (numLeaf vs.length)).root E.sha256 := by
  obtain ⟨key, hlim, hp, hk, h64⟩ := list_root_key E t n vs hl hb hv hm
  by_cases h : chunkCountBy packs t vs.length ≤ chunkCountBy packs t n
  · rw [key, merkleize_some_ok E _ (by rw [List.length_map, hp]; exact h) hlim, Res.ok_bind,
      mixInDecoration_ok E (by omega)]
    simp only [h, true_and, Res.ok.injEq]
    rw [MTree.root, full_root]
    exact ⟨fun h => h.symm, fun h => h.symm⟩
  · obtain ⟨e, he⟩ : ∃ e, ((Ty.list t n).impl E).hashTreeRoot vs = .err e :=
      ⟨_, (C25_list_partial E t n vs hl hb hv hm _).2 ⟨by omega, rfl⟩⟩
    rw [he]
    simp [h]

/-- C29 for elements that are not packed: a list with more than `N` elements has no root, whatever
the elements are (as long as computing their roots does not panic). -/
theorem C29_overlong_partial (E : Env) (t : Ty) (n : Nat) (vs : List t.Val)
    (hp : packs t = false) (hn : n < vs.length) (hh : vs.length < 2 ^ 58)
    (hr : ∀ v ∈ vs, (t.impl E).hashTreeRoot v ≠ .panic) :
    ∃ e, ((Ty.list t n).impl E).hashTreeRoot vs = .err e := by
  have hc : Chunky (assembleChunks E (t.impl E) vs) vs.length := by
    unfold assembleChunks
    rw [impl_isComposite, hp]
    simp only [Bool.not_false, if_true, elementsToChunks]
    have h1 : vs.length * 32 < usizeMod := by simp only [usizeMod]; omega
    have h2 : vs.length * 32 < isizeMax1 := by simp only [isizeMax1]; omega
    rw [Env.mul_eq_ok h1, Res.lift_ok, Res.ok_bind, zeros, if_pos h2, Res.ok_bind, ← flat_replicate]
    have := elementsLoop_chunky vs (List.replicate vs.length zeroNode) 0 (by simp) hr
    rwa [List.length_replicate] at this
  show ∃ e, (SimpleSerialize.list E (t.impl E) n).hashTreeRoot vs = .err e
  simp only [SimpleSerialize.list, impl_isComposite, hp, Bool.not_false, if_true]
  rcases hc with ⟨ns, hn', hc⟩ | ⟨e, hc⟩
  · rw [hc, Res.ok_bind, merkleize_exceeds E ns (by omega) (by omega)]
    exact ⟨_, rfl⟩
  · rw [hc]
    exact ⟨e, rfl⟩

/-- C29 for `Bitlist`: a sequence of more than `N` bits has no root. -/
theorem C29_overlong_bitlist_partial (E : Env) (n : Nat) (v : Bits) (h : n < v.live.length) :
    ∃ e, ((Ty.bitlist n).impl E).hashTreeRoot v = .err e :=
  ⟨_, C25_bitlist_refuted E n v h⟩

/-- A `List<Bitlist<9>, 1>` with two elements. -/
example : packs (.bitlist 9) = false ∧ (1 : Nat) < [Bits.new, Bits.new].length ∧
    ∀ E, ∀ v ∈ [Bits.new, Bits.new], ((Ty.bitlist 9).impl E).hashTreeRoot v ≠ .panic :=
  ⟨rfl, by decide, fun E v hv => by
    have : v = Bits.new := by simpa using hv
    subst this
    exact bitlist_htr_np E (by decide) (by decide) (by decide)⟩

/-! ## C30 -/

/-- A `Bitlist<8>` after pushing three set bits and popping two of them. -/
def poppedBits : Bits := (((Bits.new.push true).push true).push true).pop.pop

/-- A `Bitlist<8>` after pushing one set bit. -/
def pushedBits : Bits := Bits.new.push true

/-- C30 is false: a `Bitlist` from which elements were removed equals the one built directly but has
another encoding and another root (here with the real hash function). -/
theorem C30_equal_refuted :
    norm (.bitlist 8) poppedBits = norm (.bitlist 8) pushedBits ∧
      ∀ E : Env, E.sha256 = Sha256.sha256 →
        serialize ((Ty.bitlist 8).impl E).toSerializable poppedBits = .ok [7] ∧
        serialize ((Ty.bitlist 8).impl E).toSerializable pushedBits = .ok [3] ∧
        ((Ty.bitlist 8).impl E).hashTreeRoot poppedBits ≠
          ((Ty.bitlist 8).impl E).hashTreeRoot pushedBits := by
  refine ⟨show (⟨_, _⟩ : Bits) = ⟨_, _⟩ by decide, fun E hE => ⟨?_, ?_, ?_⟩⟩
  · show serialize ⟨true, .ok 0, fun v => Bitlist.serializeWithLength 8 v true, _⟩ poppedBits = _
    have : Bitlist.serializeWithLength 8 poppedBits true [] = ([7], .ok 1) := by decide +kernel
    simp only [serialize, this]
  · show serialize ⟨true, .ok 0, fun v => Bitlist.serializeWithLength 8 v true, _⟩ pushedBits = _
    have : Bitlist.serializeWithLength 8 pushedBits true [] = ([3], .ok 1) := by decide +kernel
    simp only [serialize, this]
  · have key : ∀ (v : Bits) (b : Byte), Bitlist.packBits 8 v = .ok (pad32 [b]).1 → v.len = 1 →
        ((Ty.bitlist 8).impl E).hashTreeRoot v =
          .ok (Sha256.sha256 ((pad32 [b]).1 ++ leBytes 32 1)) := by
      intro v b hv h1
      show (Bitlist.packBits 8 v >>= fun chunks => merkleize E chunks (some (bitsChunkCount 8)) >>=
        fun dataRoot => mixInDecoration E dataRoot v.len) = _
      rw [hv, Res.ok_bind, ← flat_singleton, merkleize_some_ok E [pad32 [b]] (show 1 ≤ bitsChunkCount 8 by decide) (by decide),
        Res.ok_bind, h1, mixInDecoration_ok E (by decide), numLeaf_root, hE]
      simp [bitsChunkCount, depthFor, rootD]
    rw [key poppedBits 7 (by decide +kernel) (by decide),
      key pushedBits 1 (by decide +kernel) (by decide)]
    simp only [ne_eq, Res.ok.injEq]
    decide +kernel

/-- C30 where it holds: if no `Bitlist` inside has stale bits beyond its end, equal values have the
same encoding (also the same error) and the same root, for all types and all values, in bounds or
not. -/
theorem C30_equal_partial (E : Env) (t : Ty) (v w : t.Val) (hv : Clean t v) (hw : Clean t w)
    (h : norm t v = norm t w) :
    serialize (t.impl E).toSerializable v = serialize (t.impl E).toSerializable w ∧
      (t.impl E).hashTreeRoot v = (t.impl E).hashTreeRoot w := by
  have hs := equal_same E hv hw h
  refine ⟨?_, hs.2⟩
  simp only [serialize, hs.1]

/-- Two `Bitvector<11>` with different unused bits, inside a struct. -/
example :
    let t : Ty := .container (.cons "a" (.bitvector 11) (.cons "b" (.bitlist 3) .nil))
    let v : t.Val := ((⟨List.replicate 11 true, List.replicate 5 true⟩ : Bits), Bits.new, ())
    let w : t.Val := ((⟨List.replicate 11 true, List.replicate 5 false⟩ : Bits), Bits.new, ())
    Clean t v ∧ Clean t w ∧ norm t v = norm t w :=
  ⟨⟨trivial, show [] = _ by decide, trivial⟩, ⟨trivial, show [] = _ by decide, trivial⟩, rfl⟩

/-! ## C31 -/

/-- `List<List<u8, 1>, 2^63 + 1>` -/
def hugeList : Ty := .list (.list (.uint .u8) 1) (2 ^ 63 + 1)

/-- C31 is false: the root of an empty list with a limit above `2^63` panics in every build. -/
theorem C31_root_panics : ∃ (t : Ty) (v : t.Val), Legal t ∧ Fits t ∧ Valid t v ∧
    ∀ E, (t.impl E).hashTreeRoot v = .panic := by
  refine ⟨hugeList, ([] : List (List (BitVec 8))), trivial, trivial,
    ⟨Nat.zero_le _, fun _ h => nomatch h⟩, fun E => ?_⟩
  have h1 : assembleChunks E ((Ty.list (.uint .u8) 1).impl E) [] = .ok [] := by
    have : E.mul 0 32 = .ok 0 := Env.mul_eq_ok (by decide)
    simp only [assembleChunks, impl_isComposite, packs, Bool.not_false, if_true, elementsToChunks,
      List.length_nil, this]
    rfl
  have h2 : merkleize E [] (some (2 ^ 63 + 1)) = .panic := by
    have h3 : E.debugAssert (List.length ([] : Bytes) % 32 == 0) = .ok () := by simp
    have h4 : E.nextPowerOfTwo (List.length ([] : Bytes) / 32) = .ok 1 := by
      rw [nextPowerOfTwo_ok (by simp)]; simp [depthFor]
    simp only [merkleize, h3, h4, Res.lift_ok, Res.ok_bind,
      nextPowerOfTwo_overflow (show 2 ^ 63 < 2 ^ 63 + 1 by decide)]
    rw [if_neg (by simp)]
    cases hd : E.debug with
    | true => rfl
    | false =>
      have h5 : trailingZeros 0 = 64 := by decide
      simp only [Bool.false_eq_true, if_false, Res.lift_ok, Res.ok_bind,
        merkleizeChunksWithVirtualPadding, hd, h5, Env.debugAssert, Bool.false_and]
      rw [if_pos (by simp), contextIndex_panic E (by decide)]
      rfl
  show (assembleChunks E ((Ty.list (.uint .u8) 1).impl E) [] >>= fun chunks =>
    merkleize E chunks (some (2 ^ 63 + 1)) >>= fun r => mixInDecoration E r 0) = _
  rw [h1, Res.ok_bind, h2, Res.panic_bind]

/-- C31 where it holds: no value of a type with bounds in the supported range makes
`hash_tree_root` panic, also if it exceeds its bounds. (`Stored` holds of every `Bitlist`, see
C19.) -/
theorem C31_no_panic_partial (E : Env) (t : Ty) (v : t.Val) (hl : Legal t) (hb : Bounded t)
    (hm : InMemory t v) (hs : Stored t v) : (t.impl E).hashTreeRoot v ≠ .panic :=
  htr_np E t v hl hb hm hs

/-- An out-of-bounds value: five elements in a `List<u16, 4>`, two in a `Vector<bool, 3>`. -/
example :
    let t : Ty := .container (.cons "a" (.list (.uint .u16) 4) (.cons "b" (.vector .bool 3) .nil))
    let v : t.Val := (([1, 2, 3, 4, 5] : List (BitVec 16)), ([true, false] : List Bool), ())
    Legal t ∧ Bounded t ∧ InMemory t v ∧ Stored t v ∧ ¬ Valid t v := by
  refine ⟨?_, ?_, ?_, ?_, ?_⟩
  · simp [Legal, LegalF, namesF]
  · simp [Bounded, BoundedF, countF, packs, fixedLen, UintTy.bits]
  · exact ⟨⟨⟨by decide, fun _ => by decide⟩, fun _ _ => trivial⟩,
      ⟨⟨by decide, fun _ => by decide⟩, fun _ _ => trivial⟩, trivial⟩
  · exact ⟨fun _ _ => trivial, fun _ _ => trivial, trivial⟩
  · intro h
    exact absurd (show 5 ≤ 4 from h.1.1) (by decide)

end Ssz
