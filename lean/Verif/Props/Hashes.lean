import Verif.Proofs.Hashes
import Verif.Props.Parts
import Verif.Props.Writes

/-!
# C93: roots of values built from parts of any kind

`T` is any implementation of the traits. The root of what is built from it is given by the outcomes of
`hash_tree_root` (or, for parts that are packed, of `serialize`) for the parts.
-/

namespace Ssz

open Spec

/-- C93, lists of composite parts: the roots are taken in order, the first failure decides, and only then the
number of elements is held against the bound. -/
theorem C93_list {α : Type} (E : Env) (T : SimpleSerialize α) (n : Nat) (vs : List α)
    (hc : T.isCompositeType = true) (hm : vs.length < 2 ^ 58) (hb : n ≤ 2 ^ 63) :
    (SimpleSerialize.list E T n).hashTreeRoot vs =
      overLimited E.sha256 n vs.length (collected (vs.map T.hashTreeRoot)) := by
  simp only [SimpleSerialize.list, hc, if_true]
  rw [chunks_collected E T hc vs hm]
  refine merkleize_limited E _ n vs.length (fun ns h => ?_) hb (Nat.lt_of_lt_of_le hm (by decide))
  have := congrArg List.length (collected_length _ ns h)
  rw [List.length_map, List.length_map] at this
  omega

/-- C93, lists of basic parts: the bytes are packed, and the number of chunks is held against the room of the
type, not the number of elements against the bound. -/
theorem C93_list_basic {α : Type} (E : Env) (T : SimpleSerialize α) (n s : Nat) (vs : List α)
    (ws : List Written) (hc : T.isCompositeType = false) (hs : T.sizeHint = .ok s)
    (h : List.Forall₂ (WritesAt T.toSerializable) vs ws) (hb : n * s < 2 ^ 64) (hm : vs.length < 2 ^ 64)
    (hl : ∀ b, packed ws = .ok b → b.length < 2 ^ 63) :
    (SimpleSerialize.list E T n).hashTreeRoot vs =
      overLimited E.sha256 ((n * s + 31) / 32) vs.length (inChunks (packed ws)) := by
  have h1 : listChunkCount E T n = .ok ((n * s + 31) / 32) := by
    unfold listChunkCount
    rw [hs, Res.ok_bind, Env.mul_eq_ok hb, Res.ok_bind]
  simp only [SimpleSerialize.list, hc, Bool.false_eq_true, if_false]
  rw [chunks_packed E T hc vs ws h, h1, Res.lift_ok]
  refine merkleize_limited E _ ((n * s + 31) / 32) vs.length (fun ns hn => ?_) (by omega) hm
  match hp : packed ws with
  | .ok b =>
    rw [hp] at hn
    injection hn with hn
    have := hl b hp
    rw [← hn, chunkify_length]
    omega
  | .err e => rw [hp] at hn; cases hn
  | .panic => rw [hp] at hn; cases hn

/-- C93, vectors and arrays of composite parts: the first failure decides, and no length is looked at. -/
theorem C93_vector {α : Type} (E : Env) (T : SimpleSerialize α) (n : Nat) (hc : T.isCompositeType = true) :
    (∀ vs : List α, vs.length < 2 ^ 58 → (SimpleSerialize.vector E T n).hashTreeRoot vs =
      overChunks E.sha256 (collected (vs.map T.hashTreeRoot))) ∧
    (∀ vs : { l : List α // l.length = n }, n < 2 ^ 58 → (SimpleSerialize.array E T n).hashTreeRoot vs =
      overChunks E.sha256 (collected (vs.1.map T.hashTreeRoot))) := by
  have key : ∀ vs : List α, vs.length < 2 ^ 58 →
      (assembleChunks E T vs >>= fun chunks => merkleize E chunks none) =
        overChunks E.sha256 (collected (vs.map T.hashTreeRoot)) := by
    intro vs hm
    rw [chunks_collected E T hc vs hm]
    refine merkleize_chunks E _ (fun ns h => ?_)
    have := congrArg List.length (collected_length _ ns h)
    rw [List.length_map, List.length_map] at this
    omega
  exact ⟨key, fun vs hm => key vs.1 (by rw [vs.2]; exact hm)⟩

/-- C93, vectors and arrays of basic parts. -/
theorem C93_vector_basic {α : Type} (E : Env) (T : SimpleSerialize α) (n : Nat) (ws : List Written)
    (hc : T.isCompositeType = false) (hl : ∀ b, packed ws = .ok b → b.length < 2 ^ 63) :
    (∀ vs : List α, List.Forall₂ (WritesAt T.toSerializable) vs ws →
      (SimpleSerialize.vector E T n).hashTreeRoot vs = overChunks E.sha256 (inChunks (packed ws))) ∧
    (∀ vs : { l : List α // l.length = n }, List.Forall₂ (WritesAt T.toSerializable) vs.1 ws →
      (SimpleSerialize.array E T n).hashTreeRoot vs = overChunks E.sha256 (inChunks (packed ws))) := by
  have key : ∀ vs : List α, List.Forall₂ (WritesAt T.toSerializable) vs ws →
      (assembleChunks E T vs >>= fun chunks => merkleize E chunks none) =
        overChunks E.sha256 (inChunks (packed ws)) := by
    intro vs h
    rw [chunks_packed E T hc vs ws h]
    refine merkleize_chunks E _ (fun ns hn => ?_)
    match hp : packed ws with
    | .ok b =>
      rw [hp] at hn
      injection hn with hn
      have := hl b hp
      rw [← hn, chunkify_length]
      omega
    | .err e => rw [hp] at hn; cases hn
    | .panic => rw [hp] at hn; cases hn
  exact ⟨key, fun vs h => key vs.1 h⟩

/-- C93, structs: the roots of the fields are taken in order and the first failure decides. -/
theorem C93_struct {α : Type} (E : Env) (fs : FieldImpls α) (v : α) (hc : fs.count ≤ 2 ^ 63) :
    (SimpleSerialize.container E fs).hashTreeRoot v = overChunks E.sha256 (collected (partRoots fs v)) := by
  show (fs.assembleChunks v >>= fun chunks => merkleize E chunks none) = _
  have h1 := fields_collected fs v []
  rw [List.nil_append, partRoots_length, flat_replicate] at h1
  unfold FieldImpls.assembleChunks
  rw [show fs.assembleLoop v 0 (List.replicate (fs.count * 32) 0) = _ from h1]
  refine merkleize_chunks E _ (fun ns h => ?_)
  have := congrArg List.length (collected_length _ ns h)
  rw [partRoots_length, List.length_map] at this
  omega

/-- C93, options. -/
theorem C93_option {α : Type} (E : Env) (T : SimpleSerialize α) :
    (SimpleSerialize.option E T).hashTreeRoot none = underSelector E.sha256 0 (.ok zeroNode) ∧
    ∀ x, (SimpleSerialize.option E T).hashTreeRoot (some x) =
      underSelector E.sha256 1 (T.hashTreeRoot x) := by
  refine ⟨C58_option_root E T none (fun _ => zeroNode) (fun x h => by cases h), fun x => ?_⟩
  match hx : T.hashTreeRoot x with
  | .ok r =>
    refine (C58_option_root E T (some x) (fun _ => r) (fun y h => ?_)).trans rfl
    injection h with h
    rw [← h, hx]
  | .err e =>
    show ((T.hashTreeRoot x).map (·.1) >>= fun bytes => toNode bytes >>= fun chunks =>
      mixInDecoration E chunks 1) = _
    rw [hx]
    rfl
  | .panic =>
    show ((T.hashTreeRoot x).map (·.1) >>= fun bytes => toNode bytes >>= fun chunks =>
      mixInDecoration E chunks 1) = _
    rw [hx]
    rfl

/-- C93, newtypes. -/
theorem C93_newtype {α : Type} (E : Env) (T : SimpleSerialize α) (v : α) :
    (SimpleSerialize.newtype E T).hashTreeRoot v = T.hashTreeRoot v := by
  match hx : T.hashTreeRoot v with
  | .ok r => exact C58_newtype_root E T v r hx
  | .err e =>
    show (T.hashTreeRoot v >>= _) = _
    rw [hx]
    rfl
  | .panic =>
    show (T.hashTreeRoot v >>= _) = _
    rw [hx]
    rfl

/-- C93, enums. -/
theorem C93_union {α : Type} (E : Env) (ps : PayloadImpls α) (v : α)
    (h : (variantRoot ps v).1 < 2 ^ 64) :
    (SimpleSerialize.union E ps.variants).hashTreeRoot v =
      underSelector E.sha256 (variantRoot ps v).1 (variantRoot ps v).2 := by
  have := variants_selector E ps 0 v (by omega)
  rw [Nat.zero_add] at this
  exact this

/-- C93, enums with a first variant `None`. -/
theorem C93_union_none {α : Type} (E : Env) (ps : PayloadImpls α) :
    (SimpleSerialize.union E (.unit ps.variants)).hashTreeRoot (.inl ()) =
      underSelector E.sha256 0 (.ok zeroNode) ∧
    ∀ v, (variantRoot ps v).1 + 1 < 2 ^ 64 →
      (SimpleSerialize.union E (.unit ps.variants)).hashTreeRoot (.inr v) =
        underSelector E.sha256 ((variantRoot ps v).1 + 1) (variantRoot ps v).2 := by
  refine ⟨mixInDecoration_ok E (by decide) zeroNode, fun v h => ?_⟩
  have := variants_selector E ps 1 v (by omega)
  rw [Nat.add_comm 1] at this
  exact this

/-- C93, transparent enums. -/
theorem C93_transparent {α : Type} (E : Env) (ps : PayloadImpls α) (v : α) :
    (SimpleSerialize.transparent E ps).hashTreeRoot v = (variantRoot ps v).2 :=
  transparent_payload ps v

/-- C93: roots are collected exactly if all parts have one, -/
theorem C93_all (rs : List (Res MerkError Node)) (ns : List Node) :
    collected rs = .ok ns ↔ rs = ns.map .ok :=
  ⟨collected_length rs ns, fun h => by rw [h]; exact collected_ok ns⟩

/-- an error is that of the first part that does not have one, -/
theorem C93_first_error (rs : List (Res MerkError Node)) (e : MerkError) :
    collected rs = .err e ↔ ∃ (ns : List Node) (rest : List (Res MerkError Node)),
      rs = ns.map .ok ++ .err e :: rest := by
  constructor
  · intro h
    induction rs with
    | nil => cases h
    | cons r rs ih =>
      match r with
      | .ok r =>
        rw [collected_cons] at h
        match hx : collected rs with
        | .ok ns => rw [hx] at h; cases h
        | .err e' =>
          rw [hx] at h
          injection h with h
          subst h
          obtain ⟨ns, rest, h1⟩ := ih hx
          exact ⟨r :: ns, rest, by rw [h1]; rfl⟩
        | .panic => rw [hx] at h; cases h
      | .err e' =>
        injection h with h
        subst h
        exact ⟨[], rs, rfl⟩
      | .panic => cases h
  · rintro ⟨ns, rest, rfl⟩
    rw [collected_append]
    rfl

/-- and a crash likewise. -/
theorem C93_first_crash (rs : List (Res MerkError Node)) :
    collected rs = .panic ↔ ∃ (ns : List Node) (rest : List (Res MerkError Node)),
      rs = ns.map .ok ++ .panic :: rest := by
  constructor
  · intro h
    induction rs with
    | nil => cases h
    | cons r rs ih =>
      match r with
      | .ok r =>
        rw [collected_cons] at h
        match hx : collected rs with
        | .ok ns => rw [hx] at h; cases h
        | .err e' => rw [hx] at h; cases h
        | .panic =>
          obtain ⟨ns, rest, h1⟩ := ih hx
          exact ⟨r :: ns, rest, by rw [h1]; rfl⟩
      | .err e' => cases h
      | .panic => exact ⟨[], rs, rfl⟩
  · rintro ⟨ns, rest, rfl⟩
    rw [collected_append]
    rfl

/-! An example: a hand-written composite type of one byte whose root fails on 13 and crashes on 0. -/

namespace Moody

/-- The type. -/
def composite : SimpleSerialize (BitVec 8) :=
  { moody with
    isCompositeType := true
    hashTreeRoot := fun v =>
      if v = 13 then .err (.inputExceedsLimit 13) else if v = 0 then .panic else .ok zeroNode }

/-- A list that is too long has a root that fails with the limit, -/
example (E : Env) : (SimpleSerialize.list E composite 2).hashTreeRoot [7, 7, 7] =
    .err (.inputExceedsLimit 2) :=
  C93_list E composite 2 [7, 7, 7] rfl (by decide) (by decide)

/-- unless one of its elements fails, -/
example (E : Env) : (SimpleSerialize.list E composite 2).hashTreeRoot [7, 13, 0] =
    .err (.inputExceedsLimit 13) :=
  C93_list E composite 2 [7, 13, 0] rfl (by decide) (by decide)

/-- or crashes. -/
example (E : Env) : (SimpleSerialize.list E composite 2).hashTreeRoot [7, 0, 13] = .panic :=
  C93_list E composite 2 [7, 0, 13] rfl (by decide) (by decide)

/-- Packed parts fail with their encoding: here the bytes 7 and then the error of 13. -/
example (E : Env) : (SimpleSerialize.list E moody 4).hashTreeRoot [7, 13] =
    .err (.serializationError (.invalidInstance (.exact 1 13))) :=
  C93_list_basic E moody 4 1 [7, 13] [.ok [7] 1, .err [99] (.invalidInstance (.exact 1 13))] rfl rfl
    (.cons moody_writes (.cons moody_fails .nil)) (by decide) (by decide) (fun b h => by cases h)

/-- A list of 4 packed bytes whose bound is 2: the root exists, since 4 bytes fit one chunk. -/
example (E : Env) : ∃ r, (SimpleSerialize.list E moody 2).hashTreeRoot [7, 7, 7, 7] = .ok r :=
  ⟨_, C93_list_basic E moody 2 1 [7, 7, 7, 7] [.ok [7] 1, .ok [7] 1, .ok [7] 1, .ok [7] 1] rfl rfl
    (.cons moody_writes (.cons moody_writes (.cons moody_writes (.cons moody_writes .nil))))
    (by decide) (by decide) (fun b h => by injection h with h; rw [← h]; decide)⟩

/-- `struct { a: Composite, b: Option<Composite> }` fails with its second field. -/
example (E : Env) : (SimpleSerialize.container E
    (.cons "a" composite (.cons "b" (SimpleSerialize.option E composite) .nil))).hashTreeRoot
    (7, some 13, ()) = .err (.inputExceedsLimit 13) := by
  refine (C93_struct E (.cons "a" composite (.cons "b" (SimpleSerialize.option E composite) .nil))
    (7, some 13, ()) (show 2 ≤ 2 ^ 63 by decide)).trans ?_
  simp only [partRoots, (C93_option E composite).2]
  rfl

end Moody

end Ssz
