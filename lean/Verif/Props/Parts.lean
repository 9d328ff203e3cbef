import Verif.Proofs.Parts

/-!
# Properties C58 and C59: types built from parts of any kind

`T` is any implementation of the traits, such as one written by hand or a transparent enum, and `c`
the codec it follows. The theorems say that what the crate builds from such parts follows the codec
SSZ gives it.
-/

namespace Ssz

open Spec

/-! ## C58 -/

/-- C58, the types of the crate: they follow the SSZ encoding. -/
theorem C58_crate (E : Env) (t : Ty) (hl : Legal t) (hf : Fits t) :
    Implements (t.impl E).toSerializable
      ⟨isVar t, fixedLen t, Valid t, enc t, norm t⟩ :=
  impl_implements E t hl hf

/-- C58, lists: a list of parts that follow a codec follows the codec of the list. -/
theorem C58_list {α : Type} (E : Env) (T : Serializable α) (c : Codec α) (n : Nat)
    (h : Implements T c) : Implements (Serializable.list E T n) (c.list n) :=
  h.list E n

/-- C58, vectors. -/
theorem C58_vector {α : Type} (E : Env) (T : Serializable α) (c : Codec α) (n : Nat)
    (h : Implements T c) (hn : 0 < n) (hs : c.size * n < 2 ^ 63) :
    Implements (Serializable.vector E T n) (c.vector n) :=
  h.vector E hn hs

/-- C58, arrays. -/
theorem C58_array {α : Type} (E : Env) (T : Serializable α) (c : Codec α) (n : Nat)
    (h : Implements T c) (hn : 0 < n) (hs : c.size * n < 2 ^ 63) :
    Implements (Serializable.array E T n) (c.array n) :=
  h.array E hn hs

/-- C58, options. -/
theorem C58_option {α : Type} (T : Serializable α) (c : Codec α) (h : Implements T c) :
    Implements (Serializable.option T) c.option :=
  h.option

/-- C58, newtypes: the codec is that of the field, except that a newtype of a variable-size type
answers 0 to `size_hint`. -/
theorem C58_newtype {α : Type} (E : Env) (T : SimpleSerialize α) (c : Codec α)
    (h : Implements T.toSerializable c) :
    Implements (SimpleSerialize.newtype E T).toSerializable
      { c with size := if c.var then 0 else c.size } :=
  h.newtype E

/-- C58, structs. -/
theorem C58_struct {α : Type} (E : Env) (ps : StructParts α) (hc : 0 < ps.impls.count)
    (hs : ps.fixedLen < 2 ^ 63) :
    Implements (SimpleSerialize.container E ps.impls).toSerializable ps.codec :=
  StructParts.container E ps hc hs

/-- C58, enums. -/
theorem C58_union {α : Type} (E : Env) (ps : EnumParts α) (hc : ps.count ≤ 256) :
    Implements (SimpleSerialize.union E ps.impls.variants).toSerializable ps.union :=
  EnumParts.union E ps hc

/-- C58, enums with a first variant `None`. -/
theorem C58_union_none {α : Type} (E : Env) (ps : EnumParts α) (hc : ps.count < 256) :
    Implements (SimpleSerialize.union E (.unit ps.impls.variants)).toSerializable ps.unionNone :=
  EnumParts.unionNone E ps hc

/-- C58, transparent enums, for the values that round trip (C21). -/
theorem C58_transparent {α : Type} (E : Env) (ps : EnumParts α) :
    Implements (SimpleSerialize.transparent E ps.impls).toSerializable ps.transparent :=
  EnumParts.transparent E ps

/-- C58, what following a codec means for a caller of `serialize` and `deserialize`. -/
theorem C58_round_trip {α : Type} (T : Serializable α) (c : Codec α) (v : α) (h : Implements T c)
    (hv : c.valid v) (hs : (c.enc v).length < 2 ^ 32) :
    serialize T v = .ok (c.enc v) ∧ deserialize T (c.enc v) = .ok (c.norm v) := by
  refine ⟨?_, h.deserialize v hv hs⟩
  simp only [Ssz.serialize, h.serialize v hv hs, List.nil_append]

/-- C58, bounds: if the parts decode only to values within their bounds, so does a list of them. -/
theorem C58_list_bounds {α : Type} (E : Env) (T : Serializable α) (P : α → Prop) (n : Nat)
    (h : Yields T P) :
    Yields (Serializable.list E T n) fun vs => vs.length ≤ n ∧ Each P vs := fun _ _ hd => by
  obtain ⟨-, h2, h3⟩ := list_deserialize_sound hd
  exact ⟨h3, homogeneous_yields h h2⟩

/-- C58, bounds of vectors. -/
theorem C58_vector_bounds {α : Type} (E : Env) (T : Serializable α) (P : α → Prop) (n : Nat)
    (h : Yields T P) :
    Yields (Serializable.vector E T n) fun vs => 0 < n ∧ vs.length = n ∧ Each P vs :=
  fun _ _ hd => by
    obtain ⟨h1, -, h2, h3⟩ := vector_deserialize_sound hd
    exact ⟨Nat.pos_of_ne_zero h1, h3, homogeneous_yields h h2⟩

/-- C58, bounds of arrays. -/
theorem C58_array_bounds {α : Type} (E : Env) (T : Serializable α) (P : α → Prop) (n : Nat)
    (h : Yields T P) : Yields (Serializable.array E T n) fun vs => 0 < n ∧ Each P vs.1 :=
  fun _ _ hd => by
    obtain ⟨h1, -, h2⟩ := array_deserialize_sound hd
    exact ⟨Nat.pos_of_ne_zero h1, homogeneous_yields h h2⟩

/-- C58, bounds of options. -/
theorem C58_option_bounds {α : Type} (T : Serializable α) (P : α → Prop) (h : Yields T P) :
    Yields (Serializable.option T) fun v => ∀ x, v = some x → P x := by
  intro b v hd x hx
  subst hx
  match b, hd with
  | b :: rest, hd =>
    simp only [Serializable.option] at hd
    split at hd
    · split at hd <;> cases hd
    · split at hd
      · obtain ⟨y, h1, h2⟩ := Res.bind_eq_ok.mp hd
        injection h2 with h2
        injection h2 with h2
        subst h2
        exact h _ _ h1
      · cases hd

/-- C58, bounds of newtypes. -/
theorem C58_newtype_bounds {α : Type} (E : Env) (T : SimpleSerialize α) (P : α → Prop)
    (h : Yields T.toSerializable P) : Yields (SimpleSerialize.newtype E T).toSerializable P := by
  intro b v hd
  obtain ⟨y, h1, h2⟩ := Res.bind_eq_ok.mp hd
  injection h2 with h2
  subst h2
  exact h _ _ h1

/-- C58, bounds of structs. -/
theorem C58_struct_bounds {α : Type} (E : Env) (ps : StructParts α) (h : ps.yields) :
    Yields (SimpleSerialize.container E ps.impls).toSerializable ps.valid := by
  intro b v hd
  obtain ⟨d, -, hd⟩ := Res.bind_eq_ok.mp hd
  obtain ⟨spans, -, hd⟩ := Res.bind_eq_ok.mp hd
  exact initFields_yields b spans ps h 0 v hd

/-- C58, bounds of enums. -/
theorem C58_union_bounds {α : Type} (E : Env) (ps : EnumParts α) (h : ps.yields) :
    Yields (SimpleSerialize.union E ps.impls.variants).toSerializable ps.valid := by
  intro b v hd
  match b, hd with
  | b :: rest, hd => exact variants_yields b rest (b :: rest) ps h 0 v hd

/-- C58, bounds of transparent enums. -/
theorem C58_transparent_bounds {α : Type} (E : Env) (ps : EnumParts α) (h : ps.yields) :
    Yields (SimpleSerialize.transparent E ps.impls).toSerializable ps.valid := by
  intro b v hd
  have hd : (if b.isEmpty then .err (.expectedFurtherInput 0 1)
    else ps.impls.transparent.deserializeBody b) = .ok v := hd
  split at hd
  · cases hd
  · exact transparent_yields b ps h v hd

/-- C58, root of a list of composite parts: the tree over the roots of the elements, with the
length mixed in. -/
theorem C58_list_root {α : Type} (E : Env) (T : SimpleSerialize α) (n : Nat) (vs : List α)
    (r : α → Node) (hc : T.isCompositeType = true) (hr : ∀ x ∈ vs, T.hashTreeRoot x = .ok (r x))
    (hn : vs.length ≤ n) (hm : vs.length < 2 ^ 58) (hb : n ≤ 2 ^ 63) :
    (SimpleSerialize.list E T n).hashTreeRoot vs =
      .ok ((MTree.node (full (depthFor n) (vs.map fun x => .leaf (r x)))
        (numLeaf vs.length)).root E.sha256) := by
  simp only [SimpleSerialize.list, hc, if_true]
  rw [assembleChunks_composite hc hm hr, Res.ok_bind,
    merkleize_some_ok _ _ (by rw [List.length_map]; exact hn) hb, Res.ok_bind,
    mixInDecoration_ok E (Nat.lt_of_lt_of_le hm (by decide)), full_leaf_root, List.map_map]
  rfl

/-- C58, root of a list of basic parts: the tree over the packed encodings, with the length mixed
in. -/
theorem C58_list_root_basic {α : Type} (E : Env) (T : SimpleSerialize α) (c : Codec α) (n : Nat)
    (vs : List α) (h : Implements T.toSerializable c) (hc : T.isCompositeType = false)
    (hvar : c.var = false) (hsize : c.size < 2 ^ 32) (hv : Each c.valid vs)
    (hn : vs.length ≤ n) (hm : vs.length < 2 ^ 64) (hb : n * c.size < 2 ^ 64) :
    (SimpleSerialize.list E T n).hashTreeRoot vs =
      .ok ((MTree.node (full (depthFor ((n * c.size + 31) / 32)) (leaves (vs.flatMap c.enc)))
        (numLeaf vs.length)).root E.sha256) := by
  have hl := Nat.mul_le_mul_right c.size hn
  have h1 : listChunkCount E T n = .ok ((n * c.size + 31) / 32) := by
    unfold listChunkCount
    rw [h.sizeHint, Res.ok_bind, Env.mul_eq_ok hb, Res.ok_bind]
  simp only [SimpleSerialize.list, hc, Bool.false_eq_true, if_false]
  rw [assembleChunks_basic h hc hvar hsize hv, Res.ok_bind, h1, Res.lift_ok, Res.ok_bind, merkleize_some_ok _ _ (by
      rw [chunkify_length, flatMap_codec_length h hvar hv]; omega) (by omega), Res.ok_bind,
    mixInDecoration_ok E hm, full_leaf_root]
  rfl

/-- C58, root of a vector or array of composite parts. -/
theorem C58_vector_root {α : Type} (E : Env) (T : SimpleSerialize α) (n : Nat)
    (vs : { l : List α // l.length = n }) (r : α → Node) (hc : T.isCompositeType = true)
    (hr : ∀ x ∈ vs.1, T.hashTreeRoot x = .ok (r x)) (hm : n < 2 ^ 58) :
    (SimpleSerialize.vector E T n).hashTreeRoot vs.1 =
      .ok ((full (depthFor n) (vs.1.map fun x => .leaf (r x))).root E.sha256) ∧
    (SimpleSerialize.array E T n).hashTreeRoot vs =
      .ok ((full (depthFor n) (vs.1.map fun x => .leaf (r x))).root E.sha256) := by
  obtain ⟨vs, hn⟩ := vs
  have h : (assembleChunks E T vs >>= fun chunks => merkleize E chunks none) =
      .ok ((full (depthFor n) (vs.map fun x => .leaf (r x))).root E.sha256) := by
    rw [assembleChunks_composite (vs := vs) hc (by omega) hr, Res.ok_bind,
      merkleize_none_ok _ (vs.map r) (by rw [List.length_map]; omega), full_leaf_root, List.map_map,
      List.length_map, hn]
    rfl
  exact ⟨h, h⟩

/-- C58, root of a vector or array of basic parts. -/
theorem C58_vector_root_basic {α : Type} (E : Env) (T : SimpleSerialize α) (c : Codec α) (n : Nat)
    (vs : { l : List α // l.length = n }) (h : Implements T.toSerializable c)
    (hc : T.isCompositeType = false) (hvar : c.var = false) (hsize : c.size < 2 ^ 32)
    (hv : Each c.valid vs.1) (hb : n * c.size < 2 ^ 64) :
    (SimpleSerialize.vector E T n).hashTreeRoot vs.1 =
      .ok ((full (depthFor ((n * c.size + 31) / 32)) (leaves (vs.1.flatMap c.enc))).root
        E.sha256) ∧
    (SimpleSerialize.array E T n).hashTreeRoot vs =
      .ok ((full (depthFor ((n * c.size + 31) / 32)) (leaves (vs.1.flatMap c.enc))).root
        E.sha256) := by
  obtain ⟨vs, hn⟩ := vs
  have hl : (chunkify (vs.flatMap c.enc)).length = (n * c.size + 31) / 32 := by
    rw [chunkify_length, flatMap_codec_length h hvar hv, hn]
  have h : (assembleChunks E T vs >>= fun chunks => merkleize E chunks none) =
      .ok ((full (depthFor ((n * c.size + 31) / 32)) (leaves (vs.flatMap c.enc))).root
        E.sha256) := by
    rw [assembleChunks_basic h hc hvar hsize hv, Res.ok_bind,
      merkleize_none_ok _ _ (by rw [hl]; omega), full_leaf_root, hl]
    rfl
  exact ⟨h, h⟩

/-- C58, root of a struct: the tree over the roots of the fields. -/
theorem C58_struct_root {α : Type} (E : Env) (fs : FieldImpls α) (v : α) (rs : List Node)
    (h : fieldRoots fs v = rs.map .ok) (hc : rs.length ≤ 2 ^ 63) :
    (SimpleSerialize.container E fs).hashTreeRoot v =
      .ok ((full (depthFor rs.length) (rs.map .leaf)).root E.sha256) := by
  have hl : fs.count = rs.length := by
    rw [← fieldRoots_length fs v, h, List.length_map]
  have h1 := assembleLoop_roots fs v [] rs h
  rw [List.nil_append, List.nil_append, flat_replicate] at h1
  show (fs.assembleChunks v >>= fun chunks => merkleize E chunks none) = _
  unfold FieldImpls.assembleChunks
  rw [hl]
  rw [show fs.assembleLoop v 0 (List.replicate (rs.length * 32) 0) = .ok (flat rs) from h1,
    Res.ok_bind, merkleize_none_ok _ _ hc, full_leaf_root]

/-- C58, root of an option: the root of the value, or zero, with the selector mixed in. -/
theorem C58_option_root {α : Type} (E : Env) (T : SimpleSerialize α) (v : Option α) (r : α → Node)
    (h : ∀ x, v = some x → T.hashTreeRoot x = .ok (r x)) :
    (SimpleSerialize.option E T).hashTreeRoot v =
      .ok (match v with
        | none => (MTree.node (.leaf zeroNode) (numLeaf 0)).root E.sha256
        | some x => (MTree.node (.leaf (r x)) (numLeaf 1)).root E.sha256) := by
  match v with
  | none =>
    show (toNode (List.replicate 32 0) >>= fun chunks => mixInDecoration E chunks 0) = _
    rw [show List.replicate 32 (0 : Byte) = zeroNode.1 by rfl, toNode_node, Res.ok_bind,
      mixInDecoration_ok E (by decide)]
    rfl
  | some x =>
    show ((T.hashTreeRoot x).map (·.1) >>= fun bytes => toNode bytes >>= fun chunks =>
      mixInDecoration E chunks 1) = _
    rw [h x rfl, Res.map_ok, Res.ok_bind, toNode_node, Res.ok_bind,
      mixInDecoration_ok E (by decide)]
    rfl

/-- C58, root of a newtype: that of its field. -/
theorem C58_newtype_root {α : Type} (E : Env) (T : SimpleSerialize α) (v : α) (r : Node)
    (h : T.hashTreeRoot v = .ok r) : (SimpleSerialize.newtype E T).hashTreeRoot v = .ok r := by
  show (T.hashTreeRoot v >>= fun chunk =>
    copyInto (List.replicate (1 * 32) 0) (0 * 32) ((0 + 1) * 32) chunk.1 >>= fun chunks =>
    merkleize E chunks none) = _
  rw [h, Res.ok_bind, ← flat_replicate,
    copyInto_flat (ns := List.replicate 1 zeroNode) (i := 0) r (by simp) rfl rfl rfl, Res.ok_bind,
    merkleize_none_ok _ _ (by simp)]
  simp [depthFor, rootD]

/-- C58, root of an enum: the root of the payload with the position of the variant mixed in. -/
theorem C58_union_root {α : Type} (E : Env) (ps : EnumParts α) (v : α) (r : Node)
    (hc : ps.count ≤ 256) (h : payloadRoot ps v = .ok r) :
    (SimpleSerialize.union E ps.impls.variants).hashTreeRoot v =
      .ok ((MTree.node (.leaf r) (numLeaf (ps.position v))).root E.sha256) := by
  have := variants_root E ps 0 v r h (by omega)
  rw [Nat.zero_add] at this
  exact this

/-- C58, root of an enum with a first variant `None`. -/
theorem C58_union_none_root {α : Type} (E : Env) (ps : EnumParts α) (hc : ps.count ≤ 256) :
    (SimpleSerialize.union E (.unit ps.impls.variants)).hashTreeRoot (.inl ()) =
      .ok ((MTree.node (.leaf zeroNode) (numLeaf 0)).root E.sha256) ∧
    ∀ v r, payloadRoot ps v = .ok r →
      (SimpleSerialize.union E (.unit ps.impls.variants)).hashTreeRoot (.inr v) =
        .ok ((MTree.node (.leaf r) (numLeaf (ps.position v + 1))).root E.sha256) := by
  refine ⟨mixInDecoration_ok E (by decide) zeroNode, fun v r h => ?_⟩
  have := variants_root E ps 1 v r h (by omega)
  rw [Nat.add_comm 1] at this
  exact this

/-- C58, root of a transparent enum: that of the payload. -/
theorem C58_transparent_root {α : Type} (E : Env) (ps : EnumParts α) (v : α) :
    (SimpleSerialize.transparent E ps.impls).hashTreeRoot v = payloadRoot ps v :=
  transparent_root ps v

/-! An example: a struct with a list of transparent enums. -/

namespace Open

/-- The payloads of `enum { A(u32), B(u8) }`. -/
def payloads (E : Env) : EnumParts (BitVec 32 ⊕ (BitVec 8 ⊕ Empty)) :=
  .cons ((Ty.uint .u32).impl E) (codecOf (.uint .u32))
    (impl_implements E (.uint .u32) trivial trivial)
    (.cons ((Ty.uint .u8).impl E) (codecOf (.uint .u8))
      (impl_implements E (.uint .u8) trivial trivial) .nil)

/-- `struct { id: u8, entries: List<Enum, 3> }` with that enum, transparent. -/
def parts (E : Env) : StructParts (BitVec 8 × (List (BitVec 32 ⊕ (BitVec 8 ⊕ Empty)) × Unit)) :=
  .cons "id" ((Ty.uint .u8).impl E) (codecOf (.uint .u8))
    (impl_implements E (.uint .u8) trivial trivial)
    (.cons "entries"
      (SimpleSerialize.list E (SimpleSerialize.transparent E (payloads E).impls) 3)
      ((payloads E).transparent.list 3) (C58_list E _ _ 3 (C58_transparent E (payloads E))) .nil)

/-- `{ id: 9, entries: [A(7), B(1)] }` -/
def value : BitVec 8 × (List (BitVec 32 ⊕ (BitVec 8 ⊕ Empty)) × Unit) :=
  (9, ([.inl 7, .inr (.inl 1)], ()))

/-- Its encoding: the number, the offset of the list, and in the list the two offsets and the two
payloads. -/
def bytes : Bytes := [9, 5, 0, 0, 0, 8, 0, 0, 0, 12, 0, 0, 0, 7, 0, 0, 0, 1]

theorem value_valid (E : Env) : (parts E).codec.valid value := by
  refine ⟨trivial, ⟨by decide, ?_⟩, trivial⟩
  intro x hx
  rcases List.mem_cons.mp hx with rfl | hx
  · exact ⟨trivial, fun h => (nomatch h), ⟨.additionalInput 4 1, rfl⟩, trivial⟩
  · have : x = .inr (.inl 1) := by simpa using hx
    subst this
    exact ⟨trivial, fun h => (nomatch h), trivial⟩

theorem enc_value (E : Env) : (parts E).codec.enc value = bytes := by
  show assemble [(false, leBytes 1 9), (true, assemble [(true, leBytes 4 7), (true, leBytes 1 1)])] =
    bytes
  decide

example (E : Env) :
    serialize (SimpleSerialize.container E (parts E).impls).toSerializable value = .ok bytes ∧
    deserialize (SimpleSerialize.container E (parts E).impls).toSerializable bytes = .ok value := by
  have h := C58_round_trip _ (parts E).codec value
    (C58_struct E (parts E) (Nat.succ_pos _) (show (5 : Nat) < 2 ^ 63 by decide)) (value_valid E)
    (by rw [enc_value]; decide)
  rw [enc_value] at h
  exact h

/-- The root of a payload. -/
def rootOf (E : Env) : BitVec 32 ⊕ (BitVec 8 ⊕ Empty) → Node
  | .inl x => (treeBy packs (.uint .u32) x).root E.sha256
  | .inr (.inl x) => (treeBy packs (.uint .u8) x).root E.sha256

theorem root_ok (E : Env) : ∀ x, (SimpleSerialize.transparent E (payloads E).impls).hashTreeRoot x =
    .ok (rootOf E x)
  | .inl x => htr_ok E (.uint .u32) x trivial trivial trivial trivial
  | .inr (.inl x) => htr_ok E (.uint .u8) x trivial trivial trivial trivial

example (E : Env) : (SimpleSerialize.transparent E (payloads E).impls).isCompositeType = true ∧
    (∀ x ∈ value.2.1, (SimpleSerialize.transparent E (payloads E).impls).hashTreeRoot x =
      .ok (rootOf E x)) ∧ value.2.1.length ≤ 3 ∧ (3 : Nat) ≤ 2 ^ 63 :=
  ⟨rfl, fun x _ => root_ok E x, by decide, by decide⟩

/-- The hypotheses of the root of a list of basic parts are met by `List<u32, 4>`. -/
example (E : Env) : Implements ((Ty.uint .u32).impl E).toSerializable (codecOf (.uint .u32)) ∧
    ((Ty.uint .u32).impl E).isCompositeType = false ∧ (codecOf (.uint .u32)).var = false ∧
    Each (codecOf (.uint .u32)).valid ([7, 8] : List (BitVec 32)) :=
  ⟨impl_implements E (.uint .u32) trivial trivial, rfl, rfl, fun _ _ => trivial⟩

/-- The fields of `struct { a: u8, b: Enum }` have roots. -/
example (E : Env) (x : BitVec 8) (y : BitVec 32 ⊕ (BitVec 8 ⊕ Empty)) :
    fieldRoots (.cons "a" ((Ty.uint .u8).impl E)
      (.cons "b" (SimpleSerialize.transparent E (payloads E).impls) .nil)) (x, (y, ())) =
      [(treeBy packs (.uint .u8) x).root E.sha256, rootOf E y].map .ok := by
  have h : ((Ty.uint .u8).impl E).hashTreeRoot x =
    .ok ((treeBy packs (.uint .u8) x).root E.sha256) :=
    htr_ok E (.uint .u8) x trivial trivial trivial trivial
  simp only [fieldRoots, root_ok, h, List.map_cons, List.map_nil]

/-- The payloads have roots. -/
example (E : Env) (x : BitVec 32 ⊕ (BitVec 8 ⊕ Empty)) :
    payloadRoot (payloads E) x = .ok (rootOf E x) :=
  (C58_transparent_root E (payloads E) x).symm.trans (root_ok E x)

/-- The payloads decode within their bounds. -/
example (E : Env) : (payloads E).yields := ⟨fun _ _ _ => trivial, fun _ _ _ => trivial, trivial⟩

end Open

/-! ## C59 -/

/-- Is the type of the payload variable-size? -/
def payloadVar : {α : Type} → EnumParts α → α → Bool
  | _, .nil, v => v.elim
  | _, .cons _ c _ _, .inl _ => c.var
  | _, .cons _ _ _ rest, .inr v => payloadVar rest v

/-- The first field of a struct is a transparent enum, `rest` are the other fields. -/
def withTransparent {α β : Type} (E : Env) (name : String) (ps : EnumParts α)
    (rest : StructParts β) : StructParts (α × β) :=
  .cons name (SimpleSerialize.transparent E ps.impls) ps.transparent (C58_transparent E ps) rest

/-- C59 where it holds: if the payload is of a variable-size type, a struct with a transparent enum
is encoded as with the payload in place of the enum. -/
theorem C59_variable_partial {α β : Type} (E : Env) (name : String) (ps : EnumParts α)
    (rest : StructParts β) (v : α × β) (hs : (withTransparent E name ps rest).fixedLen < 2 ^ 63)
    (hv : (withTransparent E name ps rest).valid v) (hp : payloadVar ps v.1 = true)
    (hlen : (assemble ((payloadVar ps v.1, ps.enc v.1) :: rest.pieces v.2)).length < 2 ^ 32) :
    serialize (SimpleSerialize.container E (withTransparent E name ps rest).impls).toSerializable v =
      .ok (assemble ((payloadVar ps v.1, ps.enc v.1) :: rest.pieces v.2)) := by
  rw [hp] at hlen ⊢
  exact (C58_round_trip _ (withTransparent E name ps rest).codec v
    (C58_struct E _ (show 0 < 1 + rest.impls.count by omega) hs) hv hlen).1

/-- The payload of `enum { A(List<u8, 4>) }`. -/
def Open.listPayload (E : Env) : EnumParts (List (BitVec 8) ⊕ Empty) :=
  .cons ((Ty.list (.uint .u8) 4).impl E) (codecOf (.list (.uint .u8) 4))
    (impl_implements E (.list (.uint .u8) 4) trivial trivial) .nil

/-- It applies to `struct { x: Enum }` with that enum and the value `A([7])`. -/
example (E : Env) : (withTransparent E "x" (Open.listPayload E) .nil).valid (.inl [7], ()) ∧
    payloadVar (Open.listPayload E) (.inl [7]) = true := by
  refine ⟨⟨⟨⟨by decide, fun _ _ => trivial⟩, ?_, trivial⟩, trivial⟩, rfl⟩
  show assemble [(false, leBytes 1 7)] ≠ []
  decide

/-- C59 is false for every payload of a fixed-size type: the encoding is four bytes longer than with
the payload in place of the enum, as the enum is written behind an offset. -/
theorem C59_fixed_never {α β : Type} (E : Env) (name : String) (ps : EnumParts α)
    (rest : StructParts β) (v : α × β) (hs : (withTransparent E name ps rest).fixedLen < 2 ^ 63)
    (hv : (withTransparent E name ps rest).valid v) (hp : payloadVar ps v.1 = false)
    (hlen : (assemble ((payloadVar ps v.1, ps.enc v.1) :: rest.pieces v.2)).length + 4 < 2 ^ 32) :
    ∃ b, serialize (SimpleSerialize.container E (withTransparent E name ps rest).impls).toSerializable
        v = .ok b ∧
      b.length = (assemble ((payloadVar ps v.1, ps.enc v.1) :: rest.pieces v.2)).length + 4 := by
  rw [hp] at hlen ⊢
  have h : (assemble ((true, ps.enc v.1) :: rest.pieces v.2)).length =
      (assemble ((false, ps.enc v.1) :: rest.pieces v.2)).length + 4 := by
    rw [assemble_length, assemble_length, headLen_cons, headLen_cons, tails_cons_true,
      tails_cons_false, List.length_append]
    simp only [headSize, if_true, Bool.false_eq_true, if_false]
    omega
  exact ⟨_, (C58_round_trip _ (withTransparent E name ps rest).codec v
    (C58_struct E _ (show 0 < 1 + rest.impls.count by omega) hs) hv (by
      show (assemble ((true, ps.enc v.1) :: rest.pieces v.2)).length < 2 ^ 32
      rw [h]; exact hlen)).1, h⟩

/-- C59 is false: `struct { x: Enum }` with `enum Enum { A(u32), B(u8) }`, transparent, and the value
`A(7)`. With the payload in its place the encoding is `7 0 0 0`. -/
theorem C59_fixed_refuted (E : Env) :
    serialize (SimpleSerialize.container E
        (.cons "x" (SimpleSerialize.transparent E (Open.payloads E).impls) .nil)).toSerializable
        (.inl 7, ()) = .ok [4, 0, 0, 0, 7, 0, 0, 0] ∧
    serialize (SimpleSerialize.container E
        (.cons "x" ((Ty.uint .u32).impl E) .nil)).toSerializable
        ((7 : BitVec 32), ()) = .ok [7, 0, 0, 0] := by
  constructor
  · have henc : (withTransparent E "x" (Open.payloads E) .nil).codec.enc (.inl 7, ()) =
        [4, 0, 0, 0, 7, 0, 0, 0] := by
      show assemble [(true, leBytes 4 7)] = _
      decide
    have h := (C58_round_trip _ (withTransparent E "x" (Open.payloads E) .nil).codec (.inl 7, ())
      (C58_struct E _ (show 0 < 1 by decide) (show (4 : Nat) < 2 ^ 63 by decide))
      ⟨⟨trivial, fun h => (nomatch h), ⟨.additionalInput 4 1, rfl⟩, trivial⟩, trivial⟩
      (by rw [henc]; decide)).1
    rw [henc] at h
    exact h
  · exact (C58_round_trip _ (StructParts.codec (.cons "x" ((Ty.uint .u32).impl E)
      (codecOf (.uint .u32)) (impl_implements E (.uint .u32) trivial trivial) .nil))
      ((7 : BitVec 32), ())
      (C58_struct E _ (show 0 < 1 by decide) (show (4 : Nat) < 2 ^ 63 by decide))
      ⟨trivial, trivial⟩ (show ([7, 0, 0, 0] : Bytes).length < 2 ^ 32 by decide)).1

end Ssz
