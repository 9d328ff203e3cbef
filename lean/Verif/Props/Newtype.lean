import Verif.Proofs.Root
import Verif.Spec.Sha256
import Verif.Props.Demo

/-!
# Property C17: newtype structs are transparent
-/

namespace Ssz

open Spec

/-- A place inside a type where another type can be put. -/
inductive Ctx where
  | hole
  | array (c : Ctx) (n : Nat)
  | vector (c : Ctx) (n : Nat)
  | list (c : Ctx) (n : Nat)
  | option (c : Ctx)
  | newtype (c : Ctx)
  | field (before : List (String × Ty)) (name : String) (c : Ctx) (after : Fields)
  | variant (before : List (Option Ty)) (c : Ctx) (after : Variants)

/-- Fields in front of others. -/
def Fields.prepend : List (String × Ty) → Fields → Fields
  | [], fs => fs
  | (name, t) :: before, fs => .cons name t (Fields.prepend before fs)

/-- Variants in front of others. -/
def Variants.prepend : List (Option Ty) → Variants → Variants
  | [], vs => vs
  | none :: before, vs => .unit (Variants.prepend before vs)
  | some t :: before, vs => .data t (Variants.prepend before vs)

/-- The type with `t` in the place. -/
def Ctx.plug (t : Ty) : Ctx → Ty
  | .hole => t
  | .array c n => .array (c.plug t) n
  | .vector c n => .vector (c.plug t) n
  | .list c n => .list (c.plug t) n
  | .option c => .option (c.plug t)
  | .newtype c => .newtype (c.plug t)
  | .field before name c after => .container (Fields.prepend before (.cons name (c.plug t) after))
  | .variant before c after => .union (Variants.prepend before (.data (c.plug t) after))

/-! ## The implementation of a newtype -/

/-- Variable-size types have size hint 0. -/
theorem var_sizeHint (E : Env) : ∀ t : Ty, (t.impl E).isVariableSize = true →
    (t.impl E).sizeHint = .ok 0
  | .array t n, h => by
    have := var_sizeHint E t h
    show ((t.impl E).sizeHint >>= fun s => E.mul s n) = _
    rw [this, Res.ok_bind, Env.mul_eq_ok (by simp [usizeMod]), Nat.zero_mul]
  | .vector t n, h => by
    have := var_sizeHint E t h
    show ((t.impl E).sizeHint >>= fun s => E.mul s n) = _
    rw [this, Res.ok_bind, Env.mul_eq_ok (by simp [usizeMod]), Nat.zero_mul]
  | .list _ _, _ => rfl
  | .bitlist _, _ => rfl
  | .option _, _ => rfl
  | .newtype t, h => by
    show (if (t.impl E).isVariableSize then _ else _) = _
    have h : (t.impl E).isVariableSize = true := h
    rw [if_pos h]
  | .container fs, h => by
    show (if (fs.impls E).isVariableSize then _ else _) = _
    have h : (fs.impls E).isVariableSize = true := h
    rw [if_pos h]
  | .union _, _ => rfl

theorem newtype_serializable (E : Env) (t : Ty) :
    ((Ty.newtype t).impl E).toSerializable = (t.impl E).toSerializable := by
  show (SimpleSerialize.newtype E (t.impl E)).toSerializable = _
  have h1 : (if (t.impl E).isVariableSize then .ok 0 else (t.impl E).sizeHint) =
      (t.impl E).sizeHint := by
    by_cases h : (t.impl E).isVariableSize = true
    · rw [if_pos h, var_sizeHint E t h]
    · rw [if_neg h]
  have h2 : (fun encoding => (do let result ← (t.impl E).deserialize encoding; .ok result)) =
      (t.impl E).deserialize := by
    funext encoding
    cases (t.impl E).deserialize encoding <;> rfl
  simp only [SimpleSerialize.newtype, h1]
  exact congrArg (Serializable.mk _ _ _) h2

theorem newtype_hashTreeRoot {α : Type} (E : Env) (T : SimpleSerialize α) (v : α) :
    (SimpleSerialize.newtype E T).hashTreeRoot v = T.hashTreeRoot v := by
  show (T.hashTreeRoot v >>= fun chunk =>
    copyInto (List.replicate (1 * 32) 0) (0 * 32) ((0 + 1) * 32) chunk.1 >>= fun chunks =>
    merkleize E chunks none) = _
  cases T.hashTreeRoot v with
  | err e => rfl
  | panic => rfl
  | ok c =>
    rw [Res.ok_bind, ← flat_replicate,
      copyInto_flat (ns := List.replicate 1 zeroNode) (i := 0) c (by simp) rfl rfl rfl,
      Res.ok_bind, merkleize_none_ok _ _ (by simp)]
    simp [depthFor, rootD]

/-- Types that are not packed have the default item length. -/
theorem itemLength_default (E : Env) : ∀ t : Ty, packs t = false → (t.impl E).itemLength = .ok 32
  | .array _ _, _ => rfl
  | .vector _ _, _ => rfl
  | .list _ _, _ => rfl
  | .bitvector _, _ => rfl
  | .bitlist _, _ => rfl
  | .option _, _ => rfl
  | .newtype _, _ => rfl
  | .container _, _ => rfl
  | .union _, _ => rfl

theorem simpleSerialize_ext {α : Type} {S T : SimpleSerialize α}
    (h1 : S.toSerializable = T.toSerializable) (h2 : S.hashTreeRoot = T.hashTreeRoot)
    (h3 : S.isCompositeType = T.isCompositeType) (h4 : S.itemLength = T.itemLength)
    (h5 : S.chunkCount = T.chunkCount)
    (h6 : S.computeGeneralizedIndex = T.computeGeneralizedIndex) (h7 : S.chunks = T.chunks)
    (h8 : S.proveElement = T.proveElement) (h9 : S.decoration = T.decoration) : S = T := by
  cases S; cases T
  simp_all

/-- A newtype of a type that is not packed has the very implementation of that type. -/
theorem newtype_impl (E : Env) (t : Ty) (h : packs t = false) :
    (Ty.newtype t).impl E = t.impl E := by
  refine simpleSerialize_ext (newtype_serializable E t) ?_ ?_ ?_ rfl rfl rfl rfl rfl
  · funext v
    exact newtype_hashTreeRoot E (t.impl E) v
  · rw [impl_isComposite, impl_isComposite, h]; rfl
  · rw [itemLength_default E t h]; rfl

/-! ## Places inside other types -/

section

variable {α β γ : Type}

theorem array_heq {E : Env} {S : Serializable α} {T : Serializable β} (h : α = β) (hh : S ≍ T)
    (n : Nat) : Serializable.array E S n ≍ Serializable.array E T n := by
  subst h; cases hh; rfl

theorem vector_heq {E : Env} {S : Serializable α} {T : Serializable β} (h : α = β) (hh : S ≍ T)
    (n : Nat) : Serializable.vector E S n ≍ Serializable.vector E T n := by
  subst h; cases hh; rfl

theorem list_heq {E : Env} {S : Serializable α} {T : Serializable β} (h : α = β) (hh : S ≍ T)
    (n : Nat) : Serializable.list E S n ≍ Serializable.list E T n := by
  subst h; cases hh; rfl

theorem option_heq {S : Serializable α} {T : Serializable β} (h : α = β) (hh : S ≍ T) :
    Serializable.option S ≍ Serializable.option T := by
  subst h; cases hh; rfl

/-- Fields with pairwise the same serialization. -/
inductive SerF : {α : Type} → FieldImpls α → FieldImpls α → Prop
  | nil : SerF .nil .nil
  | cons {α β : Type} (name : String) {S T : SimpleSerialize α} {fs gs : FieldImpls β}
      (h : S.toSerializable = T.toSerializable) (hr : SerF fs gs) :
      SerF (.cons name S fs) (.cons name T gs)

theorem serF_refl : {α : Type} → (fs : FieldImpls α) → SerF fs fs
  | _, .nil => .nil
  | _, .cons name _ rest => .cons name rfl (serF_refl rest)

theorem serF_isVariableSize {fs gs : FieldImpls α} (h : SerF fs gs) :
    fs.isVariableSize = gs.isVariableSize := by
  induction h with
  | nil => rfl
  | cons _ h _ ih => simp only [FieldImpls.isVariableSize, h, ih]

theorem serF_sizeHintSum {E : Env} {fs gs : FieldImpls α} (h : SerF fs gs) (acc : Nat) :
    fs.sizeHintSum E acc = gs.sizeHintSum E acc := by
  induction h generalizing acc with
  | nil => rfl
  | cons _ h _ ih => simp only [FieldImpls.sizeHintSum, h, ih]

theorem serF_withElements {fs gs : FieldImpls α} (h : SerF fs gs) (v : α) (s : Serializer) :
    fs.withElements v s = gs.withElements v s := by
  induction h generalizing s with
  | nil => rfl
  | cons _ h _ ih => simp only [FieldImpls.withElements, h, ih]

theorem serF_parseAll {E : Env} {b : Bytes} {fs gs : FieldImpls α} (h : SerF fs gs)
    (d : ContainerDeserializer) : fs.parseAll E b d = gs.parseAll E b d := by
  induction h generalizing d with
  | nil => rfl
  | cons _ h _ ih => simp only [FieldImpls.parseAll, h, ih]

theorem serF_initFields {b : Bytes} {spans : List Nat} {fs gs : FieldImpls α} (h : SerF fs gs)
    (i : Nat) : fs.initFields b spans i = gs.initFields b spans i := by
  induction h generalizing i with
  | nil => rfl
  | cons _ h _ ih => simp only [FieldImpls.initFields, h, ih]

theorem container_serF (E : Env) {fs gs : FieldImpls α} (h : SerF fs gs) :
    (SimpleSerialize.container E fs).toSerializable =
      (SimpleSerialize.container E gs).toSerializable := by
  simp only [SimpleSerialize.container, serF_isVariableSize h, serF_sizeHintSum h,
    serF_withElements h, serF_parseAll h, serF_initFields h]

/-- Variants with pairwise the same serialization. -/
inductive SerV : {α : Type} → VariantImpls α → VariantImpls α → Prop
  | nil : SerV .nil .nil
  | unit {β : Type} {vs ws : VariantImpls β} (hr : SerV vs ws) : SerV (.unit vs) (.unit ws)
  | data {α β : Type} {S T : SimpleSerialize α} {vs ws : VariantImpls β}
      (h : S.toSerializable = T.toSerializable) (hr : SerV vs ws) : SerV (.data S vs) (.data T ws)

theorem serV_refl : {α : Type} → (vs : VariantImpls α) → SerV vs vs
  | _, .nil => .nil
  | _, .unit rest => .unit (serV_refl rest)
  | _, .data _ rest => .data rfl (serV_refl rest)

theorem serV_serialize {vs ws : VariantImpls α} (h : SerV vs ws) (i : Nat) (v : α) :
    vs.serialize i v = ws.serialize i v := by
  induction h generalizing i with
  | nil => exact v.elim
  | unit _ ih =>
    cases v with
    | inl _ => rfl
    | inr v => exact ih (i + 1) v
  | data h _ ih =>
    cases v with
    | inl v => simp only [VariantImpls.serialize, h]
    | inr v => exact ih (i + 1) v

theorem serV_deserialize {b : Byte} {r e : Bytes} {vs ws : VariantImpls α} (h : SerV vs ws)
    (i : Nat) : vs.deserialize b r e i = ws.deserialize b r e i := by
  induction h generalizing i with
  | nil => rfl
  | unit _ ih => simp only [VariantImpls.deserialize, ih]
  | data h _ ih => simp only [VariantImpls.deserialize, h, ih]

theorem union_serV (E : Env) {vs ws : VariantImpls α} (h : SerV vs ws) :
    (SimpleSerialize.union E vs).toSerializable = (SimpleSerialize.union E ws).toSerializable := by
  simp only [SimpleSerialize.union]
  congr 1
  · funext v; exact serV_serialize h 0 v
  · funext encoding
    cases encoding with
    | nil => rfl
    | cons b rest => exact serV_deserialize h 0

end

theorem prepend_val_eq {fs gs : Fields} (h : fs.Val = gs.Val) :
    ∀ before, (Fields.prepend before fs).Val = (Fields.prepend before gs).Val
  | [] => h
  | (_, t) :: before => congrArg (t.Val × ·) (prepend_val_eq h before)

theorem prepend_valV_eq {vs ws : Variants} (h : vs.Val = ws.Val) :
    ∀ before, (Variants.prepend before vs).Val = (Variants.prepend before ws).Val
  | [] => h
  | none :: before => congrArg (Unit ⊕ ·) (prepend_valV_eq h before)
  | some t :: before => congrArg (t.Val ⊕ ·) (prepend_valV_eq h before)

/-- Values of a type with a newtype inside are values of the type without it. -/
theorem plug_val (t : Ty) : ∀ c : Ctx, (c.plug (.newtype t)).Val = (c.plug t).Val
  | .hole => rfl
  | .array c n => congrArg (fun α => { l : List α // l.length = n }) (plug_val t c)
  | .vector c _ => congrArg List (plug_val t c)
  | .list c _ => congrArg List (plug_val t c)
  | .option c => congrArg Option (plug_val t c)
  | .newtype c => plug_val t c
  | .field before name c after => prepend_val_eq (fs := .cons name (c.plug (.newtype t)) after)
      (gs := .cons name (c.plug t) after) (congrArg (· × after.Val) (plug_val t c)) before
  | .variant before c after => prepend_valV_eq (vs := .data (c.plug (.newtype t)) after)
      (ws := .data (c.plug t) after) (congrArg (· ⊕ after.Val) (plug_val t c)) before

/-- The field in the hole changes, those before and after it do not. -/
theorem fields_ser (E : Env) (name : String) {s t : Ty} (hv : s.Val = t.Val)
    (hh : (s.impl E).toSerializable ≍ (t.impl E).toSerializable) (after : Fields) :
    ∀ before : List (String × Ty),
    ∃ h : (Fields.prepend before (.cons name s after)).Val =
        (Fields.prepend before (.cons name t after)).Val,
      SerF (h ▸ (Fields.prepend before (.cons name s after)).impls E)
        ((Fields.prepend before (.cons name t after)).impls E)
  | [] => by
    have key : ∀ (α β : Type) (S : SimpleSerialize α) (T : SimpleSerialize β), α = β →
        S.toSerializable ≍ T.toSerializable →
        ∃ h : (α × after.Val) = (β × after.Val),
          SerF (h ▸ FieldImpls.cons name S (after.impls E)) (.cons name T (after.impls E)) := by
      rintro α _ S T rfl h
      exact ⟨rfl, .cons name (eq_of_heq h) (serF_refl _)⟩
    exact key s.Val t.Val (s.impl E) (t.impl E) hv hh
  | (name', u) :: before => by
    obtain ⟨h, ih⟩ := fields_ser E name hv hh after before
    have key : ∀ (α β : Type) (fs : FieldImpls α) (gs : FieldImpls β) (h : α = β),
        SerF (h ▸ fs) gs → ∃ h' : (u.Val × α) = (u.Val × β),
          SerF (h' ▸ FieldImpls.cons name' (u.impl E) fs) (.cons name' (u.impl E) gs) := by
      rintro α _ fs gs rfl h
      exact ⟨rfl, .cons name' rfl h⟩
    exact key _ _ _ _ h ih

theorem variants_ser (E : Env) {s t : Ty} (hv : s.Val = t.Val)
    (hh : (s.impl E).toSerializable ≍ (t.impl E).toSerializable) (after : Variants) :
    ∀ before : List (Option Ty),
    ∃ h : (Variants.prepend before (.data s after)).Val =
        (Variants.prepend before (.data t after)).Val,
      SerV (h ▸ (Variants.prepend before (.data s after)).impls E)
        ((Variants.prepend before (.data t after)).impls E)
  | [] => by
    have key : ∀ (α β : Type) (S : SimpleSerialize α) (T : SimpleSerialize β), α = β →
        S.toSerializable ≍ T.toSerializable →
        ∃ h : (α ⊕ after.Val) = (β ⊕ after.Val),
          SerV (h ▸ VariantImpls.data S (after.impls E)) (.data T (after.impls E)) := by
      rintro α _ S T rfl h
      exact ⟨rfl, .data (eq_of_heq h) (serV_refl _)⟩
    exact key s.Val t.Val (s.impl E) (t.impl E) hv hh
  | none :: before => by
    obtain ⟨h, ih⟩ := variants_ser E hv hh after before
    have key : ∀ (α β : Type) (fs : VariantImpls α) (gs : VariantImpls β) (h : α = β),
        SerV (h ▸ fs) gs → ∃ h' : (Unit ⊕ α) = (Unit ⊕ β),
          SerV (h' ▸ VariantImpls.unit fs) (.unit gs) := by
      rintro α _ fs gs rfl h
      exact ⟨rfl, .unit h⟩
    exact key _ _ _ _ h ih
  | some u :: before => by
    obtain ⟨h, ih⟩ := variants_ser E hv hh after before
    have key : ∀ (α β : Type) (fs : VariantImpls α) (gs : VariantImpls β) (h : α = β),
        SerV (h ▸ fs) gs → ∃ h' : (u.Val ⊕ α) = (u.Val ⊕ β),
          SerV (h' ▸ VariantImpls.data (u.impl E) fs) (.data (u.impl E) gs) := by
      rintro α _ fs gs rfl h
      exact ⟨rfl, .data rfl h⟩
    exact key _ _ _ _ h ih

theorem plug_ser (E : Env) (t : Ty) : ∀ c : Ctx,
    ((c.plug (.newtype t)).impl E).toSerializable ≍ ((c.plug t).impl E).toSerializable
  | .hole => heq_of_eq (newtype_serializable E t)
  | .array c n => array_heq (plug_val t c) (plug_ser E t c) n
  | .vector c n => vector_heq (plug_val t c) (plug_ser E t c) n
  | .list c n => list_heq (plug_val t c) (plug_ser E t c) n
  | .option c => option_heq (plug_val t c) (plug_ser E t c)
  | .newtype c => (heq_of_eq (newtype_serializable E (c.plug (.newtype t)))).trans
      ((plug_ser E t c).trans (heq_of_eq (newtype_serializable E (c.plug t)).symm))
  | .field before name c after => by
    obtain ⟨h, hs⟩ := fields_ser E name (plug_val t c) (plug_ser E t c) after before
    have key : ∀ (α β : Type) (fs : FieldImpls α) (gs : FieldImpls β) (h : α = β),
        SerF (h ▸ fs) gs → (SimpleSerialize.container E fs).toSerializable ≍
          (SimpleSerialize.container E gs).toSerializable := by
      rintro α _ fs gs rfl h
      exact heq_of_eq (container_serF E h)
    exact key _ _ _ _ h hs
  | .variant before c after => by
    obtain ⟨h, hs⟩ := variants_ser E (plug_val t c) (plug_ser E t c) after before
    have key : ∀ (α β : Type) (fs : VariantImpls α) (gs : VariantImpls β) (h : α = β),
        SerV (h ▸ fs) gs → (SimpleSerialize.union E fs).toSerializable ≍
          (SimpleSerialize.union E gs).toSerializable := by
      rintro α _ fs gs rfl h
      exact heq_of_eq (union_serV E h)
    exact key _ _ _ _ h hs

theorem serialize_heq {α β : Type} {S : Serializable α} {T : Serializable β} (h : α = β)
    (hh : S ≍ T) (v : α) (b : Bytes) :
    serialize S v = serialize T (cast h v) ∧
      (deserialize S b).map (cast h) = deserialize T b := by
  subst h; cases hh
  refine ⟨rfl, ?_⟩
  cases deserialize S b <;> rfl

/-- C17, encoding and decoding: wherever a newtype of `T` stands, replacing it by `T` changes
neither the encoding of any value nor the result of decoding any bytes (`cast` identifies the values
of the two types). -/
theorem C17_newtype_encoding_partial (E : Env) (t : Ty) (c : Ctx) (v : (c.plug (.newtype t)).Val)
    (b : Bytes) :
    serialize ((c.plug (.newtype t)).impl E).toSerializable v =
        serialize ((c.plug t).impl E).toSerializable (cast (plug_val t c) v) ∧
      (deserialize ((c.plug (.newtype t)).impl E).toSerializable b).map (cast (plug_val t c)) =
        deserialize ((c.plug t).impl E).toSerializable b :=
  serialize_heq (plug_val t c) (plug_ser E t c) v b

/-- A newtype of `u16` in a list, in a struct field. -/
example : (Ctx.field [("a", .bool)] "b" (.list .hole 4) .nil).plug (.newtype (.uint .u16)) =
    .container (.cons "a" .bool (.cons "b" (.list (.newtype (.uint .u16)) 4) .nil)) := rfl

/-- C17, roots and proofs of the newtype itself: everything but its use as an element is as for
`T`. -/
theorem C17_newtype_root_partial (E : Env) (t : Ty) (v : t.Val) (path : List PathElement) :
    ((Ty.newtype t).impl E).hashTreeRoot v = (t.impl E).hashTreeRoot v ∧
      generalizedIndex ((Ty.newtype t).impl E) path = generalizedIndex (t.impl E) path ∧
      prove E ((Ty.newtype t).impl E) v path = prove E (t.impl E) v path :=
  ⟨newtype_hashTreeRoot E (t.impl E) v, rfl, rfl⟩

/-- The implementation of a type, with the type of its values. -/
def Ty.pack (E : Env) (t : Ty) : (α : Type) × SimpleSerialize α := ⟨t.Val, t.impl E⟩

theorem fields_pack (E : Env) (name : String) {s t : Ty} (h : s.pack E = t.pack E)
    (after : Fields) : ∀ before : List (String × Ty),
    (⟨_, (Fields.prepend before (.cons name s after)).impls E⟩ : (α : Type) × FieldImpls α) =
      ⟨_, (Fields.prepend before (.cons name t after)).impls E⟩
  | [] => congrArg (fun p : (α : Type) × SimpleSerialize α =>
      (⟨_, .cons name p.2 (after.impls E)⟩ : (α : Type) × FieldImpls α)) h
  | (name', u) :: before => congrArg (fun p : (α : Type) × FieldImpls α =>
      (⟨_, .cons name' (u.impl E) p.2⟩ : (α : Type) × FieldImpls α))
      (fields_pack E name h after before)

theorem variants_pack (E : Env) {s t : Ty} (h : s.pack E = t.pack E)
    (after : Variants) : ∀ before : List (Option Ty),
    (⟨_, (Variants.prepend before (.data s after)).impls E⟩ : (α : Type) × VariantImpls α) =
      ⟨_, (Variants.prepend before (.data t after)).impls E⟩
  | [] => congrArg (fun p : (α : Type) × SimpleSerialize α =>
      (⟨_, .data p.2 (after.impls E)⟩ : (α : Type) × VariantImpls α)) h
  | none :: before => congrArg (fun p : (α : Type) × VariantImpls α =>
      (⟨_, .unit p.2⟩ : (α : Type) × VariantImpls α)) (variants_pack E h after before)
  | some u :: before => congrArg (fun p : (α : Type) × VariantImpls α =>
      (⟨_, .data (u.impl E) p.2⟩ : (α : Type) × VariantImpls α)) (variants_pack E h after before)

/-- C17 in full for types that are not packed as elements: wherever a newtype of such a type
stands, replacing it by the type itself does not change the implementation at all: encoding,
decoding, roots, generalized indices and proofs. -/
theorem C17_newtype_composite_partial (E : Env) (t : Ty) (hp : packs t = false) : ∀ c : Ctx,
    (c.plug (.newtype t)).pack E = (c.plug t).pack E
  | .hole => by
    show (⟨t.Val, (Ty.newtype t).impl E⟩ : (α : Type) × SimpleSerialize α) = ⟨t.Val, t.impl E⟩
    rw [newtype_impl E t hp]
  | .array c n => congrArg (fun p : (α : Type) × SimpleSerialize α =>
      (⟨_, SimpleSerialize.array E p.2 n⟩ : (α : Type) × SimpleSerialize α))
      (C17_newtype_composite_partial E t hp c)
  | .vector c n => congrArg (fun p : (α : Type) × SimpleSerialize α =>
      (⟨_, SimpleSerialize.vector E p.2 n⟩ : (α : Type) × SimpleSerialize α))
      (C17_newtype_composite_partial E t hp c)
  | .list c n => congrArg (fun p : (α : Type) × SimpleSerialize α =>
      (⟨_, SimpleSerialize.list E p.2 n⟩ : (α : Type) × SimpleSerialize α))
      (C17_newtype_composite_partial E t hp c)
  | .option c => congrArg (fun p : (α : Type) × SimpleSerialize α =>
      (⟨_, SimpleSerialize.option E p.2⟩ : (α : Type) × SimpleSerialize α))
      (C17_newtype_composite_partial E t hp c)
  | .newtype c => congrArg (fun p : (α : Type) × SimpleSerialize α =>
      (⟨_, SimpleSerialize.newtype E p.2⟩ : (α : Type) × SimpleSerialize α))
      (C17_newtype_composite_partial E t hp c)
  | .field before name c after => congrArg (fun p : (α : Type) × FieldImpls α =>
      (⟨_, SimpleSerialize.container E p.2⟩ : (α : Type) × SimpleSerialize α))
      (fields_pack E name (C17_newtype_composite_partial E t hp c) after before)
  | .variant before c after => congrArg (fun p : (α : Type) × VariantImpls α =>
      (⟨_, SimpleSerialize.union E p.2⟩ : (α : Type) × SimpleSerialize α))
      (variants_pack E (C17_newtype_composite_partial E t hp c) after before)

example : packs (.list (.uint .u8) 3) = false ∧ packs Demo.ty = false := ⟨rfl, rfl⟩

/-- C17 is false of roots when a newtype of a packed type is an element: `Vector<Foo, 2>` with
`struct Foo(u8)` and `Vector<u8, 2>` have different roots (with the real hash function). -/
theorem C17_newtype_element_refuted : ∃ (t : Ty) (c : Ctx) (v : (c.plug (.newtype t)).Val),
    Legal (c.plug (.newtype t)) ∧ Valid (c.plug (.newtype t)) v ∧
    ∀ E : Env, E.sha256 = Sha256.sha256 →
      ((c.plug (.newtype t)).impl E).hashTreeRoot v ≠
        ((c.plug t).impl E).hashTreeRoot (cast (plug_val t c) v) := by
  have hm : ∀ t, (t.Val = BitVec 8) → Legal t → Bounded t → (∀ x, Valid t x) → (∀ x, InMemory t x) →
      fixedLen t = 1 → ∀ (E : Env) (v : List t.Val), v.length = 2 →
      ((Ty.vector t 2).impl E).hashTreeRoot v =
        .ok ((treeBy packs (.vector t 2) v).root E.sha256) := by
    intro t _ hl hb hv hm hf E v h2
    refine htr_ok E (.vector t 2) v ⟨by decide, hl⟩ ⟨hb, fun _ => by rw [hf]; decide⟩
      ⟨h2, fun x _ => hv x⟩ ⟨⟨?_, fun _ => ?_⟩, fun x _ => hm x⟩
    · have : v.length < 2 ^ 58 := by omega
      exact this
    · have : v.length * 1 < 2 ^ 63 := by omega
      rw [hf]; exact this
  refine ⟨.uint .u8, .vector .hole 2, ([1, 2] : List (BitVec 8)), ⟨by decide, trivial⟩,
    ⟨rfl, fun _ _ => trivial⟩, fun E hE => ?_⟩
  have h1 := hm (.newtype (.uint .u8)) rfl trivial trivial (fun _ => trivial) (fun _ => trivial) rfl
    E ([1, 2] : List (BitVec 8)) rfl
  have h2 := hm (.uint .u8) rfl trivial trivial (fun _ => trivial) (fun _ => trivial) rfl
    E ([1, 2] : List (BitVec 8)) rfl
  intro h
  have h := h1.symm.trans (h.trans h2)
  rw [hE, Res.ok.injEq] at h
  revert h
  decide +kernel

end Ssz
