import Verif.Model.Types

/-!
# The derive macro: validation of the item it is attached to

/repo/ssz-rs-derive/src/lib.rs. An item is what `syn` parses (`DeriveInput`), reduced to what the
macro looks at. A panic of the macro aborts the compilation of the user's crate: the item is
rejected. The code generators are modelled by the panics they contain (`unreachable!`,
`unimplemented!`, `expect`, indexing); what the generated code does is the subject of
`Model/Derive.lean` and `Model/Union.lean`.
-/

namespace Ssz.Macro

/-- An argument of a list-like attribute (`syn::NestedMeta`). -/
inductive NestedMeta where
  /-- `Meta::Path`: leading colon, and for each segment its name and whether it has arguments. -/
  | path (leadingColon : Bool) (segments : List (String × Bool))
  /-- `Meta::List` or `Meta::NameValue` -/
  | otherMeta
  /-- a literal -/
  | lit

/-- The result of `attr.parse_meta()`. -/
inductive AttrMeta where
  /-- `Meta::List`, e.g. `#[ssz(transparent)]` -/
  | list (nested : List NestedMeta)
  /-- `Meta::Path` or `Meta::NameValue`, e.g. `#[ssz]` -/
  | other
  /-- a parse error -/
  | invalid

/-- `syn::Attribute`: the names of the segments of its path, and its content. -/
structure Attribute where
  path : List String
  content : AttrMeta

/-- `syn::Field`; the name is only present in named fields. -/
structure Field where
  name : String
  attrs : List Attribute
  ty : Ty

/-- `syn::Fields` -/
inductive FieldList where
  | named (fields : List Field)
  | unnamed (fields : List Field)
  | unit

/-- All fields (`Fields::iter`). -/
def FieldList.fields : FieldList → List Field
  | .named fs => fs
  | .unnamed fs => fs
  | .unit => []

/-- `syn::Variant` -/
structure Variant where
  ident : String
  attrs : List Attribute
  fields : FieldList

/-- `syn::Data` -/
inductive Data where
  | struct (fields : FieldList)
  | enum (variants : List Variant)
  | union

/-- `syn::DeriveInput` -/
structure Item where
  attrs : List Attribute
  data : Data

/-- `HelperAttr`: lib.rs:883-886 -/
inductive HelperAttr where
  | transparent
  deriving DecidableEq

/-- `is_valid_none_identifier`: lib.rs:726-728 -/
def isValidNoneIdentifier (ident : String) : Bool := ident == "None"

/-- `filter_ssz_attrs`: lib.rs:730-740 -/
def filterSszAttrs (attrs : List Attribute) : List Attribute :=
  attrs.filter fun a =>
    match a.path.head? with
    | some ident => ident == "ssz"
    | none => false

/-- `validate_no_attrs`: lib.rs:742-747 -/
def validateNoAttrs (fields : List Field) : Calc Unit :=
  match (fields.flatMap fun f => filterSszAttrs f.attrs).head? with
  | some _ => .panic
  | none => .ok ()

/-- The loop over the variants in `validate_derive_input`: lib.rs:789-836. `count` is
`data.variants.len()`. -/
def validateVariants (isTransparent : Bool) (count : Nat) :
    List Variant → Nat → Bool → Bool → Calc Unit
  | [], _, _, _ => .ok ()
  | variant :: rest, i, noneForbidden, alreadyHasNone =>
    match (filterSszAttrs variant.attrs).head? with
    | some _ => .panic
    | none => do
      validateNoAttrs variant.fields.fields
      match variant.fields with
      | .unnamed inner =>
        let noneForbidden' := if i = 0 then true else noneForbidden
        if inner.length ≠ 1 then .panic
        else do
          validateNoAttrs inner
          validateVariants isTransparent count rest (i + 1) noneForbidden' alreadyHasNone
      | .unit =>
        if isTransparent then .panic
        else if noneForbidden then .panic
        else if alreadyHasNone then .panic
        else if !isValidNoneIdentifier variant.ident then .panic
        else if i ≠ 0 then .panic
        else if count < 2 then .panic
        else validateVariants isTransparent count rest (i + 1) noneForbidden true
      | .named _ => .panic

/-- `validate_derive_input`: lib.rs:754-840 -/
def validateDeriveInput (data : Data) (helperAttrs : List HelperAttr) : Calc Unit :=
  if helperAttrs.length > 1 then .panic
  else
    let isTransparent :=
      match helperAttrs.head? with
      | some .transparent => true
      | none => false
    let isEnum :=
      match data with
      | .enum _ => true
      | _ => false
    if isTransparent && !isEnum then .panic
    else
      match data with
      | .struct (.named fields) => if fields.isEmpty then .panic else validateNoAttrs fields
      | .struct (.unnamed fields) => if fields.length = 1 then validateNoAttrs fields else .panic
      | .struct .unit => .panic
      | .enum variants =>
        if variants.isEmpty then .panic
        else if variants.length > 127 then .panic
        else validateVariants isTransparent variants.length variants 0 false false
      | .union => .panic

/-- `parse_helper_attr`: lib.rs:888-893 -/
def parseHelperAttr (ident : String) : Calc HelperAttr :=
  if ident = "transparent" then .ok .transparent else .panic

/-- The closure over the arguments of one attribute: lib.rs:903-918 -/
def parseNested : NestedMeta → Calc HelperAttr
  | .path leadingColon segments =>
    if leadingColon then .panic
    else if segments.length ≠ 1 then .panic
    else do
      let segment ← index segments 0
      if segment.2 then .panic else parseHelperAttr segment.1
  | .otherMeta => .panic
  | .lit => .panic

/-- The closure over the attributes: lib.rs:897-922 -/
def parseAttribute (attr : Attribute) : Calc (List HelperAttr) :=
  match attr.content with
  | .list nested => Res.mapList parseNested nested
  | .other => .panic
  | .invalid => .panic

/-- `extract_helper_attrs`: lib.rs:895-924 -/
def extractHelperAttrs (item : Item) : Calc (List HelperAttr) := do
  let attrs ← Res.mapList parseAttribute (filterSszAttrs item.attrs)
  .ok attrs.flatten

/-- The panics of `derive_variable_size_impl` (lib.rs:242-272) and `derive_size_hint_impl`
(lib.rs:274-308). -/
def generateSizes (data : Data) : Calc Unit :=
  match data with
  | .struct (.named _) => .ok ()
  | .struct (.unnamed _) => .ok ()
  | .struct .unit => .panic
  | .enum _ => .ok ()
  | .union => .panic

/-- The panics of `derive_serialize_impl` (lib.rs:22-99) and `derive_merkleization_impl`
(lib.rs:310-418). -/
def generateByField (data : Data) : Calc Unit :=
  match data with
  | .struct (.named _) => .ok ()
  | .struct (.unnamed _) => .ok ()
  | .struct .unit => .panic
  | .enum variants => (Res.mapList (fun v : Variant =>
      match v.fields with
      | .named _ => .panic
      | _ => .ok ()) variants).map fun _ => ()
  | .union => .panic

/-- The panics of `derive_deserialize_impl`: lib.rs:101-240. -/
def generateDeserialize (data : Data) (isTransparent : Bool) : Calc Unit :=
  match data with
  | .struct (.named _) => .ok ()
  | .struct (.unnamed fields) => (index fields 0).map fun _ => ()
  | .struct .unit => .panic
  | .enum variants => (Res.mapList (fun v : Variant =>
      match v.fields with
      | .unnamed inner => (index inner 0).map fun _ => ()
      | .unit => if isTransparent then .panic else .ok ()
      | .named _ => .panic) variants).map fun _ => ()
  | .union => .panic

/-- The loop over the variants of `derive_generalized_indexable_impl` (lib.rs:484-515, `payload` set)
and of `derive_prove_impl` (lib.rs:647-679, which does not look at the payload). -/
def generateVariants (payload : Bool) : List Variant → Nat → Calc Unit
  | [], _ => .ok ()
  | variant :: rest, i =>
    match variant.fields with
    | .unnamed inner =>
      if payload && inner.head?.isNone then .panic else generateVariants payload rest (i + 1)
    | .unit =>
      if i ≠ 0 || !isValidNoneIdentifier variant.ident then .panic
      else generateVariants payload rest (i + 1)
    | .named _ => .panic

/-- The panics of `derive_generalized_indexable_impl`: lib.rs:420-589. -/
def generateIndexable (data : Data) : Calc Unit :=
  match data with
  | .struct (.named _) => .ok ()
  | .struct (.unnamed fields) => if fields.head?.isNone then .panic else .ok ()
  | .struct .unit => .panic
  | .enum variants => generateVariants true variants 0
  | .union => .panic

/-- The panics of `derive_prove_impl`: lib.rs:591-724. -/
def generateProve (data : Data) : Calc Unit :=
  match data with
  | .struct (.named _) => .ok ()
  | .struct (.unnamed _) => .ok ()
  | .struct .unit => .panic
  | .enum variants => generateVariants false variants 0
  | .union => .panic

/-- `derive_serializable_impl`: lib.rs:842-873 -/
def generateSerializable (data : Data) (isTransparent : Bool) : Calc Unit := do
  generateByField data
  generateDeserialize data isTransparent
  generateSizes data
  generateSizes data

/-- `derive_serializable`: lib.rs:931-945 -/
def deriveSerializable (item : Item) : Calc Unit := do
  let helperAttrs ← extractHelperAttrs item
  validateDeriveInput item.data helperAttrs
  generateSerializable item.data helperAttrs.head?.isSome

/-- `derive_hash_tree_root`: lib.rs:949-963 -/
def deriveHashTreeRoot (item : Item) : Calc Unit := do
  let helperAttrs ← extractHelperAttrs item
  validateDeriveInput item.data helperAttrs
  generateByField item.data

/-- `derive_generalized_indexable`: lib.rs:967-978 -/
def deriveGeneralizedIndexable (item : Item) : Calc Unit := do
  validateDeriveInput item.data []
  generateIndexable item.data

/-- `derive_prove`: lib.rs:981-992 -/
def deriveProve (item : Item) : Calc Unit := do
  validateDeriveInput item.data []
  generateProve item.data

/-- `derive`, the macro for `SimpleSerialize`: lib.rs:996-1029 -/
def deriveSimpleSerialize (item : Item) : Calc Unit := do
  validateDeriveInput item.data []
  generateSerializable item.data false
  generateByField item.data
  generateIndexable item.data
  generateProve item.data

end Ssz.Macro
