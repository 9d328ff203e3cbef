import Verif.Model.Macro

/-!
# The items that the derive macro is meant for

Written without the functions of the macro: only the syntax of items (`Macro.Item`) is shared.
-/

namespace Ssz.Spec

open Macro

/-- An attribute meant for the macro: `#[ssz ..]`, `#[ssz::..]`. -/
def isHelper (a : Attribute) : Prop := ∃ rest, a.path = "ssz" :: rest

/-- No field carries an attribute for the macro. -/
def plainFields (fs : List Field) : Prop := ∀ f ∈ fs, ∀ a ∈ f.attrs, ¬ isHelper a

/-- An enum variant with one payload. -/
def payloadVariant (v : Variant) : Prop := ∃ f, v.fields = .unnamed [f]

/-- The variants of an enum: all have one payload, except that the first may be a unit variant called
`None` if another variant follows and the enum is not transparent. -/
def legalVariants (transparent : Bool) (vs : List Variant) : Prop :=
  (∀ v ∈ vs, payloadVariant v) ∨
  (∃ v rest, vs = v :: rest ∧ v.ident = "None" ∧ v.fields = .unit ∧ rest ≠ [] ∧
    transparent = false ∧ ∀ w ∈ rest, payloadVariant w)

/-- The shapes the macro is meant for: structs with named fields, structs with one unnamed field, and
enums of 1 to 127 variants; attributes for the macro occur on no part of the item. -/
def legalShape (transparent : Bool) : Data → Prop
  | .struct (.named fs) => fs ≠ [] ∧ transparent = false ∧ plainFields fs
  | .struct (.unnamed fs) => fs.length = 1 ∧ transparent = false ∧ plainFields fs
  | .struct .unit => False
  | .enum vs => 1 ≤ vs.length ∧ vs.length ≤ 127 ∧ legalVariants transparent vs ∧
      ∀ v ∈ vs, (∀ a ∈ v.attrs, ¬ isHelper a) ∧ plainFields v.fields.fields
  | .union => False

/-- The arguments of an attribute for the macro. -/
def helperArgs (a : Attribute) : List NestedMeta :=
  if a.path.head? = some "ssz" then
    match a.content with
    | .list nested => nested
    | _ => []
  else []

/-- The attributes of an item ask for a transparent enum or not: attributes for the macro have the
form `ssz(..)` with no argument other than `transparent`, which occurs once or never. -/
def helperIs (transparent : Bool) (attrs : List Attribute) : Prop :=
  (∀ a ∈ attrs, isHelper a → ∃ nested, a.content = .list nested) ∧
  attrs.flatMap helperArgs = if transparent then [.path false [("transparent", false)]] else []

/-- The type that an accepted struct or enum (without attributes) stands for. -/
def fieldsTy : List Field → Fields
  | [] => .nil
  | f :: fs => .cons f.name f.ty (fieldsTy fs)

/-- The variants. -/
def variantsTy : List Variant → Variants
  | [] => .nil
  | v :: vs =>
    match v.fields with
    | .unnamed (f :: _) => .data f.ty (variantsTy vs)
    | _ => .unit (variantsTy vs)

/-- The type of an item. -/
def dataTy : Data → Option Ty
  | .struct (.named fs) => some (.container (fieldsTy fs))
  | .struct (.unnamed [f]) => some (.newtype f.ty)
  | .enum vs => some (.union (variantsTy vs))
  | _ => none

/-- The types of the parts of an item. -/
def parts : Data → List Ty
  | .struct fs => fs.fields.map (·.ty)
  | .enum vs => vs.flatMap fun v => v.fields.fields.map (·.ty)
  | .union => []

end Ssz.Spec
