import Verif.Spec.Index

/-!
# Specification of changes to a part of a value, and of the value of a part
-/

namespace Ssz.Spec

/-- Two lists that have an element at position `i` and are equal up to that element, the two elements
being in the given relation. -/
def ButAt {α : Type} (R : α → α → Prop) (i : Nat) (v w : List α) : Prop :=
  ∃ a x y b, v = a ++ x :: b ∧ w = a ++ y :: b ∧ a.length = i ∧ R x y

mutual

/-- The path, which consists of elements, fields and variants, leads to a part of both values, and the
two values are equal except in that part. -/
def SameBut : (t : Ty) → t.Val → t.Val → List PathElement → Prop
  | .array t _, v, w, path =>
    match path with
    | [] => True
    | .index i :: rest => ButAt (fun x y => SameBut t x y rest) i v.1 w.1
    | _ => False
  | .vector t _, v, w, path =>
    match path with
    | [] => True
    | .index i :: rest => ButAt (fun x y => SameBut t x y rest) i v w
    | _ => False
  | .list t _, v, w, path =>
    match path with
    | [] => True
    | .index i :: rest => ButAt (fun x y => SameBut t x y rest) i v w
    | _ => False
  | .bitvector _, v, w, path =>
    match path with
    | [] => True
    | .index i :: rest => ButAt (fun _ _ => rest = []) i v.live w.live
    | _ => False
  | .bitlist _, v, w, path =>
    match path with
    | [] => True
    | .index i :: rest => ButAt (fun _ _ => rest = []) i v.live w.live
    | _ => False
  | .option t, v, w, path =>
    match path with
    | [] => True
    | .index i :: rest =>
      match (show Option t.Val from v), (show Option t.Val from w) with
      | some x, some y => i = 1 ∧ SameBut t x y rest
      | none, none => i = 0 ∧ rest = []
      | _, _ => False
    | _ => False
  | .newtype t, v, w, path => SameBut t v w path
  | .container fs, v, w, path =>
    match path with
    | [] => True
    | .field name :: rest => SameButF fs v w name rest
    | _ => False
  | .union vs, v, w, path =>
    match path with
    | [] => True
    | .index i :: rest => SameButV vs v w i rest
    | _ => False
  | .uint _, _, _, path => path = []
  | .u256, _, _, path => path = []
  | .bool, _, _, path => path = []
  | .node, _, _, path => path = []

/-- `SameBut` for structs, from the field with the given name. -/
def SameButF : (fs : Fields) → fs.Val → fs.Val → String → List PathElement → Prop
  | .nil, _, _, _, _ => False
  | .cons name t rest, v, w, field, path =>
    if field = name then SameBut t v.1 w.1 path ∧ v.2 = w.2
    else v.1 = w.1 ∧ SameButF rest v.2 w.2 field path

/-- `SameBut` for enums, from the variant with the given number. -/
def SameButV : (vs : Variants) → vs.Val → vs.Val → Nat → List PathElement → Prop
  | .nil, _, _, _, _ => False
  | .unit _, .inl _, .inl _, i, path => i = 0 ∧ path = []
  | .unit rest, .inr v, .inr w, i, path => 0 < i ∧ SameButV rest v w (i - 1) path
  | .unit _, _, _, _, _ => False
  | .data t _, .inl v, .inl w, i, path => i = 0 ∧ SameBut t v w path
  | .data _ rest, .inr v, .inr w, i, path => 0 < i ∧ SameButV rest v w (i - 1) path
  | .data _ _, _, _, _, _ => False

end

mutual

/-- The path, which consists of elements, fields and variants, leads from the value to the given value
of the given type. Paths into chunks, which hold several elements, are left out. -/
def LeadsTo (u : Ty) (x : u.Val) : (t : Ty) → t.Val → List PathElement → Prop
  | .array t n, v, path =>
    match path with
    | [] => (⟨.array t n, v⟩ : Σ t : Ty, t.Val) = ⟨u, x⟩
    | .index i :: rest => packs t = false ∧ ∃ y, v.1[i]? = some y ∧ LeadsTo u x t y rest
    | _ => False
  | .vector t n, v, path =>
    match path with
    | [] => (⟨.vector t n, v⟩ : Σ t : Ty, t.Val) = ⟨u, x⟩
    | .index i :: rest =>
      packs t = false ∧ ∃ y, (show List t.Val from v)[i]? = some y ∧ LeadsTo u x t y rest
    | _ => False
  | .list t n, v, path =>
    match path with
    | [] => (⟨.list t n, v⟩ : Σ t : Ty, t.Val) = ⟨u, x⟩
    | .index i :: rest =>
      packs t = false ∧ ∃ y, (show List t.Val from v)[i]? = some y ∧ LeadsTo u x t y rest
    | _ => False
  | .option t, v, path =>
    match path with
    | [] => (⟨.option t, v⟩ : Σ t : Ty, t.Val) = ⟨u, x⟩
    | .index i :: rest => i = 1 ∧ ∃ y, (show Option t.Val from v) = some y ∧ LeadsTo u x t y rest
    | _ => False
  | .newtype t, v, path =>
    match path with
    | [] => (⟨.newtype t, v⟩ : Σ t : Ty, t.Val) = ⟨u, x⟩
    | _ => LeadsTo u x t v path
  | .container fs, v, path =>
    match path with
    | [] => (⟨.container fs, v⟩ : Σ t : Ty, t.Val) = ⟨u, x⟩
    | .field name :: rest => LeadsToF u x fs v name rest
    | _ => False
  | .union vs, v, path =>
    match path with
    | [] => (⟨.union vs, v⟩ : Σ t : Ty, t.Val) = ⟨u, x⟩
    | .index i :: rest => LeadsToV u x vs v i rest
    | _ => False
  | .bitvector n, v, path => path = [] ∧ (⟨.bitvector n, v⟩ : Σ t : Ty, t.Val) = ⟨u, x⟩
  | .bitlist n, v, path => path = [] ∧ (⟨.bitlist n, v⟩ : Σ t : Ty, t.Val) = ⟨u, x⟩
  | .uint k, v, path => path = [] ∧ (⟨.uint k, v⟩ : Σ t : Ty, t.Val) = ⟨u, x⟩
  | .u256, v, path => path = [] ∧ (⟨.u256, v⟩ : Σ t : Ty, t.Val) = ⟨u, x⟩
  | .bool, v, path => path = [] ∧ (⟨.bool, v⟩ : Σ t : Ty, t.Val) = ⟨u, x⟩
  | .node, v, path => path = [] ∧ (⟨.node, v⟩ : Σ t : Ty, t.Val) = ⟨u, x⟩

/-- `LeadsTo` from a struct, through the field with the given name. -/
def LeadsToF (u : Ty) (x : u.Val) : (fs : Fields) → fs.Val → String → List PathElement → Prop
  | .nil, _, _, _ => False
  | .cons name t rest, v, field, path =>
    if field = name then LeadsTo u x t v.1 path else LeadsToF u x rest v.2 field path

/-- `LeadsTo` from an enum value, through the variant with the given number. -/
def LeadsToV (u : Ty) (x : u.Val) : (vs : Variants) → vs.Val → Nat → List PathElement → Prop
  | .nil, _, _, _ => False
  | .unit _, .inl _, _, _ => False
  | .unit rest, .inr v, i, path => 0 < i ∧ LeadsToV u x rest v (i - 1) path
  | .data t _, .inl v, i, path => i = 0 ∧ LeadsTo u x t v path
  | .data _ rest, .inr v, i, path => 0 < i ∧ LeadsToV u x rest v (i - 1) path

end

end Ssz.Spec
