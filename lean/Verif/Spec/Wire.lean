import Verif.Spec.Accept
import Verif.Spec.Merkle

/-!
# Types that are encoded alike

Changes to a type that leave the encoding alone: other bounds of lists and bitlists, other names of
fields, wrapping in a newtype or unwrapping, a `Vector` in place of an array, and an enum of nothing
and one payload in place of an `Option` or the other way round; each of them anywhere inside the type.
-/

namespace Ssz.Spec

mutual

/-- How the second type comes from the first one. -/
inductive Wire : Ty → Ty → Type
  | same (t : Ty) : Wire t t
  | array {t t' : Ty} (r : Wire t t') (n : Nat) : Wire (.array t n) (.array t' n)
  | vector {t t' : Ty} (r : Wire t t') (n : Nat) : Wire (.vector t n) (.vector t' n)
  | arrayVector {t t' : Ty} (r : Wire t t') (n : Nat) : Wire (.array t n) (.vector t' n)
  | list {t t' : Ty} (r : Wire t t') (n n' : Nat) : Wire (.list t n) (.list t' n')
  | bitlist (n n' : Nat) : Wire (.bitlist n) (.bitlist n')
  | option {t t' : Ty} (r : Wire t t') : Wire (.option t) (.option t')
  | optionUnion {t t' : Ty} (r : Wire t t') : Wire (.option t) (.union (.unit (.data t' .nil)))
  | unionOption {t t' : Ty} (r : Wire t t') : Wire (.union (.unit (.data t .nil))) (.option t')
  | wrap {t t' : Ty} (r : Wire t t') : Wire t (.newtype t')
  | unwrap {t t' : Ty} (r : Wire t t') : Wire (.newtype t) t'
  | container {fs fs' : Fields} (r : WireF fs fs') : Wire (.container fs) (.container fs')
  | union {vs vs' : Variants} (r : WireV vs vs') : Wire (.union vs) (.union vs')

/-- `Wire` for the fields of a struct. -/
inductive WireF : Fields → Fields → Type
  | nil : WireF .nil .nil
  | cons (name name' : String) {t t' : Ty} {rest rest' : Fields} (r : Wire t t')
      (rs : WireF rest rest') : WireF (.cons name t rest) (.cons name' t' rest')

/-- `Wire` for the variants of an enum. -/
inductive WireV : Variants → Variants → Type
  | nil : WireV .nil .nil
  | unit {rest rest' : Variants} (rs : WireV rest rest') : WireV (.unit rest) (.unit rest')
  | data {t t' : Ty} {rest rest' : Variants} (r : Wire t t') (rs : WireV rest rest') :
      WireV (.data t rest) (.data t' rest')

end

mutual

/-- The value of the second type with the same contents. -/
def conv : {t t' : Ty} → Wire t t' → t.Val → t'.Val
  | _, _, .same _, v => v
  | _, _, .array r _, v => ⟨v.1.map (conv r), by rw [List.length_map]; exact v.2⟩
  | _, _, .vector r _, v => List.map (conv r) v
  | _, _, .arrayVector r _, v => List.map (conv r) v.1
  | _, _, .list r _ _, v => List.map (conv r) v
  | _, _, .bitlist _ _, v => v
  | _, _, .option r, v => Option.map (conv r) v
  | _, _, .optionUnion r, v => match v with
    | none => .inl ()
    | some x => .inr (.inl (conv r x))
  | _, _, .unionOption r, v => match v with
    | .inl _ => none
    | .inr (.inl x) => some (conv r x)
    | .inr (.inr x) => Empty.elim x
  | _, _, .wrap r, v => (conv r v :)
  | _, _, .unwrap r, v => conv r v
  | _, _, .container r, v => convF r v
  | _, _, .union r, v => convV r v

/-- `conv` for the fields of a struct. -/
def convF : {fs fs' : Fields} → WireF fs fs' → fs.Val → fs'.Val
  | _, _, .nil, _ => ()
  | _, _, .cons _ _ r rs, v => (conv r v.1, convF rs v.2)

/-- `conv` for the values of an enum. -/
def convV : {vs vs' : Variants} → WireV vs vs' → vs.Val → vs'.Val
  | _, _, .nil, v => Empty.elim v
  | _, _, .unit _, .inl v => .inl v
  | _, _, .unit rs, .inr v => .inr (convV rs v)
  | _, _, .data r _, .inl v => .inl (conv r v)
  | _, _, .data _ rs, .inr v => .inr (convV rs v)

end

mutual

/-- No bound gets smaller. -/
def Raises : {t t' : Ty} → Wire t t' → Prop
  | _, _, .same _ => True
  | _, _, .array r _ => Raises r
  | _, _, .vector r _ => Raises r
  | _, _, .arrayVector r _ => Raises r
  | _, _, .list r n n' => n ≤ n' ∧ Raises r
  | _, _, .bitlist n n' => n ≤ n'
  | _, _, .option r => Raises r
  | _, _, .optionUnion r => Raises r
  | _, _, .unionOption r => Raises r
  | _, _, .wrap r => Raises r
  | _, _, .unwrap r => Raises r
  | _, _, .container r => RaisesF r
  | _, _, .union r => RaisesV r

/-- `Raises` for the fields of a struct. -/
def RaisesF : {fs fs' : Fields} → WireF fs fs' → Prop
  | _, _, .nil => True
  | _, _, .cons _ _ r rs => Raises r ∧ RaisesF rs

/-- `Raises` for the variants of an enum. -/
def RaisesV : {vs vs' : Variants} → WireV vs vs' → Prop
  | _, _, .nil => True
  | _, _, .unit rs => RaisesV rs
  | _, _, .data r rs => Raises r ∧ RaisesV rs

end

mutual

/-- The trees of lists and bitlists keep their depths, and elements of collections are packed in both
types or in none. -/
def SameTrees : {t t' : Ty} → Wire t t' → Prop
  | _, _, .same _ => True
  | _, _, @Wire.array t t' r _ => packs t = packs t' ∧ SameTrees r
  | _, _, @Wire.vector t t' r _ => packs t = packs t' ∧ SameTrees r
  | _, _, @Wire.arrayVector t t' r _ => packs t = packs t' ∧ SameTrees r
  | _, _, @Wire.list t t' r n n' => packs t = packs t' ∧
      depthFor (chunkCountBy packs t n) = depthFor (chunkCountBy packs t n') ∧ SameTrees r
  | _, _, .bitlist n n' => depthFor ((n + 255) / 256) = depthFor ((n' + 255) / 256)
  | _, _, .option r => SameTrees r
  | _, _, .optionUnion r => SameTrees r
  | _, _, .unionOption r => SameTrees r
  | _, _, .wrap r => SameTrees r
  | _, _, .unwrap r => SameTrees r
  | _, _, .container r => SameTreesF r
  | _, _, .union r => SameTreesV r

/-- `SameTrees` for the fields of a struct. -/
def SameTreesF : {fs fs' : Fields} → WireF fs fs' → Prop
  | _, _, .nil => True
  | _, _, .cons _ _ r rs => SameTrees r ∧ SameTreesF rs

/-- `SameTrees` for the variants of an enum. -/
def SameTreesV : {vs vs' : Variants} → WireV vs vs' → Prop
  | _, _, .nil => True
  | _, _, .unit rs => SameTreesV rs
  | _, _, .data r rs => SameTrees r ∧ SameTreesV rs

end

end Ssz.Spec
