import Verif.Spec.Merkle

/-!
# Types with roots in place of parts

A type where the types of some parts are replaced by `Node`, as a block header has the root of the
body in place of the body; and the value where these parts are replaced by their roots.
-/

namespace Ssz.Spec

mutual

/-- How the second type comes from the first one by putting `Node` in place of parts. -/
inductive Summary : Ty → Ty → Type
  | same (t : Ty) : Summary t t
  | root (t : Ty) : Summary t .node
  | array {t t' : Ty} (r : Summary t t') (n : Nat) : Summary (.array t n) (.array t' n)
  | vector {t t' : Ty} (r : Summary t t') (n : Nat) : Summary (.vector t n) (.vector t' n)
  | list {t t' : Ty} (r : Summary t t') (n : Nat) : Summary (.list t n) (.list t' n)
  | option {t t' : Ty} (r : Summary t t') : Summary (.option t) (.option t')
  | newtype {t t' : Ty} (r : Summary t t') : Summary (.newtype t) (.newtype t')
  | container {fs fs' : Fields} (r : SummaryF fs fs') : Summary (.container fs) (.container fs')
  | union {vs vs' : Variants} (r : SummaryV vs vs') : Summary (.union vs) (.union vs')

/-- `Summary` for the fields of a struct. -/
inductive SummaryF : Fields → Fields → Type
  | nil : SummaryF .nil .nil
  | cons (name : String) {t t' : Ty} {rest rest' : Fields} (r : Summary t t')
      (rs : SummaryF rest rest') : SummaryF (.cons name t rest) (.cons name t' rest')

/-- `Summary` for the variants of an enum. -/
inductive SummaryV : Variants → Variants → Type
  | nil : SummaryV .nil .nil
  | unit {rest rest' : Variants} (rs : SummaryV rest rest') : SummaryV (.unit rest) (.unit rest')
  | data {t t' : Ty} {rest rest' : Variants} (r : Summary t t') (rs : SummaryV rest rest') :
      SummaryV (.data t rest) (.data t' rest')

end

mutual

/-- The value with roots in place of parts. -/
def summary (H : Bytes → Node) : {t t' : Ty} → Summary t t' → t.Val → t'.Val
  | _, _, .same _, v => v
  | _, _, .root t, v => (treeBy packs t v).root H
  | _, _, .array r _, v => ⟨v.1.map (summary H r), by rw [List.length_map]; exact v.2⟩
  | _, _, .vector r _, v => List.map (summary H r) v
  | _, _, .list r _, v => List.map (summary H r) v
  | _, _, .option r, v => Option.map (summary H r) v
  | _, _, .newtype r, v => (summary H r v :)
  | _, _, .container r, v => summaryF H r v
  | _, _, .union r, v => summaryV H r v

/-- `summary` for the fields of a struct. -/
def summaryF (H : Bytes → Node) : {fs fs' : Fields} → SummaryF fs fs' → fs.Val → fs'.Val
  | _, _, .nil, _ => ()
  | _, _, .cons _ r rs, v => (summary H r v.1, summaryF H rs v.2)

/-- `summary` for the values of an enum. -/
def summaryV (H : Bytes → Node) : {vs vs' : Variants} → SummaryV vs vs' → vs.Val → vs'.Val
  | _, _, .nil, v => Empty.elim v
  | _, _, .unit _, .inl v => .inl v
  | _, _, .unit rs, .inr v => .inr (summaryV H rs v)
  | _, _, .data r _, .inl v => .inl (summary H r v)
  | _, _, .data _ rs, .inr v => .inr (summaryV H rs v)

end

/-- The elements of a collection stay as they are, or are not packed before, and after it only if they
are roots. -/
def Unpacked : {t t' : Ty} → Summary t t' → Prop
  | _, _, .same _ => True
  | t, t', _ => packs t = false ∧ (packs t' = true → t' = .node)

mutual

/-- Elements of collections that are replaced, entirely or in part, are not packed, and after it only
if they are roots. -/
def Apart : {t t' : Ty} → Summary t t' → Prop
  | _, _, .same _ => True
  | _, _, .root _ => True
  | _, _, .array r _ => Unpacked r ∧ Apart r
  | _, _, .vector r _ => Unpacked r ∧ Apart r
  | _, _, .list r _ => Unpacked r ∧ Apart r
  | _, _, .option r => Apart r
  | _, _, .newtype r => Apart r
  | _, _, .container r => ApartF r
  | _, _, .union r => ApartV r

/-- `Apart` for the fields of a struct. -/
def ApartF : {fs fs' : Fields} → SummaryF fs fs' → Prop
  | _, _, .nil => True
  | _, _, .cons _ r rs => Apart r ∧ ApartF rs

/-- `Apart` for the variants of an enum. -/
def ApartV : {vs vs' : Variants} → SummaryV vs vs' → Prop
  | _, _, .nil => True
  | _, _, .unit rs => ApartV rs
  | _, _, .data r rs => Apart r ∧ ApartV rs

end

end Ssz.Spec
