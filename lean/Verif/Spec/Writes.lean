import Verif.Spec.Encoding
import Verif.Model.Derive

/-!
# What encoding a value built from parts of any kind does

Anyone can implement `Serialize` for a type of their own, and such code may fail, leave bytes in the buffer,
or crash. `Written` is the outcome of one call.
-/

namespace Ssz.Spec

/-- The outcome of `serialize`. -/
inductive Written where
  /-- The bytes are appended to the buffer and the number is returned. -/
  | ok (bytes : Bytes) (count : Nat)
  /-- The bytes are appended to the buffer and an error is returned. -/
  | err (left : Bytes) (e : SerError)
  /-- The call does not return. -/
  | crash

/-- `T` does this with the value, whatever is in the buffer. -/
def WritesAt {α : Type} (T : Serializable α) (v : α) (w : Written) : Prop :=
  ∀ buf, match w with
    | .ok b n => T.serialize v buf = (buf ++ b, .ok n)
    | .err l e => T.serialize v buf = (buf ++ l, .err e)
    | .crash => (T.serialize v buf).2 = .panic

/-- The size that `T` announces is one that a vector can have. -/
def Announces {α : Type} (T : Serializable α) : Prop := ∃ s, T.sizeHint = .ok s ∧ s < 2 ^ 63

namespace Written

/-- The outcome for parts, each variable-size or not, after others that gave `done`. The first part that fails
decides, and nothing is left in the buffer; the bytes of all parts must be fewer than `2^32`. -/
def collect (done : List Piece) : List (Bool × Written) → Written
  | [] =>
    if (assemble done).length < 2 ^ 32 then .ok (assemble done) (assemble done).length
    else .err [] (.maximumEncodedLengthReached (assemble done).length)
  | (var, .ok b _) :: rest => collect (done ++ [(var, b)]) rest
  | (_, .err _ e) :: _ => .err [] e
  | (_, .crash) :: _ => .crash

/-- The outcome after a selector, which stays in the buffer when the payload fails. -/
def selected (x : Byte) : Written → Written
  | .ok b n => .ok (x :: b) (1 + n)
  | .err l e => .err (x :: l) e
  | .crash => .crash

end Written

/-- The outcomes of the fields of a struct, each with whether the field is variable-size. -/
inductive StructWrites : {α : Type} → FieldImpls α → α → List (Bool × Written) → Prop where
  | nil : StructWrites .nil () []
  | cons {α β : Type} {name : String} {T : SimpleSerialize α} {rest : FieldImpls β} {x : α} {v : β}
      {w : Written} {ws : List (Bool × Written)} (hs : Announces T.toSerializable)
      (h : WritesAt T.toSerializable x w) (hr : StructWrites rest v ws) :
      StructWrites (.cons name T rest) (x, v) ((T.isVariableSize, w) :: ws)

/-- The position of the variant of an enum and the outcome of its payload. -/
inductive EnumWrites : {α : Type} → PayloadImpls α → α → Nat → Written → Prop where
  | here {α β : Type} {T : SimpleSerialize α} {rest : PayloadImpls β} {x : α} {w : Written}
      (h : WritesAt T.toSerializable x w) : EnumWrites (.cons T rest) (.inl x) 0 w
  | there {α β : Type} {T : SimpleSerialize α} {rest : PayloadImpls β} {v : β} {i : Nat} {w : Written}
      (h : EnumWrites rest v i w) : EnumWrites (.cons T rest) (.inr v) (i + 1) w

end Ssz.Spec
