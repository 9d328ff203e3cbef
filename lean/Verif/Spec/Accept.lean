import Verif.Spec.Encoding
import Mathlib.Data.List.Forall2

/-!
# The inputs that decoding accepts, and those that crash it

`Accepts t b v`: `b` is an encoding of `v`, with the one liberty that the decoder takes: an empty
`List` of variable-size elements may be written as any bytes that begin with a zero offset.
-/

namespace Ssz.Spec

/-- The elements of a collection, encoded with `A`, laid out one after the other. -/
def Laid {α : Type} (var : Bool) (A : Bytes → α → Prop) (b : Bytes) (vs : List α) : Prop :=
  ∃ ps : List Bytes, List.Forall₂ A ps vs ∧ Addressed (ps.map fun p => (var, p)) ∧
    b = assemble (ps.map fun p => (var, p))

mutual

/-- Decoding accepts the bytes for the value. -/
def Accepts : (t : Ty) → Bytes → t.Val → Prop
  | .uint u, b, v => b = enc (.uint u) v
  | .u256, b, v => b = enc .u256 v
  | .bool, b, v => b = enc .bool v
  | .node, b, v => b = enc .node v
  | .array t _, b, v => Laid (isVar t) (Accepts t) b v.1
  | .vector t n, b, v => List.length v = n ∧ Laid (isVar t) (Accepts t) b v
  | .list t n, b, v => List.length v ≤ n ∧ (Laid (isVar t) (Accepts t) b v ∨
      (isVar t = true ∧ v = ([] : List t.Val) ∧ ∃ rest, b = 0 :: 0 :: 0 :: 0 :: rest))
  | .bitvector n, b, v => v.live.length = n ∧ v.dead = padBits n ∧ b = packBits v.live
  | .bitlist n, b, v =>
    v.live.length ≤ n ∧ v.dead = padBits v.live.length ∧ b = packBits (v.live ++ [true])
  | .option t, b, v => match (v : Option t.Val) with
    | none => b = [0]
    | some x => ∃ r, b = 1 :: r ∧ Accepts t r x
  | .newtype t, b, v => Accepts t b v
  | .container fs, b, v => ∃ ps, AcceptsF fs ps v ∧ Addressed ps ∧ b = assemble ps
  | .union vs, b, v => AcceptsV vs 0 b v

/-- The pieces are accepted for the fields of a struct. -/
def AcceptsF : (fs : Fields) → List Piece → fs.Val → Prop
  | .nil, ps, _ => ps = []
  | .cons _ t rest, ps, v =>
    ∃ p qs, ps = (isVar t, p) :: qs ∧ Accepts t p v.1 ∧ AcceptsF rest qs v.2

/-- The bytes are accepted for a value of an enum; `i` is the position of the first variant. -/
def AcceptsV : (vs : Variants) → Nat → Bytes → vs.Val → Prop
  | .nil, _, _, _ => False
  | .unit _, i, b, .inl _ => b = [BitVec.ofNat 8 i]
  | .unit rest, i, b, .inr v => AcceptsV rest (i + 1) b v
  | .data t _, i, b, .inl v => ∃ r, b = BitVec.ofNat 8 i :: r ∧ Accepts t r v
  | .data _ rest, i, b, .inr v => AcceptsV rest (i + 1) b v

end

/-! ## Inputs that crash the decoder -/

/-- Walking over the spans between consecutive offsets, all spans before are decoded (`A`), and the
walk reaches a span that ends outside of the input or crashes the decoder of elements (`P`). -/
def SpansCrash (A P : Bytes → Prop) (b : Bytes) : List Nat → Prop
  | start :: stop :: rest =>
    start ≤ stop ∧ (b.length < stop ∨ P ((b.drop start).take (stop - start)) ∨
      (A ((b.drop start).take (stop - start)) ∧ SpansCrash A P b (stop :: rest)))
  | _ => False

/-- The input starts with a table of offsets, the first of which is the length of the table, and
the walk over the spans crashes. -/
def TableCrash (A P : Bytes → Prop) (b : Bytes) : Prop :=
  ∃ (table : List Nat) (rest : Bytes), b = table.flatMap (leBytes 4) ++ rest ∧
    (∀ o ∈ table, o < 2 ^ 32) ∧ table.head? = some (4 * table.length) ∧
    SpansCrash A P b (table ++ [b.length])

/-- Reading the head of a struct from `r`: all offsets before are in order and inside the input
except perhaps the first one, and some second or later offset is in order but outside of the
input, of length `len`. `prev` is the offset read last. -/
def HeadCrash (len : Nat) : Fields → Option Nat → Bytes → Prop
  | .nil, _, _ => False
  | .cons _ t rest, prev, r =>
    if isVar t = true then
      ∃ o r', o < 2 ^ 32 ∧ r = leBytes 4 o ++ r' ∧
        match prev with
        | none => HeadCrash len rest (some o) r'
        | some p => p ≤ o ∧ (len < o ∨ HeadCrash len rest (some o) r')
    else
      fixedLen t ≤ r.length ∧ HeadCrash len rest prev (r.drop (fixedLen t))

/-- The pieces have the kinds and the sizes of the fields. -/
def Shaped : Fields → List Piece → Prop
  | .nil, ps => ps = []
  | .cons _ t rest, ps => ∃ p qs, ps = (isVar t, p) :: qs ∧
    (isVar t = false → p.length = fixedLen t) ∧ Shaped rest qs

mutual

/-- Decoding the bytes crashes, in a build with overflow checks if `dbg`, else without. -/
def Crashes (dbg : Bool) : Ty → Bytes → Prop
  | .uint _, _ => False
  | .u256, _ => False
  | .bool, _ => False
  | .node, _ => False
  | .array t _, b => isVar t = true ∧ TableCrash (fun p => ∃ v, Accepts t p v) (Crashes dbg t) b
  | .vector t _, b => isVar t = true ∧ TableCrash (fun p => ∃ v, Accepts t p v) (Crashes dbg t) b
  | .list t _, b => isVar t = true ∧ TableCrash (fun p => ∃ v, Accepts t p v) (Crashes dbg t) b
  | .bitvector _, _ => False
  | .bitlist _, _ => False
  | .option t, b => ∃ r, b = 1 :: r ∧ Crashes dbg t r
  | .newtype t, b => Crashes dbg t b
  | .container fs, b => (dbg = true ∧ HeadCrash b.length fs none b) ∨
      ∃ ps, b = assemble ps ∧ Addressed ps ∧ Shaped fs ps ∧ CrashesF dbg fs ps
  | .union vs, b => CrashesV dbg vs 0 b

/-- Decoding a field crashes, after all fields before it are decoded. -/
def CrashesF (dbg : Bool) : Fields → List Piece → Prop
  | .cons _ t rest, p :: ps =>
    Crashes dbg t p.2 ∨ ((∃ v, Accepts t p.2 v) ∧ CrashesF dbg rest ps)
  | _, _ => False

/-- Decoding the payload of the selected variant crashes. -/
def CrashesV (dbg : Bool) : Variants → Nat → Bytes → Prop
  | .nil, _, _ => False
  | .unit rest, i, b => CrashesV dbg rest (i + 1) b
  | .data t rest, i, b =>
    (∃ r, b = BitVec.ofNat 8 i :: r ∧ Crashes dbg t r) ∨ CrashesV dbg rest (i + 1) b

end

end Ssz.Spec
