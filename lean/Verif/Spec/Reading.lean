import Verif.Spec.Update

/-!
# What a node of the Merkle tree tells about a value

Elements, bits, lengths and selectors of values, for statements about the leaves of proofs.
-/

namespace Ssz.Spec

/-- Element `i` of a collection is the given value of the given type. -/
inductive HasElement : (c : Ty) → c.Val → Nat → (s : Ty) → s.Val → Prop
  | array {s : Ty} {n i : Nat} {xs : { l : List s.Val // l.length = n }} {x : s.Val}
      (h : xs.1[i]? = some x) : HasElement (.array s n) xs i s x
  | vector {s : Ty} {n i : Nat} {xs : List s.Val} {x : s.Val} (h : xs[i]? = some x) :
      HasElement (.vector s n) xs i s x
  | list {s : Ty} {n i : Nat} {xs : List s.Val} {x : s.Val} (h : xs[i]? = some x) :
      HasElement (.list s n) xs i s x
  | newtype {c s : Ty} {i : Nat} {v : c.Val} {x : s.Val} (h : HasElement c v i s x) :
      HasElement (.newtype c) v i s x

/-- Bit `i` of a bitfield. -/
inductive HasBit : (c : Ty) → c.Val → Nat → Bool → Prop
  | bitvector {n i : Nat} {v : Bits} {b : Bool} (h : v.live[i]? = some b) :
      HasBit (.bitvector n) v i b
  | bitlist {n i : Nat} {v : Bits} {b : Bool} (h : v.live[i]? = some b) : HasBit (.bitlist n) v i b
  | newtype {c : Ty} {i : Nat} {v : c.Val} {b : Bool} (h : HasBit c v i b) :
      HasBit (.newtype c) v i b

/-- The number of elements of a list. -/
inductive HasLength : (c : Ty) → c.Val → Nat → Prop
  | list {s : Ty} {n : Nat} {xs : List s.Val} : HasLength (.list s n) xs xs.length
  | newtype {c : Ty} {v : c.Val} {k : Nat} (h : HasLength c v k) : HasLength (.newtype c) v k

/-- The number of the active variant. -/
inductive HasSelector : (c : Ty) → c.Val → Nat → Prop
  | none {t : Ty} : HasSelector (.option t) (none : Option t.Val) 0
  | some {t : Ty} {x : t.Val} : HasSelector (.option t) (some x : Option t.Val) 1
  | union {vs : Variants} {v : vs.Val} : HasSelector (.union vs) v (selectorOf vs v)
  | newtype {c : Ty} {v : c.Val} {k : Nat} (h : HasSelector c v k) : HasSelector (.newtype c) v k

end Ssz.Spec
