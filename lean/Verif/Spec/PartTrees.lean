import Verif.Spec.Parts
import Verif.Spec.Index

/-!
# Generalized indices and proofs in types built from parts of any kind

`Spec/Parts` says what it takes for an implementation of the traits to encode its values as intended.
Here is what it takes to resolve paths (`Resolves`) and to hash and prove (`TreeOf`) as intended, and
what SSZ makes of that in the collections, options, structs and enums built from such parts.
-/

namespace Ssz.Spec

/-- The paths into the values of a type, with their generalized indices; `none` for paths that lead
nowhere. -/
abbrev Walk := List PathElement → Option Nat

namespace Walk

/-- A type without parts. -/
def stop : Walk
  | [] => some 1
  | _ :: _ => none

/-- The paths that start at the node with index `g`. -/
def below (g : Nat) (w : Walk) : Walk := fun path => (w path).map (gcat g)

/-- `Vector<T, N>` and `[T; N]`, if each element takes `l` of the 32 bytes of a chunk. -/
def vector (w : Walk) (l n : Nat) : Walk
  | [] => some 1
  | .index i :: rest =>
    if i < n then w.below (2 ^ depthFor ((n * l + 31) / 32) + i * l / 32) rest else none
  | _ => none

/-- `List<T, N>`: the elements are on the left, the length is on the right. -/
def list (w : Walk) (l n : Nat) : Walk
  | [] => some 1
  | .index i :: rest =>
    if i < n then w.below (2 * 2 ^ depthFor ((n * l + 31) / 32) + i * l / 32) rest else none
  | .length :: rest => stop.below 3 rest
  | _ => none

/-- The position and the paths of the first field with the given name. -/
def field : List (String × Walk) → String → Option (Nat × Walk)
  | [], _ => none
  | (name, w) :: ws, f => if f = name then some (0, w) else (field ws f).map fun p => (p.1 + 1, p.2)

/-- A struct with the given fields. -/
def struct (ws : List (String × Walk)) : Walk
  | [] => some 1
  | .field f :: rest =>
    match field ws f with
    | none => none
    | some (k, w) => w.below (2 ^ depthFor ws.length + k) rest
  | _ => none

/-- An enum with the given variants: the payload is on the left, the selector is on the right. -/
def union (ws : List Walk) : Walk
  | [] => some 1
  | .index i :: rest =>
    match ws[i]? with
    | none => none
    | some w => w.below 2 rest
  | .selector :: rest => stop.below 3 rest
  | _ => none

/-- `Option<T>` has the variants `None` and `Some(T)`. -/
def option (w : Walk) : Walk := union [stop, w]

end Walk

/-- `F`, given the generalized index of the value and a path into it, resolves the paths of `w` and no
others: it computes the index if that fits in 64 bits, and with overflow checks never another one. -/
structure Resolves (E : Env) (F : Nat → List PathElement → Res MerkError Nat) (w : Walk) : Prop where
  pos : ∀ path g, w path = some g → 1 ≤ g
  fits : ∀ p path g, 1 ≤ p → w path = some g → gcat p g < 2 ^ 64 → F p path = .ok (gcat p g)
  only : ∀ p path r, F p path = .ok r → ∃ g, w path = some g ∧ (E.debug = true → r = gcat p g)

/-- The fields resolve the paths of `ws`, under the same names. -/
def FieldsResolve (E : Env) : {α : Type} → FieldImpls α → List (String × Walk) → Prop
  | _, .nil, ws => ws = []
  | _, .cons name T rest, ws => ∃ w ws', ws = (name, w) :: ws' ∧
      Resolves E T.computeGeneralizedIndex w ∧ FieldsResolve E rest ws'

/-- The payloads resolve the paths of `ws`; in a variant without payload there are none. -/
def VariantsResolve (E : Env) : {α : Type} → VariantImpls α → List Walk → Prop
  | _, .nil, ws => ws = []
  | _, .unit rest, ws => ∃ ws', ws = .stop :: ws' ∧ VariantsResolve E rest ws'
  | _, .data T rest, ws => ∃ w ws', ws = w :: ws' ∧ Resolves E T.computeGeneralizedIndex w ∧
      VariantsResolve E rest ws'

/-- The prover finds the nodes of the tree `s`: given the index of one (that fits in 64 bits) it gives
the node, its branch appended to the branch so far, the index and the root. -/
def Proves (E : Env) (f : Prover → Res MerkError Prover) (s : MTree) : Prop :=
  ∀ (pr : Prover) (u : MTree), s.sub pr.proof.index = some u → pr.proof.index < 2 ^ 64 →
    f pr = .ok { proof := { leaf := u.root E.sha256
                            branch := pr.proof.branch ++ s.branchAt E.sha256 pr.proof.index
                            index := pr.proof.index }
                 witness := s.root E.sha256 }

/-- The implementation `T` hashes and proves the value `v` by the Merkle tree `s`. -/
structure TreeOf {α : Type} (E : Env) (T : SimpleSerialize α) (v : α) (s : MTree) : Prop where
  root : T.hashTreeRoot v = .ok (s.root E.sha256)
  proof : Proves E (computeProof E T v) s

/-- The fields hash and prove by the given trees. -/
def FieldTrees (E : Env) : {α : Type} → FieldImpls α → α → List MTree → Prop
  | _, .nil, _, ss => ss = []
  | _, .cons _ T rest, v, ss => ∃ s ss', ss = s :: ss' ∧ TreeOf E T v.1 s ∧ FieldTrees E rest v.2 ss'

/-- The active variant has the given position, and its payload hashes and proves by the given tree; a
variant without payload is hashed as the zero chunk. -/
def VariantTree (E : Env) : {α : Type} → VariantImpls α → α → Nat → MTree → Prop
  | _, .nil, v, _, _ => v.elim
  | _, .unit _, .inl _, m, s => m = 0 ∧ s = .leaf zeroNode
  | _, .unit rest, .inr v, m, s => ∃ m', m = m' + 1 ∧ VariantTree E rest v m' s
  | _, .data T _, .inl v, m, s => m = 0 ∧ TreeOf E T v s
  | _, .data _ rest, .inr v, m, s => ∃ m', m = m' + 1 ∧ VariantTree E rest v m' s

/-- Every variant has a payload. -/
def AllData : {α : Type} → VariantImpls α → Prop
  | _, .nil => True
  | _, .unit _ => False
  | _, .data _ rest => AllData rest

/-- Only the first variant may be without payload, as the macro demands. -/
def UnitFirst : {α : Type} → VariantImpls α → Prop
  | _, .unit rest => AllData rest
  | _, vs => AllData vs

end Ssz.Spec
