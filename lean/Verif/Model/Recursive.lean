import Verif.Model.Derive

/-!
# Types that contain themselves

`Ty` (`Verif.Model.Types`) has the types that are built from others in finitely many steps. Rust also
accepts

```
#[derive(SimpleSerialize)]
struct Tree { value: T, children: List<Tree, N> }
```

because `List` keeps its elements in a `Vec` (/repo/ssz-rs/src/list.rs:18-20) and its
`is_variable_size` and `size_hint` do not ask the type of the elements (list.rs:137-148). The functions
that the macro generates for such a struct call those of `List<Tree, N>`, and these call them again, one
level of the tree further down. The stack ends this: `impl k` is the implementation when there is room
for `k` of these calls inside each other, and what happens after that is a parameter. It is an abort of
the process in Rust, which is modelled as a panic (`exhausted`).
-/

namespace Ssz

/-- The values of `struct Tree { value: T, children: List<Tree, N> }`. -/
inductive Rose (α : Type) where
  | node (value : α) (children : List (Rose α))

namespace Rose

variable {α : Type}

/-- The fields of the struct, as the values of `FieldImpls`. -/
def fields : Rose α → α × (List (Rose α) × Unit)
  | node a cs => (a, (cs, ()))

/-- `Self { value, children }`: /repo/ssz-rs-derive/src/lib.rs:144-155 -/
def ofFields : α × (List (Rose α) × Unit) → Rose α
  | (a, (cs, _)) => node a cs

/-- The implementation of a struct with the two fields, for `Tree`. -/
def via (T : SimpleSerialize (α × (List (Rose α) × Unit))) : SimpleSerialize (Rose α) where
  isVariableSize := T.isVariableSize
  sizeHint := T.sizeHint
  serialize v := T.serialize v.fields
  deserialize encoding := (T.deserialize encoding).map ofFields
  hashTreeRoot v := T.hashTreeRoot v.fields
  isCompositeType := T.isCompositeType
  itemLength := T.itemLength
  chunkCount := T.chunkCount
  computeGeneralizedIndex := T.computeGeneralizedIndex
  chunks v := T.chunks v.fields
  proveElement v := T.proveElement v.fields
  decoration v := T.decoration v.fields

/-- The fields of the struct, if the elements of the list have the implementation `inner`. -/
def fieldImpls (E : Env) (T : SimpleSerialize α) (n : Nat) (inner : SimpleSerialize (Rose α)) :
    FieldImpls (α × (List (Rose α) × Unit)) :=
  .cons "value" T (.cons "children" (SimpleSerialize.list E inner n) .nil)

/-- One level of the tree. -/
def level (E : Env) (T : SimpleSerialize α) (n : Nat) (inner : SimpleSerialize (Rose α)) :
    SimpleSerialize (Rose α) :=
  via (SimpleSerialize.container E (fieldImpls E T n inner))

/-- The implementation that the macro derives, with room for `k` calls inside each other. -/
def impl (E : Env) (T : SimpleSerialize α) (n : Nat) (base : SimpleSerialize (Rose α)) :
    Nat → SimpleSerialize (Rose α)
  | 0 => base
  | k + 1 => level E T n (impl E T n base k)

/-- There is no room: the functions that descend abort the process. Those that do not are as ever:
`is_variable_size` is true because that of the list is, `size_hint` is then 0
(/repo/ssz-rs-derive/src/lib.rs:252-261, 284-297), there are two fields, and the others are defaults. -/
def exhausted : SimpleSerialize (Rose α) where
  isVariableSize := true
  sizeHint := .ok 0
  serialize _ := BufM.ofRes .panic
  deserialize _ := .panic
  hashTreeRoot _ := .panic
  isCompositeType := defaultIsCompositeType
  itemLength := defaultItemLength
  chunkCount := .ok 2
  computeGeneralizedIndex _ _ := .panic
  chunks _ := .panic
  proveElement _ _ _ := .panic
  decoration := defaultDecoration

end Rose

end Ssz
