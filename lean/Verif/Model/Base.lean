/-!
# Base layer of the model

Outcomes of Rust computations, the build environment, machine arithmetic, byte
slices and the error types of `ssz-rs`.

Everything in `Verif/Model` is a function-by-function transcription of the Rust
source in `/repo`; each definition cites the lines it models.
-/

namespace Ssz

/-- A Rust `u8`. -/
abbrev Byte := BitVec 8

/-- A Rust `Vec<u8>` or `&[u8]`. -/
abbrev Bytes := List Byte

/-- Outcome of a Rust computation returning `Result<α, ε>`: `Ok`, `Err`, or a panic. -/
inductive Res (ε α : Type) where
  | ok (a : α)
  | err (e : ε)
  | panic
  deriving Repr, DecidableEq

/-- Outcome of a Rust computation that has no error channel: a value or a panic. -/
abbrev Calc (α : Type) := Res Empty α

namespace Res

variable {ε ε' α β : Type}

/-- The `?` operator: propagate `Err` and panics. -/
def bind (x : Res ε α) (f : α → Res ε β) : Res ε β :=
  match x with
  | ok a => f a
  | err e => err e
  | panic => panic

instance : Monad (Res ε) where
  pure := ok
  bind := bind

/-- `Result::map`. -/
def map (f : α → β) : Res ε α → Res ε β
  | ok a => ok (f a)
  | err e => err e
  | panic => panic

/-- `Result::map_err`, and the implicit `From` conversion made by `?`. -/
def mapErr (f : ε → ε') : Res ε α → Res ε' α
  | ok a => ok a
  | err e => err (f e)
  | panic => panic

/-- Use a computation without error channel inside one that has an error channel. -/
def lift : Calc α → Res ε α
  | ok a => ok a
  | err e => e.elim
  | panic => panic

/-- Run a fallible function over a sequence in order, stopping at the first failure.
Models a Rust `for` loop whose body is `result.push(f(x)?)`. -/
def mapList (f : α → Res ε β) : List α → Res ε (List β)
  | [] => ok []
  | a :: as =>
    match f a with
    | ok b =>
      match mapList f as with
      | ok bs => ok (b :: bs)
      | err e => err e
      | panic => panic
    | err e => err e
    | panic => panic

end Res

/-- `alloy_primitives::B256`, the type of Merkle tree nodes:
/repo/ssz-rs/src/merkleization/node.rs:4. A 32 byte array. -/
abbrev Node := { b : Bytes // b.length = 32 }

/-- The parts of the environment the code depends on: whether the crate is built with
overflow checks and debug assertions (`debug`), and the SHA-256 function of the `sha2` crate
(kept abstract: any function from bytes to 32 bytes). -/
structure Env where
  debug : Bool
  sha256 : Bytes → Node

/-- `2^64`, the modulus of `usize` (the model fixes a 64-bit target). -/
def usizeMod : Nat := 18446744073709551616

/-- `2^63`: `Vec` capacities are at most `isize::MAX = 2^63 - 1` bytes. -/
def isizeMax1 : Nat := 9223372036854775808

/-- `2^32`, the modulus of `u32`. -/
def u32Mod : Nat := 4294967296

namespace Env

/-- `a + b` on `usize`: panics on overflow with overflow checks, wraps otherwise. -/
def add (E : Env) (a b : Nat) : Calc Nat :=
  if a + b < usizeMod then .ok (a + b)
  else if E.debug then .panic else .ok ((a + b) % usizeMod)

/-- `a - b` on `usize`: panics on underflow with overflow checks, wraps otherwise. -/
def sub (E : Env) (a b : Nat) : Calc Nat :=
  if b ≤ a then .ok (a - b)
  else if E.debug then .panic else .ok (a + usizeMod - b)

/-- `a * b` on `usize`: panics on overflow with overflow checks, wraps otherwise. -/
def mul (E : Env) (a b : Nat) : Calc Nat :=
  if a * b < usizeMod then .ok (a * b)
  else if E.debug then .panic else .ok ((a * b) % usizeMod)

/-- `a + b` on `u32`. -/
def add32 (E : Env) (a b : Nat) : Calc Nat :=
  if a + b < u32Mod then .ok (a + b)
  else if E.debug then .panic else .ok ((a + b) % u32Mod)

/-- `2usize.pow(k)`: `2^k` wraps to `0` from `k = 64` on (or panics with overflow checks). -/
def pow2 (E : Env) (k : Nat) : Calc Nat :=
  if k < 64 then .ok (2 ^ k)
  else if E.debug then .panic else .ok 0

/-- `usize::next_power_of_two`: the least power of two that is at least `x`; overflow panics with
overflow checks and gives `0` otherwise. Written as in the Rust standard library: one more than
the all-ones number covering `x - 1`. -/
def nextPowerOfTwo (E : Env) (x : Nat) : Calc Nat :=
  let r := if x ≤ 1 then 1 else 2 ^ (Nat.log2 (x - 1) + 1)
  if r < usizeMod then .ok r
  else if E.debug then .panic else .ok 0

/-- `debug_assert!(c)`. -/
def debugAssert (E : Env) (c : Bool) : Calc Unit :=
  if E.debug && !c then .panic else .ok ()

end Env

/-- `usize::trailing_zeros` (64 for zero), by counting halvings. -/
def trailingZerosAux : Nat → Nat → Nat
  | 0, _ => 0
  | fuel + 1, x => if x % 2 = 1 then 0 else 1 + trailingZerosAux fuel (x / 2)

/-- `usize::trailing_zeros`; `0usize.trailing_zeros() == 64`. -/
def trailingZeros (x : Nat) : Nat := trailingZerosAux 64 x

section Slices

variable {ε α : Type}

/-- `&xs[s..e]`: panics unless `s <= e <= xs.len()`. -/
def slice (xs : List α) (s e : Nat) : Res ε (List α) :=
  if s ≤ e ∧ e ≤ xs.length then .ok ((xs.drop s).take (e - s)) else .panic

/-- `xs.get(s..e)`. -/
def getRange (xs : List α) (s e : Nat) : Option (List α) :=
  if s ≤ e ∧ e ≤ xs.length then some ((xs.drop s).take (e - s)) else none

/-- `xs[i]`: panics when out of bounds. -/
def index (xs : List α) (i : Nat) : Res ε α :=
  match xs[i]? with
  | some a => .ok a
  | none => .panic

/-- `xs[s..e].copy_from_slice(src)`: panics unless the range is in bounds and
`src.len() == e - s`. -/
def copyInto (xs : List α) (s e : Nat) (src : List α) : Res ε (List α) :=
  if s ≤ e ∧ e ≤ xs.length ∧ src.length = e - s then
    .ok (xs.take s ++ src ++ xs.drop e)
  else .panic

/-- `xs.chunks_exact(n)` for `n > 0` (the remainder is dropped). The caller handles `n = 0`,
on which Rust panics. -/
def chunksExact (n : Nat) (xs : List α) : List (List α) :=
  if _h : 0 < n ∧ n ≤ xs.length then
    xs.take n :: chunksExact n (xs.drop n)
  else []
termination_by xs.length
decreasing_by
  have := _h.1; have := _h.2
  simp only [List.length_drop]; omega

/-- `vec![0u8; n]`: panics ("capacity overflow") beyond `isize::MAX` bytes. Running out of memory
below that bound is not modelled. -/
def zeros (n : Nat) : Res ε Bytes :=
  if n < isizeMax1 then .ok (List.replicate n 0) else .panic

/-- `Vec::<u8>::with_capacity(n)`: panics ("capacity overflow") beyond `isize::MAX` bytes. -/
def withCapacity (n : Nat) : Res ε Unit :=
  if n < isizeMax1 then .ok () else .panic

/-- `Node::try_from(bytes).expect(..)`. -/
def toNode (b : Bytes) : Res ε Node :=
  if h : b.length = 32 then .ok ⟨b, h⟩ else .panic

end Slices

/-- `Node::default()`: 32 zero bytes. -/
def zeroNode : Node := ⟨List.replicate 32 0, by simp⟩

/-- /repo/ssz-rs/src/error.rs:53-56 -/
inductive TypeError where
  | invalidBound (n : Nat)
  deriving Repr, DecidableEq

/-- /repo/ssz-rs/src/error.rs:73-78 -/
inductive InstanceError where
  | exact (required provided : Nat)
  | bounded (bound provided : Nat)
  deriving Repr, DecidableEq

/-- /repo/ssz-rs/src/ser.rs:13-20 -/
inductive SerError where
  | maximumEncodedLengthReached (size : Nat)
  | invalidInstance (e : InstanceError)
  | invalidType (e : TypeError)
  deriving Repr, DecidableEq

/-- /repo/ssz-rs/src/de.rs:10-30 -/
inductive DeError where
  | expectedFurtherInput (provided expected : Nat)
  | additionalInput (provided expected : Nat)
  | invalidByte (b : Byte)
  | invalidInstance (e : InstanceError)
  | invalidType (e : TypeError)
  | invalidOffsetsLength (n : Nat)
  | offsetNotIncreasing (start stop : Nat)
  | missingOffset
  | noMatchingVariant
  deriving Repr, DecidableEq

/-- /repo/ssz-rs/src/merkleization/generalized_index.rs:9-19 -/
inductive PathElement where
  | index (i : Nat)
  | field (name : String)
  | length
  | selector
  deriving Repr, DecidableEq

/-- /repo/ssz-rs/src/merkleization/mod.rs:19-39 -/
inductive MerkError where
  | serializationError (e : SerError)
  | inputExceedsLimit (limit : Nat)
  | invalidProof
  | invalidGeneralizedIndex
  | invalidPathElement (e : PathElement)
  | invalidPath (p : List PathElement)
  | invalidInnerIndex
  | noInnerElement
  | notChunkable
  deriving Repr, DecidableEq

/-- /repo/ssz-rs/src/error.rs:5-16, restricted to the variants the modelled code constructs. -/
inductive Error where
  | deserialize (e : DeError)
  | instance (e : InstanceError)
  | type (e : TypeError)
  deriving Repr, DecidableEq

/-- A computation that appends to a `&mut Vec<u8>` and returns a `Result`: the buffer is returned
in every case, so what has been written before an error is visible. -/
abbrev BufM (ε α : Type) := Bytes → Bytes × Res ε α

namespace BufM

variable {ε α β : Type}

/-- Sequencing with `?`. -/
def bind (x : BufM ε α) (f : α → BufM ε β) : BufM ε β := fun buf =>
  match x buf with
  | (buf', .ok a) => f a buf'
  | (buf', .err e) => (buf', .err e)
  | (buf', .panic) => (buf', .panic)

/-- A computation that leaves the buffer alone. -/
def ofRes (r : Res ε α) : BufM ε α := fun buf => (buf, r)

/-- `buffer.extend_from_slice(bytes)`. -/
def append (bytes : Bytes) : BufM ε Unit := fun buf => (buf ++ bytes, .ok ())

instance : Monad (BufM ε) where
  pure a := fun buf => (buf, .ok a)
  bind := bind

end BufM

end Ssz
