import Verif.Model.Base

/-!
# SHA-256 (FIPS 180-4)

Used to state that a property fails for the real hash function. Words are natural numbers below
`2^32`; `force` only makes Lean's kernel evaluate its argument first.
-/

namespace Ssz.Sha256

/-- `k x`, with `x` evaluated first. -/
def force {α : Type} (x : Nat) (k : Nat → α) : α :=
  match x with
  | 0 => k 0
  | n + 1 => k (n + 1)

theorem force_eq {α : Type} (x : Nat) (k : Nat → α) : force x k = k x := by
  cases x <;> rfl

def w32 : Nat := 4294967296

/-- Rotation to the right. -/
def rotr (x n : Nat) : Nat := (x >>> n ||| x <<< (32 - n)) % w32

/-- The round constants. -/
def consts : List Nat :=
  [0x428a2f98, 0x71374491, 0xb5c0fbcf, 0xe9b5dba5, 0x3956c25b, 0x59f111f1, 0x923f82a4, 0xab1c5ed5,
   0xd807aa98, 0x12835b01, 0x243185be, 0x550c7dc3, 0x72be5d74, 0x80deb1fe, 0x9bdc06a7, 0xc19bf174,
   0xe49b69c1, 0xefbe4786, 0x0fc19dc6, 0x240ca1cc, 0x2de92c6f, 0x4a7484aa, 0x5cb0a9dc, 0x76f988da,
   0x983e5152, 0xa831c66d, 0xb00327c8, 0xbf597fc7, 0xc6e00bf3, 0xd5a79147, 0x06ca6351, 0x14292967,
   0x27b70a85, 0x2e1b2138, 0x4d2c6dfc, 0x53380d13, 0x650a7354, 0x766a0abb, 0x81c2c92e, 0x92722c85,
   0xa2bfe8a1, 0xa81a664b, 0xc24b8b70, 0xc76c51a3, 0xd192e819, 0xd6990624, 0xf40e3585, 0x106aa070,
   0x19a4c116, 0x1e376c08, 0x2748774c, 0x34b0bcb5, 0x391c0cb3, 0x4ed8aa4a, 0x5b9cca4f, 0x682e6ff3,
   0x748f82ee, 0x78a5636f, 0x84c87814, 0x8cc70208, 0x90befffa, 0xa4506ceb, 0xbef9a3f7, 0xc67178f2]

/-- One word of the message schedule from the sixteen before it. -/
def nextWord (w0 w1 w9 w14 : Nat) : Nat :=
  let s0 := rotr w1 7 ^^^ rotr w1 18 ^^^ (w1 >>> 3)
  let s1 := rotr w14 17 ^^^ rotr w14 19 ^^^ (w14 >>> 10)
  (w0 + s0 + w9 + s1) % w32

/-- The rounds: one per constant; the window holds the next sixteen schedule words. -/
def rounds : List Nat → List Nat → List Nat → List Nat
  | k :: ks, w0 :: w1 :: w2 :: w3 :: w4 :: w5 :: w6 :: w7 :: w8 :: w9 :: w10 :: w11 :: w12 :: w13 ::
      w14 :: w15 :: [], [a, b, c, d, e, f, g, h] =>
    let s1 := rotr e 6 ^^^ rotr e 11 ^^^ rotr e 25
    let ch := (e &&& f) ^^^ ((w32 - 1 - e) &&& g)
    let s0 := rotr a 2 ^^^ rotr a 13 ^^^ rotr a 22
    let maj := (a &&& b) ^^^ (a &&& c) ^^^ (b &&& c)
    force ((h + s1 + ch + k + w0) % w32) fun t1 =>
    force ((t1 + s0 + maj) % w32) fun a' =>
    force ((d + t1) % w32) fun e' =>
    force (nextWord w0 w1 w9 w14) fun w16 =>
    rounds ks [w1, w2, w3, w4, w5, w6, w7, w8, w9, w10, w11, w12, w13, w14, w15, w16]
      [a', a, b, c, e', e, f, g]
  | _, _, s => s

/-- The initial hash value. -/
def init : List Nat :=
  [0x6a09e667, 0xbb67ae85, 0x3c6ef372, 0xa54ff53a, 0x510e527f, 0x9b05688c, 0x1f83d9ab, 0x5be0cd19]

/-- Evaluate the members of a list. -/
def forceList {α : Type} : List Nat → (List Nat → α) → α
  | [], k => k []
  | x :: xs, k => force x fun y => forceList xs fun ys => k (y :: ys)

/-- Processing of one block. -/
def compress (state block : List Nat) : List Nat :=
  List.zipWith (fun x y => (x + y) % w32) state (rounds consts block state)

/-- Big-endian words of a byte string. -/
def words : List Nat → List Nat
  | a :: b :: c :: d :: rest => (((a * 256 + b) * 256 + c) * 256 + d) :: words rest
  | _ => []

/-- The message, a one bit, zeros, and the length in bits: a multiple of 64 bytes. -/
def padded (m : List Nat) : List Nat :=
  m ++ [128] ++ List.replicate ((119 - m.length % 64) % 64) 0 ++
    (List.range 8).map fun i => (8 * m.length) / 256 ^ (7 - i) % 256

/-- All blocks in turn; `n` is the number of blocks. -/
def blocks : Nat → List Nat → List Nat → List Nat
  | 0, _, s => s
  | n + 1, ws, s =>
    forceList (ws.take 16) fun b => forceList (compress s b) fun s' => blocks n (ws.drop 16) s'

/-- The digest, as bytes. -/
def digest (m : List Nat) : List Nat :=
  let ws := words (padded m)
  (blocks (ws.length / 16) ws init).flatMap fun x =>
    [x / 16777216 % 256, x / 65536 % 256, x / 256 % 256, x % 256]

/-- A list as exactly 32 bytes. -/
def toBytes32 (l : List Nat) : Node :=
  ⟨(List.range 32).map fun i => BitVec.ofNat 8 (l.getD i 0), by simp⟩

/-- SHA-256. -/
def sha256 (b : Bytes) : Node := toBytes32 (digest (b.map BitVec.toNat))

/-- The test vector `"abc"` of FIPS 180-4. -/
example : digest [97, 98, 99] =
    [0xba, 0x78, 0x16, 0xbf, 0x8f, 0x01, 0xcf, 0xea, 0x41, 0x41, 0x40, 0xde, 0x5d, 0xae, 0x22, 0x23,
     0xb0, 0x03, 0x61, 0xa3, 0x96, 0x17, 0x7a, 0x9c, 0xb4, 0x10, 0xff, 0x61, 0xf2, 0x00, 0x15, 0xad] := by
  decide +kernel

/-- Two blocks: the hash of 64 zero bytes. -/
example : digest (List.replicate 64 0) =
    [0xf5, 0xa5, 0xfd, 0x42, 0xd1, 0x6a, 0x20, 0x30, 0x27, 0x98, 0xef, 0x6e, 0xd3, 0x09, 0x97, 0x9b,
     0x43, 0x00, 0x3d, 0x23, 0x20, 0xd9, 0xf0, 0xe8, 0xea, 0x98, 0x31, 0xa9, 0x27, 0x59, 0xfb, 0x4b] := by
  decide +kernel

end Ssz.Sha256

namespace Ssz

/-- A release build with the real hash function. -/
def release : Env := ⟨false, Sha256.sha256⟩

/-- A debug build with the real hash function. -/
def debug : Env := ⟨true, Sha256.sha256⟩

end Ssz
