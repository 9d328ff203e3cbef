import Verif.Proofs.Memory
import Verif.Proofs.DecodeSound
import Verif.Props.Encoding

/-!
# C85: memory reserved by decoding

`Verif.Model.Memory` has the functions of decoding with a counter of the bytes of memory that vectors
take. `mem t` is the size of the type `t` in memory.
-/

namespace Ssz

open Spec

/-- C85: the functions with counters return what those without return, for every input. -/
theorem C85_same (E : Env) (mem : Ty → Nat) (t : Ty) (b : Bytes) :
    (t.deM E mem b).2 = (t.impl E).deserialize b :=
  deM_res E mem t b

/-- C85: what is reserved for an input, also for one that is rejected or panicked on, is at most its
length times a number that depends on the type only, and there not on the bounds of lists. (The number
counts for four bytes of input.) Missing: the number is not the same for all types, see
`C85_factor_refuted`, and what is reserved for a list is not bounded by the number of elements that it
may have, see `C85_bound_refuted`. -/
theorem C85_linear_partial (E : Env) (mem : Ty → Nat) (t : Ty) (hf : Fits t) (b : Bytes) :
    4 * (t.deM E mem b).1 ≤ memRoom mem t * b.length :=
  deM_takes E mem t hf b

/-- C85: what the vectors inside a decoded value take is among what is counted, so that is limited in the
same way. -/
theorem C85_value_partial (E : Env) (mem : Ty → Nat) (t : Ty) (hf : Fits t) (b : Bytes) (v : t.Val)
    (h : deserialize (t.impl E).toSerializable b = .ok v) :
    heap mem t v ≤ (t.deM E mem b).1 ∧ 4 * heap mem t v ≤ memRoom mem t * b.length := by
  have h1 := deM_heap E mem t hf b v ((deM_res E mem t b).trans h)
  have h2 := deM_takes E mem t hf b
  exact ⟨h1, by omega⟩

/-- C85: for a list of variable-size elements, the first offset alone says for how many elements memory
is taken: a quarter of it, if it is no larger than the input and a multiple of four. -/
theorem C85_reserved (E : Env) (mem : Ty → Nat) (t : Ty) (n : Nat) (hv : isVar t = true) (b : Bytes)
    (k : Nat) (h4 : 4 ≤ b.length) (ho : fromLeBytes (b.take 4) = 4 * k) (hk : 4 * k ≤ b.length) :
    8 * (k + 1) + k * mem t ≤ ((Ty.list t n).deM E mem b).1 := by
  obtain ⟨f, -, hf⟩ := listM_eq E mem t n b hv
  rw [hf]
  refine Nat.le_trans ?_ (le_bindM _ f)
  rw [variableM_reserve b (4 * k) h4 ho hk (by omega), Nat.mul_div_cancel_left _ (by decide)]
  exact Nat.le_add_right _ _

/-- C85 fails for the bound of a list: an input of `4 * k` bytes makes `List<T, n>` with variable-size
`T` take memory for `k` elements, whatever `n` is, although it is rejected. -/
theorem C85_bound_refuted (E : Env) (mem : Ty → Nat) (t : Ty) (hv : isVar t = true) (n k : Nat)
    (hk : 2 ≤ k) (hlt : 4 * k < 2 ^ 32) :
    ∃ b : Bytes, b.length = 4 * k ∧
      deserialize ((Ty.list t n).impl E).toSerializable b = .err (.offsetNotIncreasing (4 * k) 0) ∧
      ((Ty.list t n).deM E mem b).1 = 8 * (k + 1) + k * mem t := by
  have h := listM_backOffsets E mem t n k hv hk hlt
  refine ⟨backOffsets k, ?_, ?_, by rw [h]⟩
  · rw [backOffsets, List.length_append, List.length_replicate]
    simp
    omega
  · show ((Ty.list t n).impl E).deserialize _ = _
    rw [← deM_res E mem, h]

/-- The encoding of `k` times `None`. -/
theorem nones_enc (m n j : Nat) :
    (enc (.list (.option (.array (.uint .u8) m)) n)
      (List.replicate (j + 1) (none : Option (Ty.array (.uint .u8) m).Val))).length = 5 * (j + 1) ∧
    (enc (.list (.option (.array (.uint .u8) m)) n)
      (List.replicate (j + 1) (none : Option (Ty.array (.uint .u8) m).Val))).take 4 =
        leBytes 4 (4 * (j + 1)) := by
  have he : enc (.list (.option (.array (.uint .u8) m)) n)
      (List.replicate (j + 1) (none : Option (Ty.array (.uint .u8) m).Val)) =
      assemble (varPieces (List.replicate (j + 1) [0])) := by
    rw [varPieces, List.map_replicate]
    exact congrArg assemble List.map_replicate
  rw [he]
  constructor
  · rw [assemble_length, headLen_varPieces, tails_varPieces, List.length_replicate,
      flatten_length_const _ 1 fun p hp => by rw [List.eq_of_mem_replicate hp]; rfl,
      List.length_replicate]
    omega
  · rw [assemble, headLen_varPieces, List.length_replicate, List.replicate_succ]
    show List.take 4 (leBytes 4 (4 * (j + 1)) ++ _ ++ _) = _
    rw [List.append_assoc]
    exact List.take_left' (by simp)

/-- C85 fails for a factor that is the same for all types: with arrays of `m` bytes, an accepted input
takes more than `m` bytes of memory for every five bytes. -/
theorem C85_factor_refuted (E : Env) (mem : Ty → Nat) (hmem : Layout mem) (m n k : Nat) (hm : 0 < m)
    (hm' : m < 2 ^ 63) (hk : 0 < k) (hkn : k ≤ n) (hlt : 5 * k < 2 ^ 32) :
    ∃ b : Bytes, b.length = 5 * k ∧
      deserialize ((Ty.list (.option (.array (.uint .u8) m)) n).impl E).toSerializable b =
        .ok (List.replicate k (none : Option (Ty.array (.uint .u8) m).Val)) ∧
      k * m < ((Ty.list (.option (.array (.uint .u8) m)) n).deM E mem b).1 := by
  obtain ⟨j, rfl⟩ : ∃ j, k = j + 1 := ⟨k - 1, by omega⟩
  obtain ⟨h1, h2⟩ := nones_enc m n j
  refine ⟨_, h1, ?_, ?_⟩
  · have h := de_enc E (.list (.option (.array (.uint .u8) m)) n)
      (List.replicate (j + 1) (none : Option (Ty.array (.uint .u8) m).Val)) ⟨hm, trivial⟩
      ⟨trivial, by show 1 * m < _; omega⟩
      ⟨Nat.le_trans (Nat.le_of_eq List.length_replicate) hkn, fun x hx y hy => by
        rw [List.eq_of_mem_replicate hx] at hy; nomatch hy⟩
      (small_of_length _ _ (by rw [h1]; exact hlt))
    exact h.trans (congrArg Res.ok List.map_replicate)
  · have h := C85_reserved E mem (.option (.array (.uint .u8) m)) n rfl _ (j + 1) (by rw [h1]; omega)
      (by rw [h2, fromLeBytes_leBytes]; exact Nat.mod_eq_of_lt (by omega)) (by rw [h1]; omega)
    have h3 : m ≤ mem (.option (.array (.uint .u8) m)) := by
      have := hmem.option (.array (.uint .u8) m)
      rw [hmem.array, hmem.u8] at this
      omega
    have h4 := Nat.mul_le_mul_left (j + 1) h3
    omega

/-! Sizes in memory as they may be. -/

namespace Demo

mutual

def mem : Ty → Nat
  | .uint u => u.bits / 8
  | .u256 => 32
  | .bool => 1
  | .node => 32
  | .array t n => n * mem t
  | .vector _ _ => 24
  | .list _ _ => 24
  | .bitvector _ => 24
  | .bitlist _ => 24
  | .option t => mem t + 8
  | .newtype t => mem t
  | .container fs => memF fs
  | .union vs => memV vs + 8

def memF : Fields → Nat
  | .nil => 0
  | .cons _ t rest => mem t + memF rest

def memV : Variants → Nat
  | .nil => 0
  | .unit rest => memV rest
  | .data t rest => max (mem t) (memV rest)

end

theorem mem_layout : Layout mem := ⟨rfl, fun _ _ => rfl, fun t => by rw [mem]; omega⟩

end Demo

/-- A list of lists of bytes: at most 44 bytes for every four bytes of input (16 for offsets, 24 for the
lists, four for the bytes), whatever the bounds. -/
example (n m : Nat) (E : Env) (b : Bytes) :
    4 * ((Ty.list (.list (.uint .u8) n) m).deM E Demo.mem b).1 ≤ 44 * b.length :=
  C85_linear_partial E Demo.mem (.list (.list (.uint .u8) n) m) trivial b

/-- The value of `Demo` is decoded from its encoding. -/
example (E : Env) : 4 * heap Demo.mem Demo.ty (norm Demo.ty Demo.val) ≤
    memRoom Demo.mem Demo.ty * (enc Demo.ty Demo.val).length :=
  (C85_value_partial E Demo.mem Demo.ty Demo.ty_fits _ _ (de_enc E Demo.ty Demo.val Demo.ty_legal
    Demo.ty_fits Demo.val_valid (small_of_length _ _ Demo.val_length))).2

/-- Lists of two and no bytes take 24 bytes each and two bytes. -/
example : heap Demo.mem (.list (.list (.uint .u8) 4) 4) ([[1, 2], []] : List (List (BitVec 8))) = 50 := rfl

/-- Twelve bytes: an offset says that there are three lists, and the list may have one. -/
example : (Ty.list (.list (.uint .u8) 1) 1).deM ⟨true, fun _ => zeroNode⟩ Demo.mem
    [12, 0, 0, 0, 0, 0, 0, 0, 0, 0, 0, 0] = (104, .err (.offsetNotIncreasing 12 0)) :=
  listM_backOffsets _ Demo.mem _ 1 3 rfl (by decide) (by decide)

/-- Five bytes with which a megabyte is reserved. -/
example (E : Env) : ∃ b : Bytes, b.length = 5 ∧
    2 ^ 20 < ((Ty.list (.option (.array (.uint .u8) (2 ^ 20))) 4).deM E Demo.mem b).1 := by
  obtain ⟨b, h1, -, h2⟩ := C85_factor_refuted E Demo.mem Demo.mem_layout (2 ^ 20) 4 1 (by decide)
    (by decide) (by decide) (by decide) (by decide)
  exact ⟨b, h1, by omega⟩

end Ssz
