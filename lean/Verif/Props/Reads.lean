import Verif.Proofs.Reads
import Verif.Props.Parts

/-!
# C58: which inputs types built from parts of any kind accept

`T` is any implementation of `Deserialize`, and `f` says which inputs it reads as which values. The theorems
say that what the crate builds from such parts reads exactly the inputs that it should, so that anything else
is rejected.
-/

namespace Ssz

open Spec

/-- C58, the types of the crate: they read the inputs that `Accepts` says. -/
theorem C58_crate_reads (E : Env) (t : Ty) (hl : Legal t) (hf : Fits t) :
    Reads (t.impl E).toSerializable ⟨isVar t, fixedLen t, Accepts t⟩ :=
  impl_reads E t hl hf

/-- C58, inputs of lists: the parts, one after the other or with offsets, and not more than the bound; or the
zero offset that the decoder takes for no elements. -/
theorem C58_list_reads {α : Type} (E : Env) (T : Serializable α) (f : Format α) (n : Nat)
    (h : Reads T f) : Reads (Serializable.list E T n) (f.list n) :=
  h.list E n

/-- C58, inputs of vectors. -/
theorem C58_vector_reads {α : Type} (E : Env) (T : Serializable α) (f : Format α) (n : Nat)
    (h : Reads T f) (hn : 0 < n) (hs : f.size * n < 2 ^ 63) :
    Reads (Serializable.vector E T n) (f.vector n) :=
  h.vector E hn hs

/-- C58, inputs of arrays. -/
theorem C58_array_reads {α : Type} (E : Env) (T : Serializable α) (f : Format α) (n : Nat)
    (h : Reads T f) (hn : 0 < n) (hs : f.size * n < 2 ^ 63) :
    Reads (Serializable.array E T n) (f.array n) :=
  h.array E hn hs

/-- C58, inputs of options: nothing may follow the selector of `None`. -/
theorem C58_option_reads {α : Type} (T : Serializable α) (f : Format α) (h : Reads T f) :
    Reads (Serializable.option T) f.option :=
  h.option

/-- C58, inputs of newtypes. -/
theorem C58_newtype_reads {α : Type} (E : Env) (T : SimpleSerialize α) (f : Format α)
    (h : Reads T.toSerializable f) : Reads (SimpleSerialize.newtype E T).toSerializable f.newtype :=
  h.newtype E

/-- C58, inputs of structs: the fields in order with the right offsets, no gaps, nothing left over. -/
theorem C58_struct_reads {α : Type} (E : Env) (ps : StructReads α) (hc : 0 < ps.impls.count)
    (hs : ps.fixedLen < 2 ^ 63) :
    Reads (SimpleSerialize.container E ps.impls).toSerializable ps.format :=
  StructReads.container E ps hc hs

/-- C58, inputs of enums: the position of a variant, then an input of its payload. -/
theorem C58_union_reads {α : Type} (E : Env) (ps : EnumReads α) (hc : ps.count ≤ 256) :
    Reads (SimpleSerialize.union E ps.impls.variants).toSerializable ps.union :=
  EnumReads.union E ps hc

/-- C58, inputs of enums with a first variant `None`, after which nothing may follow. -/
theorem C58_union_none_reads {α : Type} (E : Env) (ps : EnumReads α) (hc : ps.count < 256) :
    Reads (SimpleSerialize.union E (.unit ps.impls.variants)).toSerializable ps.unionNone :=
  EnumReads.unionNone E ps hc

/-- C58, inputs of transparent enums: the last variant that reads the input decides. -/
theorem C58_transparent_reads {α : Type} (E : Env) (ps : EnumReads α) :
    Reads (SimpleSerialize.transparent E ps.impls).toSerializable ps.transparent :=
  EnumReads.transparent E ps

/-- C58: an implementation that follows a codec and reads a format reads the encodings of the codec. -/
theorem C58_reads_encodings {α : Type} (T : Serializable α) (c : Codec α) (f : Format α) (v : α)
    (h : Implements T c) (hr : Reads T f) (hv : c.valid v) (hs : (c.enc v).length < 2 ^ 32) :
    f.accepts (c.enc v) (c.norm v) ∧ (∀ w, f.accepts (c.enc v) w → w = c.norm v) ∧
    T.isVariableSize = c.var ∧ c.var = f.var ∧ c.size = f.size := by
  have hb : (c.enc v).length < 2 ^ 63 := Nat.lt_trans hs (by decide)
  have hd := h.deserialize v hv hs
  refine ⟨(hr.deserialize _ _ hb).mp hd, fun w hw => ?_, h.isVariableSize,
    h.isVariableSize.symm.trans hr.isVariableSize, ?_⟩
  · have := ((hr.deserialize _ _ hb).mpr hw).symm.trans hd
    injection this
  · have := h.sizeHint.symm.trans hr.sizeHint
    injection this

/-! An example: a struct with a list of enums, one of the payloads written by hand. -/

namespace Open

/-- A hand-written type of one byte that accepts even numbers only. -/
def even : SimpleSerialize (BitVec 8) :=
  { SimpleSerialize.uint .u8 with
    deserialize := fun b => match b with
      | [x] => if x.toNat % 2 = 0 then .ok x else .err (.invalidByte x)
      | _ => .err (.additionalInput b.length 1) }

/-- Its inputs. -/
def evenFormat : Format (BitVec 8) := ⟨false, 1, fun b v => b = [v] ∧ v.toNat % 2 = 0⟩

theorem even_reads : Reads even.toSerializable evenFormat where
  isVariableSize := rfl
  sizeHint := rfl
  size_lt := by decide
  size_pos _ := Nat.one_pos
  length _ b v _ h := by rw [h.1]; rfl
  deserialize b v _ := by
    show (match b with
      | [x] => if x.toNat % 2 = 0 then Res.ok x else .err (DeError.invalidByte x)
      | _ => .err (.additionalInput b.length 1)) = Res.ok v ↔ b = [v] ∧ v.toNat % 2 = 0
    match b with
    | [] => simp
    | [x] =>
      by_cases hx : x.toNat % 2 = 0
      · simp only [hx, if_true]
        constructor
        · intro h; injection h with h; subst h; exact ⟨rfl, hx⟩
        · intro h; injection h.1 with h; rw [h]
      · simp only [hx, if_false]
        constructor
        · intro h; cases h
        · intro h; injection h.1 with h1; rw [h1] at hx; exact absurd h.2 hx
    | _ :: _ :: _ => simp

/-- `enum { None, A(Even), B(u32) }` -/
def variants (E : Env) : EnumReads (BitVec 8 ⊕ (BitVec 32 ⊕ Empty)) :=
  .cons even evenFormat even_reads
    (.cons ((Ty.uint .u32).impl E) ⟨false, 4, Accepts (.uint .u32)⟩
      (impl_reads E (.uint .u32) trivial trivial) .nil)

/-- `struct { a: Even, b: List<Enum, 3> }` -/
def fields (E : Env) : StructReads (BitVec 8 × (List (Unit ⊕ (BitVec 8 ⊕ (BitVec 32 ⊕ Empty))) × Unit)) :=
  .cons "a" even evenFormat even_reads
    (.cons "b" (SimpleSerialize.list E (SimpleSerialize.union E (.unit (variants E).impls.variants)) 3)
      ((variants E).unionNone.list 3)
      (C58_list_reads E _ _ 3 (C58_union_none_reads E (variants E) (by show (2 : Nat) < 256; decide))) .nil)

/-- What it reads: `[A(6), None]` after `8`. -/
example (E : Env) :
    deserialize (SimpleSerialize.container E (fields E).impls).toSerializable
      [8, 5, 0, 0, 0, 8, 0, 0, 0, 10, 0, 0, 0, 1, 6, 0] = .ok (8, [.inr (.inl 6), .inl ()], ()) := by
  refine ((C58_struct_reads E (fields E) (Nat.succ_pos _) (show (5 : Nat) < 2 ^ 63 by decide)).deserialize
    _ _ (by decide)).mpr ?_
  refine ⟨[(false, [8]), (true, [8, 0, 0, 0, 10, 0, 0, 0, 1, 6, 0])], ?_,
    by unfold Addressed; decide, by decide⟩
  refine ⟨[8], _, rfl, ⟨rfl, by decide⟩, _, [], rfl, ⟨by decide, .inl ?_⟩, rfl⟩
  exact ⟨[[1, 6], [0]], .cons ⟨[6], rfl, rfl, by decide⟩ (.cons rfl .nil),
    show Addressed [(true, [1, 6]), (true, [0])] by unfold Addressed; decide,
    show _ = assemble [(true, [1, 6]), (true, [0])] by decide⟩

/-- What the enum rejects: a byte after the selector of `None`. -/
example (E : Env) (v : Unit ⊕ (BitVec 8 ⊕ (BitVec 32 ⊕ Empty))) :
    (SimpleSerialize.union E (.unit (variants E).impls.variants)).deserialize [0, 7] ≠ .ok v := by
  intro h
  have h := ((C58_union_none_reads E (variants E) (show (2 : Nat) < 256 by decide)).deserialize
    [0, 7] v (by decide)).mp h
  match v, h with
  | .inl (), h => exact absurd (show ([0, 7] : Bytes) = [0] from h) (by decide)
  | .inr (.inl _), ⟨r, h, _⟩ => exact absurd (show ([0, 7] : Bytes) = 1 :: r from h) (by simp)
  | .inr (.inr (.inl _)), ⟨r, h, _⟩ => exact absurd (show ([0, 7] : Bytes) = 2 :: r from h) (by simp)

end Open

end Ssz
