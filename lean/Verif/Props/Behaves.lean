import Verif.Proofs.Behaves
import Verif.Props.Reads

/-!
# C91: crashes of types built from parts of any kind

`T` is any implementation of `Deserialize`, and `o` says which inputs it reads, on which it crashes, and so
which it rejects. The theorems say the same of what the crate builds from such parts.
-/

namespace Ssz

open Spec

/-- C91, the types of the crate. -/
theorem C91_crate (E : Env) (t : Ty) (hl : Legal t) (hf : Fits t) :
    Behaves (t.impl E).toSerializable ⟨⟨isVar t, fixedLen t, Accepts t⟩, Crashes E.debug t⟩ :=
  impl_behaves E t hl hf

/-- C91, lists: parts crash, or an offset of the table lies outside of the input. -/
theorem C91_list {α : Type} (E : Env) (T : Serializable α) (o : Outcome α) (n : Nat) (h : Behaves T o) :
    Behaves (Serializable.list E T n) (o.list n) :=
  h.list E n

/-- C91, vectors. -/
theorem C91_vector {α : Type} (E : Env) (T : Serializable α) (o : Outcome α) (n : Nat) (h : Behaves T o)
    (hn : 0 < n) (hs : o.size * n < 2 ^ 63) : Behaves (Serializable.vector E T n) (o.vector n) :=
  h.vector E hn hs

/-- C91, arrays. -/
theorem C91_array {α : Type} (E : Env) (T : Serializable α) (o : Outcome α) (n : Nat) (h : Behaves T o)
    (hn : 0 < n) (hs : o.size * n < 2 ^ 63) : Behaves (Serializable.array E T n) (o.array n) :=
  h.array E hn hs

/-- C91, options: only a crash of the part. -/
theorem C91_option {α : Type} (T : Serializable α) (o : Outcome α) (h : Behaves T o) :
    Behaves (Serializable.option T) o.option :=
  h.option

/-- C91, newtypes: only a crash of the part. -/
theorem C91_newtype {α : Type} (E : Env) (T : SimpleSerialize α) (o : Outcome α)
    (h : Behaves T.toSerializable o) : Behaves (SimpleSerialize.newtype E T).toSerializable o.newtype :=
  h.newtype E

/-- C91, structs: a crash of a field, after the fields before it are read from the pieces of a well-formed
input; or, in a build with overflow checks, an offset outside of the input. -/
theorem C91_struct {α : Type} (E : Env) (ps : StructBehaves α) (hc : 0 < ps.toReads.impls.count)
    (hs : ps.toReads.fixedLen < 2 ^ 63) :
    Behaves (SimpleSerialize.container E ps.toReads.impls).toSerializable (ps.outcome E.debug) :=
  StructBehaves.container E ps hc hs

/-- C91, enums: only a crash of the payload that the selector says. -/
theorem C91_union {α : Type} (E : Env) (ps : EnumBehaves α) (hc : ps.toReads.count ≤ 256) :
    Behaves (SimpleSerialize.union E ps.toReads.impls.variants).toSerializable ps.union :=
  EnumBehaves.union E ps hc

/-- C91, enums with a first variant `None`. -/
theorem C91_union_none {α : Type} (E : Env) (ps : EnumBehaves α) (hc : ps.toReads.count < 256) :
    Behaves (SimpleSerialize.union E (.unit ps.toReads.impls.variants)).toSerializable ps.unionNone :=
  EnumBehaves.unionNone E ps hc

/-- C91, transparent enums: a crash of a variant when all declared after it reject the input. -/
theorem C91_transparent {α : Type} (E : Env) (ps : EnumBehaves α) :
    Behaves (SimpleSerialize.transparent E ps.toReads.impls).toSerializable ps.transparent :=
  EnumBehaves.transparent E ps

/-- C91: whatever is neither read nor a crash is rejected with an error, and nothing else is. -/
theorem C91_rejects {α : Type} (T : Serializable α) (o : Outcome α) (h : Behaves T o) (b : Bytes)
    (hb : b.length < 2 ^ 63) :
    (∃ e, T.deserialize b = .err e) ↔ (∀ v, ¬ o.accepts b v) ∧ ¬ o.crash b :=
  (h.err_iff hb).trans (and_congr_left' not_exists)

/-- C91: in a release build, a struct whose parts never crash never crashes. -/
theorem C91_struct_safe {α : Type} (E : Env) (ps : StructBehaves α) (hc : 0 < ps.toReads.impls.count)
    (hs : ps.toReads.fixedLen < 2 ^ 63) (hE : E.debug = false) (hp : ps.Safe) (b : Bytes)
    (hb : b.length < 2 ^ 63) :
    (SimpleSerialize.container E ps.toReads.impls).deserialize b ≠ .panic := by
  intro h
  rcases ((C91_struct E ps hc hs).panic b hb).mp h with ⟨h, _⟩ | ⟨qs, _, _, _, h⟩
  · rw [hE] at h; cases h
  · exact StructBehaves.safe_crashes ps qs hp h

/-- C91: a list of fixed-size parts that never crash never crashes, in any build; of variable-size parts it
crashes exactly when the walk over the offsets leaves the input before a part is rejected. -/
theorem C91_list_safe {α : Type} (E : Env) (T : Serializable α) (o : Outcome α) (n : Nat) (h : Behaves T o)
    (hp : ∀ b, ¬ o.crash b) (b : Bytes) (hb : b.length < 2 ^ 63) :
    (Serializable.list E T n).deserialize b = .panic ↔
      o.var = true ∧ TableCrash o.reads (fun _ => False) b := by
  have hc : o.crash = fun _ => False := funext fun b => eq_false (hp b)
  have hn : ∀ (A : Bytes → Prop) (ps : List Bytes), ¬ FirstCrash A (fun _ => False) ps := by
    intro A ps
    induction ps with
    | nil => exact id
    | cons p ps ih => rintro (h | ⟨_, h⟩); exacts [h, ih h]
  refine ((C91_list E T o n h).panic b hb).trans ?_
  show o.walk b ↔ _
  unfold Outcome.walk
  rw [hc]
  cases o.var with
  | true => simp
  | false => simp [hn]

/-! An example: a hand-written type of one byte whose decoder crashes on 255. -/

namespace Open

/-- A type of one byte that accepts even numbers only, and crashes on 255. -/
def touchy : SimpleSerialize (BitVec 8) :=
  { even with deserialize := fun b => if b = [255] then .panic else even.deserialize b }

/-- What it does. -/
def touchyOutcome : Outcome (BitVec 8) := { evenFormat with crash := fun b => b = [255] }

theorem touchy_behaves : Behaves touchy.toSerializable touchyOutcome where
  isVariableSize := rfl
  sizeHint := rfl
  size_lt := by decide
  size_pos _ := Nat.one_pos
  length := even_reads.length
  deserialize b v hb := by
    show (if b = [255] then Res.panic else even.deserialize b) = .ok v ↔ _
    by_cases h : b = [255]
    · rw [if_pos h]
      subst h
      refine ⟨fun h => (nomatch h), fun h => ?_⟩
      have h : [255] = [v] ∧ v.toNat % 2 = 0 := h
      injection h.1 with h1
      rw [← h1] at h
      exact absurd h.2 (by decide)
    · rw [if_neg h]
      exact even_reads.deserialize b v hb
  panic b hb := by
    show (if b = [255] then Res.panic else even.deserialize b) = .panic ↔ b = [255]
    by_cases h : b = [255]
    · simp [h]
    · rw [if_neg h]
      refine ⟨fun hp => ?_, fun h' => absurd h' h⟩
      have hp : (match b with
        | [x] => if x.toNat % 2 = 0 then Res.ok x else .err (DeError.invalidByte x)
        | _ => .err (.additionalInput b.length 1)) = Res.panic := hp
      split at hp
      · split at hp <;> cases hp
      · cases hp

/-- `struct { a: Touchy, b: List<Touchy, 3>, c: List<Touchy, 3> }` -/
def touchyFields (E : Env) : StructBehaves (BitVec 8 × (List (BitVec 8) × (List (BitVec 8) × Unit))) :=
  .cons "a" touchy touchyOutcome touchy_behaves
    (.cons "b" (SimpleSerialize.list E touchy 3) (touchyOutcome.list 3) (C91_list E _ _ 3 touchy_behaves)
      (.cons "c" (SimpleSerialize.list E touchy 3) (touchyOutcome.list 3) (C91_list E _ _ 3 touchy_behaves)
        .nil))

/-- It crashes on an element 255 of `b` after the even ones. -/
example (E : Env) :
    (SimpleSerialize.container E (touchyFields E).toReads.impls).deserialize
      [8, 9, 0, 0, 0, 11, 0, 0, 0, 2, 255, 7] = .panic := by
  refine ((C91_struct E (touchyFields E) (Nat.succ_pos _) (show (9 : Nat) < 2 ^ 63 by decide)).panic
    _ (by decide)).mpr (.inr ?_)
  refine ⟨[(false, [8]), (true, [2, 255]), (true, [7])], by decide, by unfold Addressed; decide, ?_, ?_⟩
  · exact ⟨_, _, rfl, fun _ => rfl, _, _, rfl, fun h => (nomatch h), _, _, rfl, fun h => (nomatch h), rfl⟩
  · refine .inr ⟨⟨8, rfl, by decide⟩, .inl ⟨[[2], [255]], rfl, by decide, .inr ⟨⟨2, rfl, by decide⟩, .inl rfl⟩⟩⟩

/-- It rejects the input if an odd element comes before. -/
example (E : Env) :
    (SimpleSerialize.list E touchy 3).deserialize [3, 255] ≠ .panic := by
  intro h
  obtain ⟨ps, h1, h2, h3⟩ := ((C91_list E _ _ 3 touchy_behaves).panic [3, 255] (by decide)).mp h
  have h2 : ∀ p ∈ ps, p.length = 1 := h2
  match ps, h1, h2, h3 with
  | [], h1, _, _ => cases h1
  | [] :: _, _, h2, _ => exact absurd (h2 [] (by simp)) (by decide)
  | (x :: y :: p) :: _, _, h2, _ => exact absurd (h2 (x :: y :: p) (by simp)) (by simp)
  | [x] :: ps, h1, _, h3 =>
    have hx : (3 : BitVec 8) = x := by injection h1
    subst hx
    rcases h3 with h3 | ⟨⟨v, h3, h4⟩, _⟩
    · exact absurd (show ([3] : Bytes) = [255] from h3) (by decide)
    · injection h3 with h3
      rw [← h3] at h4
      exact absurd h4 (by decide)

/-- In a build with overflow checks, the second offset past the end crashes it, whatever the parts. -/
example (E : Env) (hE : E.debug = true) :
    (SimpleSerialize.container E (touchyFields E).toReads.impls).deserialize
      [8, 9, 0, 0, 0, 10, 0, 0, 0] = .panic := by
  refine ((C91_struct E (touchyFields E) (Nat.succ_pos _) (show (9 : Nat) < 2 ^ 63 by decide)).panic
    _ (by decide)).mpr (.inl ⟨hE, ?_⟩)
  exact ⟨by decide, 9, [10, 0, 0, 0], by decide, by decide, 10, [], by decide, by decide, by decide,
    .inl (by decide)⟩

end Open

end Ssz
