import Verif.Proofs.Crash
import Verif.Proofs.Loose
import Verif.Props.Encoding

/-!
# Properties C02 and C03: exactly which inputs are accepted, and which crash the decoder
-/

namespace Ssz

open Spec

/-! ## C02 -/

/-- C02, what is true instead: the accepted inputs are exactly those of `Spec.Accepts`. -/
theorem C02_accepts_exactly_partial (E : Env) (t : Ty) (b : Bytes) (v : t.Val) (hl : Legal t)
    (hf : Fits t) (hb : b.length < 2 ^ 63) :
    deserialize (t.impl E).toSerializable b = .ok v ↔ Accepts t b v :=
  de_iff E t b v hl hf hb

/-- C02, which values are canonical: the encoding of a value is its only accepted input if and only
if no list of variable-size elements inside the value is empty. -/
theorem C02_canonical_iff_partial (E : Env) (t : Ty) (v : t.Val) (hl : Legal t) (hf : Fits t)
    (hv : Valid t v) (hn : norm t v = v) (hs : (enc t v).length + 4 < 2 ^ 32) :
    (∀ b, b.length < 2 ^ 63 → deserialize (t.impl E).toSerializable b = .ok v →
      serialize (t.impl E).toSerializable v = .ok b) ↔ NoEmptyVarList t v := by
  refine ⟨fun h => ?_, fun h b hb hd => ?_⟩
  rotate_left
  · rw [← (de_sound E t b v hl hf hb hd).2.2 h]
    exact serialize_enc E t v hl hf hv (small_of_length t v (by unfold maxLen; omega))
  by_contra hc
  obtain ⟨b, h1, h2⟩ := loose t v hv hn hs hc
  have h3 := h b (by omega) ((de_iff E t b v hl hf (by omega)).mpr h1)
  have h4 := serialize_enc E t v hl hf hv (small_of_length t v (by unfold maxLen; omega))
  have h5 : b = enc t v := Res.ok.inj (h3.symm.trans h4)
  rw [h5] at h2
  omega

theorem laid_bytes (b : Bytes) : Laid false (Accepts (.uint .u8)) b (b : List (BitVec 8)) := by
  refine ⟨b.map fun x => [x], ?_, addressed_map_false _, ?_⟩
  · induction b with
    | nil => exact .nil
    | cons x b ih =>
      refine .cons ?_ ih
      show [x] = leBytes 1 x.toNat
      simp [leBytes]
  · rw [assemble_map_false]
    induction b with
    | nil => rfl
    | cons x b ih => exact congrArg (x :: ·) ih

/-- C02 is false for long inputs even without such lists: 4 GiB are decoded as a `List<u8, N>`, for
every large `N`, and the value is refused by `serialize`. -/
theorem C02_long_refuted (E : Env) (n : Nat) (hn : 2 ^ 32 ≤ n) :
    Legal (.list (.uint .u8) n) ∧ Fits (.list (.uint .u8) n) ∧ NoVarList (.list (.uint .u8) n) ∧
    ∃ (b : Bytes) (v : List (BitVec 8)), b.length = 2 ^ 32 ∧
      deserialize ((Ty.list (.uint .u8) n).impl E).toSerializable b = .ok v ∧
      ∀ b', serialize ((Ty.list (.uint .u8) n).impl E).toSerializable v ≠ .ok b' := by
  have key : ∀ b : Bytes, b.length = 2 ^ 32 →
      deserialize ((Ty.list (.uint .u8) n).impl E).toSerializable b = .ok b ∧
        ∀ b', serialize ((Ty.list (.uint .u8) n).impl E).toSerializable b ≠ .ok b' := by
    intro b hb
    have h := (de_iff E (.list (.uint .u8) n) b b trivial trivial (by omega)).mpr
      ⟨hb.le.trans hn, .inl (laid_bytes b)⟩
    refine ⟨h, fun b' h' => ?_⟩
    obtain ⟨hv, _, he⟩ := de_sound E (.list (.uint .u8) n) b b trivial trivial (by omega) h
    have h1 := (serialize_ok_enc E (.list (.uint .u8) n) b trivial trivial hv h').2.1
    rw [he (noEmptyVarList_of_noVarList (.list (.uint .u8) n) b ⟨by decide, trivial⟩), hb] at h1
    exact absurd h1 (by unfold maxLen; omega)
  exact ⟨trivial, trivial, ⟨by decide, trivial⟩, List.replicate (2 ^ 32) 0,
    List.replicate (2 ^ 32) 0, List.length_replicate, key _ List.length_replicate⟩

example : ∃ n, 2 ^ 32 ≤ n ∧ n < 2 ^ 40 := ⟨2 ^ 32, by decide⟩

example : Accepts listOfLists [0, 0, 0, 0, 1, 2, 3] ([] : List (List (BitVec 8))) :=
  ⟨by decide, .inr ⟨rfl, rfl, [1, 2, 3], rfl⟩⟩

example : Accepts listOfLists [8, 0, 0, 0, 8, 0, 0, 0, 7] ([[], [7]] : List (List (BitVec 8))) :=
  ⟨by decide, .inl ⟨[[], [7]], .cons ⟨by decide, .inl ⟨[], .nil, fun _ h => (nomatch h), rfl⟩⟩
    (.cons ⟨by decide, .inl ⟨[[7]], .cons rfl .nil, fun _ h => (nomatch h), rfl⟩⟩ .nil),
    addressed_of_length (by decide), by decide⟩⟩

example : Legal listOfLists ∧ Fits listOfLists ∧
    Valid listOfLists ([[], [7]] : List (List (BitVec 8))) ∧
    norm listOfLists ([[], [7]] : List (List (BitVec 8))) = ([[], [7]] : List (List (BitVec 8))) ∧
    NoEmptyVarList listOfLists ([[], [7]] : List (List (BitVec 8))) ∧
    ¬ NoEmptyVarList listOfLists ([] : List (List (BitVec 8))) := by
  refine ⟨trivial, trivial, ⟨by decide, ?_⟩, rfl, ⟨fun _ => List.cons_ne_nil _ _, ?_⟩, fun h => h.1 rfl rfl⟩
  · intro x hx
    have hx : x ∈ ([[], [7]] : List (List (BitVec 8))) := hx
    rcases List.mem_cons.mp hx with rfl | hx
    · exact ⟨by decide, fun _ _ => trivial⟩
    · cases List.mem_singleton.mp hx
      exact ⟨by decide, fun _ _ => trivial⟩
  · exact fun x _ => ⟨fun h => absurd h (by decide), fun _ _ => trivial⟩

/-! ## C03 -/

/-- C03, what is true instead: decoding panics exactly on the inputs of `Spec.Crashes`: an offset
table whose walk reaches an offset beyond the input, in a collection of variable-size elements, or,
with overflow checks, a second or later offset beyond the input in the head of a struct. -/
theorem C03_panics_exactly_partial (E : Env) (t : Ty) (b : Bytes) (hl : Legal t) (hf : Fits t)
    (hb : b.length < 2 ^ 63) :
    deserialize (t.impl E).toSerializable b = .panic ↔ Crashes E.debug t b :=
  panic_iff E t b hl hf hb

theorem headCrash_length (len : Nat) : ∀ (fs : Fields) (p : Option Nat) (r : Bytes),
    HeadCrash len fs p r → (if p.isNone then 8 else 4) ≤ r.length
  | .nil, _, _, h => h.elim
  | .cons _ t rest, p, r, h => by
    unfold HeadCrash at h
    split at h
    · obtain ⟨o, r', _, rfl, h⟩ := h
      rw [List.length_append, leBytes_length]
      cases p with
      | none =>
        have := headCrash_length len rest (some o) r' h
        simp only [Option.isNone_some, Bool.false_eq_true, if_false] at this
        simp only [Option.isNone_none, if_true]
        omega
      | some p => simp
    · have := headCrash_length len rest p _ h.2
      rw [List.length_drop] at this
      exact Nat.le_trans this (Nat.sub_le _ _)

theorem tableCrash_length {A P : Bytes → Prop} (hP : ∀ b, P b → 8 ≤ b.length) {b : Bytes}
    (h : TableCrash A P b) : 8 ≤ b.length := by
  obtain ⟨table, rest, hb, _, hh, hc⟩ := h
  have hl : b.length = 4 * table.length + rest.length := by
    rw [hb, List.length_append, List.flatMap_def, flatten_length_const _ 4 (by
      intro c hc
      obtain ⟨x, _, rfl⟩ := List.mem_map.mp hc
      exact leBytes_length 4 x), List.length_map]
  match table, hh with
  | [o], hh =>
    simp only [List.cons_append, List.nil_append, SpansCrash, and_false, or_false, Nat.lt_irrefl,
      false_or] at hc
    have := hP _ hc.2
    rw [List.length_take, List.length_drop] at this
    omega
  | _ :: _ :: _, _ =>
    simp only [List.length_cons] at hl
    omega

mutual

theorem crashes_length (dbg : Bool) : ∀ (t : Ty) (b : Bytes), Crashes dbg t b → 8 ≤ b.length
  | .uint _, _, h => h.elim
  | .u256, _, h => h.elim
  | .bool, _, h => h.elim
  | .node, _, h => h.elim
  | .array t _, _, h => tableCrash_length (crashes_length dbg t) h.2
  | .vector t _, _, h => tableCrash_length (crashes_length dbg t) h.2
  | .list t _, _, h => tableCrash_length (crashes_length dbg t) h.2
  | .bitvector _, _, h => h.elim
  | .bitlist _, _, h => h.elim
  | .option t, b, h => by
    obtain ⟨r, rfl, h⟩ := h
    have := crashes_length dbg t r h
    simp only [List.length_cons]
    omega
  | .newtype t, b, h => crashes_length dbg t b h
  | .container fs, b, h => by
    rcases h with ⟨_, h⟩ | ⟨ps, rfl, _, _, h⟩
    · simpa using headCrash_length _ fs none b h
    · obtain ⟨p, hp, h⟩ := crashesF_length dbg fs ps h
      exact Nat.le_trans h (piece_length_le hp)
  | .union vs, b, h => crashesV_length dbg vs 0 b h

theorem crashesF_length (dbg : Bool) : ∀ (fs : Fields) (ps : List Piece), CrashesF dbg fs ps →
    ∃ p ∈ ps, 8 ≤ p.2.length
  | .nil, _, h => by simp [CrashesF] at h
  | .cons _ _ _, [], h => h.elim
  | .cons _ t rest, p :: ps, h => by
    rcases h with h | ⟨_, h⟩
    · exact ⟨p, by simp, crashes_length dbg t p.2 h⟩
    · obtain ⟨q, hq, h⟩ := crashesF_length dbg rest ps h
      exact ⟨q, by simp [hq], h⟩

theorem crashesV_length (dbg : Bool) : ∀ (vs : Variants) (i : Nat) (b : Bytes),
    CrashesV dbg vs i b → 8 ≤ b.length
  | .nil, _, _, h => h.elim
  | .unit vs, i, b, h => crashesV_length dbg vs (i + 1) b h
  | .data t vs, i, b, h => by
    rcases h with ⟨r, rfl, h⟩ | h
    · have := crashes_length dbg t r h
      simp only [List.length_cons]
      omega
    · exact crashesV_length dbg vs (i + 1) b h

end

/-- C03 for inputs of fewer than eight bytes: no panic, for any type and build. (Eight bytes suffice
for a panic: `C03_decode_panics`.) -/
theorem C03_short_no_panic_partial (E : Env) (t : Ty) (b : Bytes) (hl : Legal t) (hf : Fits t)
    (hb : b.length < 8) : deserialize (t.impl E).toSerializable b ≠ .panic := fun h => by
  have := crashes_length E.debug t b ((panic_iff E t b hl hf (by omega)).mp h)
  omega

example : Crashes false listOfLists [8, 0, 0, 0, 100, 0, 0, 0] :=
  ⟨rfl, [8, 100], [], by decide, by simp, rfl, by decide, .inl (by decide)⟩

example : Crashes true twoLists [8, 0, 0, 0, 100, 0, 0, 0] := by
  refine .inl ⟨rfl, ?_⟩
  simp only [HeadCrash, isVar, if_true]
  exact ⟨8, [100, 0, 0, 0], by decide, by decide, 100, [], by decide, by decide, by decide,
    .inl (by decide)⟩

end Ssz
