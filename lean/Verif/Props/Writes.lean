import Verif.Proofs.Writes

/-!
# C92: encoding types built from parts of any kind

`T` is any implementation of `Serialize`, of which only the outcome for the values at hand is known: bytes, an
error with bytes left in the buffer, or a crash. The theorems say the outcome for what is built from them.
-/

namespace Ssz

open Spec

/-- C92, lists: too many elements are an error before anything else; otherwise the first part that fails
decides, and the bytes of the parts are laid out as SSZ prescribes. -/
theorem C92_list {α : Type} (E : Env) (T : Serializable α) (n : Nat) (vs : List α) (ws : List Written)
    (hs : Announces T) (h : List.Forall₂ (WritesAt T) vs ws) :
    WritesAt (Serializable.list E T n) vs
      (if vs.length > n then .err [] (.invalidInstance (.bounded n vs.length))
       else Written.collect [] (ws.map fun w => (T.isVariableSize, w))) := by
  by_cases hn : vs.length > n
  · rw [if_pos hn]
    intro buf
    show (Serializable.list E T n).serialize vs buf = _
    simp [Serializable.list, hn]
  · rw [if_neg hn]
    have := does_elements E hs vs ws h []
    unfold WritesAt
    simp only [Serializable.list, if_neg hn]
    exact this

/-- C92, vectors: the number of elements is not looked at. -/
theorem C92_vector {α : Type} (E : Env) (T : Serializable α) (n : Nat) (vs : List α) (ws : List Written)
    (hs : Announces T) (h : List.Forall₂ (WritesAt T) vs ws) :
    WritesAt (Serializable.vector E T n) vs
      (if n = 0 then .err [] (.invalidType (.invalidBound n))
       else Written.collect [] (ws.map fun w => (T.isVariableSize, w))) := by
  by_cases hn : n = 0
  · rw [if_pos hn]
    intro buf
    show (Serializable.vector E T n).serialize vs buf = _
    simp [Serializable.vector, hn]
  · rw [if_neg hn]
    have := does_elements E hs vs ws h []
    unfold WritesAt
    simp only [Serializable.vector, if_neg hn]
    exact this

/-- C92, arrays. -/
theorem C92_array {α : Type} (E : Env) (T : Serializable α) (n : Nat) (vs : { l : List α // l.length = n })
    (ws : List Written) (hs : Announces T) (h : List.Forall₂ (WritesAt T) vs.1 ws) :
    WritesAt (Serializable.array E T n) vs
      (if n = 0 then .err [] (.invalidType (.invalidBound n))
       else Written.collect [] (ws.map fun w => (T.isVariableSize, w))) := by
  by_cases hn : n = 0
  · rw [if_pos hn]
    intro buf
    show (Serializable.array E T n).serialize vs buf = _
    simp [Serializable.array, hn]
  · rw [if_neg hn]
    have := does_elements E hs vs.1 ws h []
    unfold WritesAt
    simp only [Serializable.array, if_neg hn]
    exact this

/-- C92, `None`. -/
theorem C92_none {α : Type} (T : Serializable α) : WritesAt (Serializable.option T) none (.ok [0] 1) :=
  does_zero

/-- C92, `Some`: the selector stays in the buffer if the part fails. -/
theorem C92_some {α : Type} (T : Serializable α) (x : α) (w : Written) (h : WritesAt T x w) :
    WritesAt (Serializable.option T) (some x) (w.selected 1) :=
  does_selector h 1

/-- C92, newtypes. -/
theorem C92_newtype {α : Type} (E : Env) (T : SimpleSerialize α) (x : α) (w : Written)
    (h : WritesAt T.toSerializable x w) : WritesAt (SimpleSerialize.newtype E T).toSerializable x w :=
  h

/-- C92, structs: the first field that fails decides. -/
theorem C92_struct {α : Type} (E : Env) (fs : FieldImpls α) (v : α) (ws : List (Bool × Written))
    (h : StructWrites fs v ws) :
    WritesAt (SimpleSerialize.container E fs).toSerializable v (Written.collect [] ws) :=
  does_fields E h []

/-- C92, enums: the position of the variant, then what the payload does. -/
theorem C92_union {α : Type} (E : Env) (ps : PayloadImpls α) (v : α) (i : Nat) (w : Written)
    (h : EnumWrites ps v i w) :
    WritesAt (SimpleSerialize.union E ps.variants).toSerializable v (w.selected (BitVec.ofNat 8 i)) := by
  have := does_variant h 0
  rw [Nat.zero_add] at this
  exact this

/-- C92, enums with a first variant `None`: that variant, -/
theorem C92_union_unit {α : Type} (E : Env) (ps : PayloadImpls α) (u : Unit) :
    WritesAt (SimpleSerialize.union E (.unit ps.variants)).toSerializable (.inl u) (.ok [0] 1) :=
  does_zero

/-- and the others. -/
theorem C92_union_none {α : Type} (E : Env) (ps : PayloadImpls α) (v : α) (i : Nat) (w : Written)
    (h : EnumWrites ps v i w) :
    WritesAt (SimpleSerialize.union E (.unit ps.variants)).toSerializable (.inr v)
      (w.selected (BitVec.ofNat 8 (i + 1))) := by
  have := does_variant h 1
  rw [Nat.add_comm] at this
  exact this

/-- C92, transparent enums: what the payload does. -/
theorem C92_transparent {α : Type} (E : Env) (ps : PayloadImpls α) (v : α) (i : Nat) (w : Written)
    (h : EnumWrites ps v i w) : WritesAt (SimpleSerialize.transparent E ps).toSerializable v w :=
  does_transparent h

/-- C92, the types of the crate: never a crash, success for the values in bounds without an overlong part. -/
theorem C92_crate (E : Env) (t : Ty) (v : t.Val) (hl : Legal t) (hf : Fits t) (hst : Stored t v) :
    Announces (t.impl E).toSerializable ∧ (t.impl E).isVariableSize = isVar t ∧
    ((InBounds t v ∧ Small t v → ∃ b n, WritesAt (t.impl E).toSerializable v (.ok b n) ∧
        b.length = (enc t v).length) ∧
     (¬ (InBounds t v ∧ Small t v) → ∃ l e, WritesAt (t.impl E).toSerializable v (.err l e)) ∧
     (Valid t v ∧ Small t v →
        WritesAt (t.impl E).toSerializable v (.ok (enc t v) (enc t v).length))) := by
  refine ⟨⟨_, impl_sizeHint E t hf, fixedLen_lt t hf⟩, impl_isVar E t, ?_, ?_, ?_⟩
  · intro hp
    rcases impl_total E t v hl hf hst with ⟨_, b, n, hlen, h⟩ | ⟨hn, _⟩
    · exact ⟨b, n, h, hlen⟩
    · exact absurd hp hn
  · intro hp
    rcases impl_total E t v hl hf hst with ⟨hn, _⟩ | ⟨_, e, l, h⟩
    · exact absurd hn hp
    · exact ⟨l, e, h⟩
  · exact fun hp => impl_serialize E t v hl hf hp.1 hp.2

/-- C92, `ssz_rs::serialize`: the bytes or the error. -/
theorem C92_serialize {α : Type} (T : Serializable α) (v : α) (w : Written) (h : WritesAt T v w) :
    serialize T v = match w with
      | .ok b _ => .ok b
      | .err _ e => .err e
      | .crash => .panic := by
  have h0 := h []
  unfold serialize
  match w with
  | .ok b n =>
    have h0 : T.serialize v [] = ([] ++ b, .ok n) := h0
    rw [h0]
    rfl
  | .err l e =>
    have h0 : T.serialize v [] = ([] ++ l, .err e) := h0
    rw [h0]
  | .crash =>
    have h0 : (T.serialize v []).2 = .panic := h0
    rcases hx : T.serialize v [] with ⟨r, y⟩
    rw [hx] at h0
    simp only at h0
    subst h0
    rfl

/-- C92: lists, vectors, arrays and structs that fail leave the buffer alone, whatever their parts do. -/
theorem C92_left (ws : List (Bool × Written)) (l : Bytes) (e : SerError)
    (h : Written.collect [] ws = .err l e) : l = [] :=
  collect_left ws [] l e h

/-- C92: they succeed exactly if all parts do and the whole is shorter than `2^32` bytes. -/
theorem C92_succeeds (ws : List (Bool × Written)) (b : Bytes) (n : Nat) :
    Written.collect [] ws = .ok b n ↔ ∃ ps : List Piece,
      List.Forall₂ (fun w p => p.1 = w.1 ∧ ∃ k, w.2 = .ok p.2 k) ws ps ∧
      b = assemble ps ∧ n = b.length ∧ b.length < 2 ^ 32 := by
  have key : ∀ (ws : List (Bool × Written)) (qs : List Piece), Written.collect qs ws = .ok b n ↔
      ∃ ps : List Piece, List.Forall₂ (fun w p => p.1 = w.1 ∧ ∃ k, w.2 = .ok p.2 k) ws ps ∧
        b = assemble (qs ++ ps) ∧ n = b.length ∧ b.length < 2 ^ 32 := by
    intro ws
    induction ws with
    | nil =>
      intro qs
      unfold Written.collect
      constructor
      · intro h
        split at h
        · injection h with h1 h2
          subst h1 h2
          exact ⟨[], .nil, by rw [List.append_nil], rfl, by assumption⟩
        · cases h
      · rintro ⟨ps, h1, h2, h3, h4⟩
        cases h1
        rw [List.append_nil] at h2
        subst h2 h3
        rw [if_pos h4]
    | cons w ws ih =>
      intro qs
      obtain ⟨var, w⟩ := w
      match w with
      | .ok c k =>
        refine (ih (qs ++ [(var, c)])).trans ⟨fun ⟨ps, h1, h2, h3⟩ => ⟨(var, c) :: ps,
          .cons ⟨rfl, k, rfl⟩ h1, by rw [h2, List.append_assoc]; rfl, h3⟩, ?_⟩
        rintro ⟨qs', hq, h2, h3⟩
        rcases hq with _ | @⟨_, p, _, ps, ⟨h0, k', hk⟩, h1⟩
        obtain ⟨p1, p2⟩ := p
        injection hk with hk _
        simp only at h0 hk
        subst h0 hk
        exact ⟨ps, h1, by rw [h2, List.append_assoc]; rfl, h3⟩
      | .err l e =>
        refine ⟨fun h => (nomatch h), ?_⟩
        rintro ⟨_, hq, -⟩
        rcases hq with _ | ⟨⟨_, _, hk⟩, _⟩
        cases hk
      | .crash =>
        refine ⟨fun h => (nomatch h), ?_⟩
        rintro ⟨_, hq, -⟩
        rcases hq with _ | ⟨⟨_, _, hk⟩, _⟩
        cases hk
  exact key ws []

/-! An example: a hand-written type of one byte that writes a mark and then fails on 13, and crashes on 0. -/

namespace Moody

/-- The type. -/
def moody : SimpleSerialize (BitVec 8) :=
  { SimpleSerialize.uint .u8 with
    serialize := fun v buf =>
      if v = 13 then (buf ++ [99], .err (.invalidInstance (.exact 1 13)))
      else if v = 0 then (buf, .panic)
      else (buf ++ [v], .ok 1) }

theorem moody_fails : WritesAt moody.toSerializable 13 (.err [99] (.invalidInstance (.exact 1 13))) :=
  fun _ => rfl

theorem moody_crashes : WritesAt moody.toSerializable 0 .crash := fun _ => rfl

theorem moody_writes : WritesAt moody.toSerializable 7 (.ok [7] 1) := fun _ => rfl

/-- A list writes what its elements write, -/
example (E : Env) : WritesAt (Serializable.list E moody.toSerializable 3) [7, 7] (.ok [7, 7] 2) :=
  C92_list E moody.toSerializable 3 [7, 7] _ ⟨1, rfl, by decide⟩
    (.cons moody_writes (.cons moody_writes .nil))

/-- fails with the first error and nothing left in the buffer, although a later element would crash, -/
example (E : Env) : WritesAt (Serializable.list E moody.toSerializable 3) [7, 13, 0]
    (.err [] (.invalidInstance (.exact 1 13))) :=
  C92_list E moody.toSerializable 3 [7, 13, 0] _ ⟨1, rfl, by decide⟩
    (.cons moody_writes (.cons moody_fails (.cons moody_crashes .nil)))

/-- and an `Option` leaves the selector and the mark. -/
example : WritesAt (Serializable.option moody.toSerializable) (some 13)
    (.err [1, 99] (.invalidInstance (.exact 1 13))) :=
  C92_some _ _ _ moody_fails

/-- `struct { a: Moody, b: Option<Moody> }` crashes with its second field. -/
example (E : Env) : WritesAt (SimpleSerialize.container E
    (.cons "a" moody (.cons "b" (SimpleSerialize.option E moody) .nil))).toSerializable
    (7, some 0, ()) .crash :=
  C92_struct E (.cons "a" moody (.cons "b" (SimpleSerialize.option E moody) .nil)) (7, some 0, ())
    [(false, .ok [7] 1), (true, .crash)]
    (.cons ⟨1, rfl, by decide⟩ moody_writes
      (.cons ⟨0, rfl, by decide⟩ (C92_some _ _ _ moody_crashes) .nil))

end Moody

end Ssz
