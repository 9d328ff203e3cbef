import Verif.Props.Encoding
import Verif.Model.Serde

/-!
# Property C51: text decoding enforces the same bounds
-/

namespace Ssz

open Spec Serde

theorem mapErr_eq_ok {ε δ α : Type} {x : Res ε α} {f : ε → δ} {a : α} :
    x.mapErr f = .ok a ↔ x = .ok a := by
  cases x <;> simp [Res.mapErr]

theorem deSeq_eq_ok {α : Type} {T : Impl α} {x : Text} {v : List α} :
    deSeq T x = .ok v ↔ ∃ items, x = .seq items ∧ List.Forall₂ (fun i a => T.de i = .ok a) items v := by
  cases x with
  | seq items =>
    simp only [deSeq, Res.mapList_eq_ok, Text.seq.injEq]
    exact ⟨fun h => ⟨items, rfl, h⟩, fun ⟨_, he, h⟩ => he ▸ h⟩
  | str s => simp [deSeq]
  | other n => simp [deSeq]

/-- C51 for `List<T, N>`: accepted are exactly the sequences of at most `N` accepted elements. -/
theorem C51_list {α : Type} (T : Impl α) (n : Nat) (x : Text) (v : List α) :
    (Serde.list T n).de x = .ok v ↔
      ∃ items, x = .seq items ∧ List.Forall₂ (fun i a => T.de i = .ok a) items v ∧
        v.length ≤ n := by
  show (deSeq T x >>= fun data => (SszList.tryFromVec n data).mapErr _) = .ok v ↔ _
  rw [Res.bind_eq_ok]
  simp only [mapErr_eq_ok, SszList.tryFromVec, deSeq_eq_ok]
  constructor
  · rintro ⟨a, ⟨items, rfl, h⟩, h2⟩
    by_cases hl : a.length > n
    · rw [if_pos hl] at h2; exact nomatch h2
    · rw [if_neg hl] at h2
      obtain rfl := Res.ok.inj h2
      exact ⟨items, rfl, h, Nat.not_lt.1 hl⟩
  · rintro ⟨items, rfl, h, hl⟩
    exact ⟨v, ⟨items, rfl, h⟩, by rw [if_neg (Nat.not_lt.2 hl)]⟩

/-- C51 for `Vector<T, N>`: accepted are exactly the sequences of `N` accepted elements. -/
theorem C51_vector {α : Type} (T : Impl α) (n : Nat) (x : Text) (v : List α) :
    (Serde.vector T n).de x = .ok v ↔
      ∃ items, x = .seq items ∧ List.Forall₂ (fun i a => T.de i = .ok a) items v ∧
        v.length = n ∧ n ≠ 0 := by
  show (deSeq T x >>= fun data => (SszVector.tryFromVec n data).mapErr _) = .ok v ↔ _
  rw [Res.bind_eq_ok]
  simp only [mapErr_eq_ok, SszVector.tryFromVec, deSeq_eq_ok]
  constructor
  · rintro ⟨a, ⟨items, rfl, h⟩, h2⟩
    by_cases h0 : n = 0
    · rw [if_pos h0] at h2; exact nomatch h2
    · rw [if_neg h0] at h2
      by_cases hl : a.length ≠ n
      · rw [if_pos hl] at h2; exact nomatch h2
      · rw [if_neg hl] at h2
        obtain rfl := Res.ok.inj h2
        exact ⟨items, rfl, h, Decidable.not_not.1 hl, h0⟩
  · rintro ⟨items, rfl, h, hl, h0⟩
    exact ⟨v, ⟨items, rfl, h⟩, by rw [if_neg h0, if_neg (not_not.2 hl)]⟩

/-! ## Hexadecimal text -/

/-- The characters `0`..`9`, `a`..`f`, `A`..`F` with their values. -/
def digitTable : List (Char × Nat) :=
  [('0', 0), ('1', 1), ('2', 2), ('3', 3), ('4', 4), ('5', 5), ('6', 6), ('7', 7), ('8', 8),
   ('9', 9), ('a', 10), ('b', 11), ('c', 12), ('d', 13), ('e', 14), ('f', 15), ('A', 10), ('B', 11),
   ('C', 12), ('D', 13), ('E', 14), ('F', 15)]

/-- The text denotes the bytes: two digits for each byte, the more significant first. -/
inductive Denotes : List Char → Bytes → Prop where
  | nil : Denotes [] []
  | cons {a b : Char} {x y : Nat} {s : List Char} {bytes : Bytes} :
      (a, x) ∈ digitTable → (b, y) ∈ digitTable → Denotes s bytes →
      Denotes (a :: b :: s) (BitVec.ofNat 8 (16 * x + y) :: bytes)

theorem hexValue_iff (c : Char) (x : Nat) : hexValue c = some x ↔ (c, x) ∈ digitTable := by
  have hv : ∀ a b : Char, (a ≤ b) = (a.toNat ≤ b.toNat) := fun a b => by
    simp only [Char.le_def, UInt32.le_iff_toNat_le, Char.toNat]
  have heq : ∀ a b : Char, a = b ↔ a.toNat = b.toNat := fun a b => ⟨fun h => h ▸ rfl, fun h =>
    Char.ext (UInt32.toNat_inj.1 h)⟩
  have e0 : '0'.toNat = 48 := rfl
  have e9 : '9'.toNat = 57 := rfl
  have ea : 'a'.toNat = 97 := rfl
  have ef : 'f'.toNat = 102 := rfl
  have eA : 'A'.toNat = 65 := rfl
  have eF : 'F'.toNat = 70 := rfl
  constructor
  · intro h
    unfold hexValue at h
    simp only [hv, e0, e9, ea, ef, eA, eF] at h
    have hlt : ∀ m, c.toNat = m → c = Char.ofNat m := by
      rintro m rfl
      exact (Char.ofNat_toNat c).symm
    split at h
    · next hc =>
      obtain rfl := Option.some.inj h
      have : c.toNat = 48 ∨ c.toNat = 49 ∨ c.toNat = 50 ∨ c.toNat = 51 ∨ c.toNat = 52 ∨
        c.toNat = 53 ∨ c.toNat = 54 ∨ c.toNat = 55 ∨ c.toNat = 56 ∨ c.toNat = 57 := by omega
      rcases this with h | h | h | h | h | h | h | h | h | h <;>
        (rw [h]; rw [hlt _ h]; decide)
    · split at h
      · next hc =>
        obtain rfl := Option.some.inj h
        have : c.toNat = 97 ∨ c.toNat = 98 ∨ c.toNat = 99 ∨ c.toNat = 100 ∨ c.toNat = 101 ∨
          c.toNat = 102 := by omega
        rcases this with h | h | h | h | h | h <;> (rw [h]; rw [hlt _ h]; decide)
      · split at h
        · next hc =>
          obtain rfl := Option.some.inj h
          have : c.toNat = 65 ∨ c.toNat = 66 ∨ c.toNat = 67 ∨ c.toNat = 68 ∨ c.toNat = 69 ∨
            c.toNat = 70 := by omega
          rcases this with h | h | h | h | h | h <;> (rw [h]; rw [hlt _ h]; decide)
        · exact nomatch h
  · intro h
    have key : ∀ p ∈ digitTable, hexValue p.1 = some p.2 := by decide
    exact key (c, x) h

theorem hexPairs_iff : ∀ (s : List Char) (bytes : Bytes),
    hexPairs s = some bytes ↔ Denotes s bytes
  | [], bytes => by
    simp only [hexPairs, Option.some.injEq]
    constructor
    · rintro rfl; exact .nil
    · intro h; cases h; rfl
  | [a], bytes => by
    simp only [hexPairs, reduceCtorEq, false_iff]
    intro h; cases h
  | a :: b :: rest, bytes => by
    simp only [hexPairs]
    constructor
    · intro h
      split at h
      · next x y bs hx hy hr =>
        obtain rfl := Option.some.inj h
        exact .cons ((hexValue_iff _ _).1 hx) ((hexValue_iff _ _).1 hy)
          ((hexPairs_iff rest _).1 hr)
      · exact nomatch h
    · intro h
      cases h with
      | cons hx hy hr =>
        rw [(hexValue_iff _ _).2 hx, (hexValue_iff _ _).2 hy, (hexPairs_iff rest _).2 hr]

theorem hexPairs_encode (bytes : Bytes) :
    hexPairs (bytes.flatMap fun b => [hexDigit (b.toNat / 16), hexDigit (b.toNat % 16)]) =
      some bytes := by
  induction bytes with
  | nil => rfl
  | cons b bytes ih =>
    have key : ∀ n, n < 16 → hexValue (hexDigit n) = some n := by decide
    have h1 := key (b.toNat / 16) (by have := b.isLt; omega)
    have h2 := key (b.toNat % 16) (by omega)
    simp only [List.flatMap_cons, List.cons_append, List.nil_append, hexPairs, h1, h2, ih]
    congr 2
    apply BitVec.eq_of_toNat_eq
    rw [BitVec.toNat_ofNat, Nat.div_add_mod]
    exact Nat.mod_eq_of_lt b.isLt

/-- The text that is written for some bytes reads as these bytes. -/
theorem hexDecode_encode (bytes : Bytes) : hexDecode (.str (hexEncode bytes)) = .ok bytes := by
  simp only [hexDecode, hexEncode, stripPrefix, hexPairs_encode]

theorem stripPrefix_denotes (s : List Char) (bytes : Bytes) :
    Denotes (stripPrefix s) bytes ↔
      ∃ r, (s = r ∨ s = '0' :: 'x' :: r) ∧ Denotes r bytes := by
  have hx : ∀ (r : List Char), ¬ Denotes ('0' :: 'x' :: r) bytes := by
    intro r h
    cases h with
    | cons _ h _ =>
      rename_i y _ _ _
      have : ∀ p ∈ digitTable, p.1 ≠ 'x' := by decide
      exact this _ h rfl
  unfold stripPrefix
  split
  · next rest =>
    constructor
    · intro h; exact ⟨rest, .inr rfl, h⟩
    · rintro ⟨r, rfl | he, h⟩
      · exact absurd h (hx rest)
      · simp only [List.cons.injEq, true_and] at he
        exact he ▸ h
  · next hne =>
    constructor
    · intro h; exact ⟨s, .inl rfl, h⟩
    · rintro ⟨r, rfl | he, h⟩
      · exact h
      · exact absurd he (hne r)

theorem hexDecode_eq_ok {x : Text} {bytes : Bytes} :
    hexDecode x = .ok bytes ↔
      ∃ s, (x = .str s ∨ x = .str ('0' :: 'x' :: s)) ∧ Denotes s bytes := by
  cases x with
  | str s =>
    simp only [hexDecode, Text.str.injEq]
    rw [← stripPrefix_denotes, ← hexPairs_iff]
    constructor
    · intro h
      split at h
      · next b hb => rw [hb]; exact congrArg some (Res.ok.inj h)
      · exact nomatch h
    · intro h
      rw [h]
  | seq l => simp [hexDecode]
  | other n => simp [hexDecode]

/-- C51 for `Bitlist<N>`: accepted are exactly the strings that denote, after an optional `0x`, bytes
that `deserialize` accepts, with the same value. -/
theorem C51_bitlist (E : Env) (n : Nat) (x : Text) (v : Bits) :
    (Serde.bitlist E n).de x = .ok v ↔
      ∃ s bytes, ((x = .str s ∨ x = .str ('0' :: 'x' :: s)) ∧ Denotes s bytes) ∧
        deserialize ((Ty.bitlist n).impl E).toSerializable bytes = .ok v := by
  show (hexDecode x >>= fun data => (Bitlist.tryFromBytes E n data).mapErr _) = .ok v ↔ _
  rw [Res.bind_eq_ok]
  simp only [mapErr_eq_ok, Bitlist.tryFromBytes, hexDecode_eq_ok]
  constructor
  · rintro ⟨bytes, ⟨s, h1⟩, h2⟩; exact ⟨s, bytes, h1, h2⟩
  · rintro ⟨s, bytes, h1, h2⟩; exact ⟨bytes, ⟨s, h1⟩, h2⟩

/-- C51 for `Bitvector<N>`. -/
theorem C51_bitvector (E : Env) (n : Nat) (x : Text) (v : Bits) :
    (Serde.bitvector n).de x = .ok v ↔
      ∃ s bytes, ((x = .str s ∨ x = .str ('0' :: 'x' :: s)) ∧ Denotes s bytes) ∧
        deserialize ((Ty.bitvector n).impl E).toSerializable bytes = .ok v := by
  show (hexDecode x >>= fun data => (Bitvector.tryFromBytes n data).mapErr _) = .ok v ↔ _
  rw [Res.bind_eq_ok]
  simp only [mapErr_eq_ok, Bitvector.tryFromBytes, hexDecode_eq_ok]
  constructor
  · rintro ⟨bytes, ⟨s, h1⟩, h2⟩; exact ⟨s, bytes, h1, h2⟩
  · rintro ⟨s, bytes, h1, h2⟩; exact ⟨bytes, ⟨s, h1⟩, h2⟩

/-! ## All depths -/

theorem each_of_forall₂ {α β : Type} {P : β → Prop} {R : α → β → Prop}
    (h : ∀ a b, R a b → P b) : ∀ {xs : List α} {ys : List β}, List.Forall₂ R xs ys → Each P ys
  | _, _, .nil => fun x hx => absurd hx List.not_mem_nil
  | _, _, .cons hab hr => fun x hx => by
    rcases List.mem_cons.1 hx with rfl | hx
    · exact h _ _ hab
    · exact each_of_forall₂ h hr x hx

/-- The element type below the lists and vectors, unless it is a bit collection. -/
def leafOf : Ty → Option Ty
  | .list t _ => leafOf t
  | .vector t _ => leafOf t
  | .bitlist _ => none
  | .bitvector _ => none
  | t => some t

/-- C51 at every depth: a value read from text respects the bounds of its type, provided the
innermost elements do so if their type gets its implementation from elsewhere. -/
theorem C51_valid (E : Env) (leaf : (t : Ty) → Impl t.Val) :
    ∀ (t : Ty) (_ : ∀ u, leafOf t = some u → ∀ x v, (leaf u).de x = .ok v → Valid u v)
      (x : Text) (v : t.Val), Legal t → Fits t → (Serde.ofTy E leaf t).de x = .ok v → Valid t v
  | .list t n, hleaf, x, v, hl, hf, h => by
    obtain ⟨items, _, h1, h2⟩ := (C51_list _ n x v).1 h
    exact ⟨h2, each_of_forall₂ (fun i a hi => C51_valid E leaf t hleaf i a hl hf hi) h1⟩
  | .vector t n, hleaf, x, v, hl, hf, h => by
    obtain ⟨items, _, h1, h2, _⟩ := (C51_vector _ n x v).1 h
    exact ⟨h2, each_of_forall₂ (fun i a hi => C51_valid E leaf t hleaf i a hl.2 hf.1 hi) h1⟩
  | .bitlist n, _, x, v, _, hf, h => by
    obtain ⟨s, b, _, h2⟩ := (C51_bitlist E n x v).1 h
    have h3 := Bitlist.deserialize_sound hf h2
    exact ⟨h3.1, h3.2.1⟩
  | .bitvector n, _, x, v, _, _, h => by
    obtain ⟨s, b, _, h2⟩ := (C51_bitvector E n x v).1 h
    exact (Bitvector.deserialize_sound h2).2.1
  | .uint u, hleaf, x, v, _, _, h => hleaf (.uint u) rfl x v h
  | .u256, hleaf, x, v, _, _, h => hleaf (.u256) rfl x v h
  | .bool, hleaf, x, v, _, _, h => hleaf (.bool) rfl x v h
  | .node, hleaf, x, v, _, _, h => hleaf (.node) rfl x v h
  | .array t n, hleaf, x, v, _, _, h => hleaf (.array t n) rfl x v h
  | .option t, hleaf, x, v, _, _, h => hleaf (.option t) rfl x v h
  | .newtype t, hleaf, x, v, _, _, h => hleaf (.newtype t) rfl x v h
  | .container fs, hleaf, x, v, _, _, h => hleaf (.container fs) rfl x v h
  | .union vs, hleaf, x, v, _, _, h => hleaf (.union vs) rfl x v h

/-- Text written by the implementation of a type reads as an equal value. -/
def TextRoundTrip (t : Ty) (I : Impl t.Val) (v : t.Val) : Prop :=
  ∃ x w, I.ser v = .ok x ∧ I.de x = .ok w ∧ norm t w = norm t v

theorem seq_round_trip (t : Ty) (I : Impl t.Val) : ∀ v : List t.Val,
    (∀ a ∈ v, TextRoundTrip t I a) → ∃ (items : List Text) (w : List t.Val),
      Res.mapList I.ser v = .ok items ∧ List.Forall₂ (fun i a => I.de i = .ok a) items w ∧
        w.map (norm t) = v.map (norm t) ∧ w.length = v.length
  | [], _ => ⟨[], [], rfl, .nil, rfl, rfl⟩
  | a :: v, h => by
    obtain ⟨x, b, h1, h2, h3⟩ := h a List.mem_cons_self
    obtain ⟨items, w, h4, h5, h6, h7⟩ := seq_round_trip t I v fun c hc => h c (List.mem_cons_of_mem _ hc)
    refine ⟨x :: items, b :: w, ?_, .cons h2 h5, ?_, congrArg (· + 1) h7⟩
    · simp only [Res.mapList, h1, h4]
    · rw [List.map_cons, List.map_cons, h3, h6]

/-- C51, round trip at every depth: the text of an in-bounds value reads as an equal value, provided
this holds for the innermost elements if their type gets its implementation from elsewhere. -/
theorem C51_round_trip (E : Env) (leaf : (t : Ty) → Impl t.Val) :
    ∀ (t : Ty) (_ : ∀ u, leafOf t = some u → ∀ v, Valid u v → TextRoundTrip u (leaf u) v)
      (v : t.Val), Legal t → Fits t → Valid t v → TextRoundTrip t (Serde.ofTy E leaf t) v
  | .list t n, hleaf, v, hl, hf, hv => by
    obtain ⟨items, w, h1, h2, h3, h4⟩ := seq_round_trip t (Serde.ofTy E leaf t) v fun a ha =>
      C51_round_trip E leaf t hleaf a hl hf (hv.2 a ha)
    refine ⟨.seq items, w, ?_, ?_, h3⟩
    · show (Res.mapList _ _).map _ = _
      rw [h1]; rfl
    · refine (C51_list _ n _ w).2 ⟨items, rfl, h2, h4 ▸ hv.1⟩
  | .vector t n, hleaf, v, hl, hf, hv => by
    obtain ⟨items, w, h1, h2, h3, h4⟩ := seq_round_trip t (Serde.ofTy E leaf t) v fun a ha =>
      C51_round_trip E leaf t hleaf a hl.2 hf.1 (hv.2 a ha)
    refine ⟨.seq items, w, ?_, ?_, h3⟩
    · show (Res.mapList _ _).map _ = _
      rw [h1]; rfl
    · refine (C51_vector _ n _ w).2 ⟨items, rfl, h2, h4.trans hv.1, Nat.ne_of_gt hl.1⟩
  | .bitlist n, _, v, hl, hf, hv => by
    have h1 := serialize_enc E (.bitlist n) v hl hf hv trivial
    have h2 := de_enc E (.bitlist n) v hl hf hv trivial
    obtain ⟨k, h3⟩ := serialize_eq_ok.1 h1
    have h3 : Bitlist.serializeWithLength n v true [] = (enc (.bitlist n) v, .ok k) := h3
    refine ⟨.str (hexEncode (enc (.bitlist n) v)), norm (.bitlist n) v, ?_, ?_, norm_norm _ v⟩
    · show ((bitlistByteLength E v.len).lift >>= fun _ => _) = _
      have hlen : bitlistByteLength E v.len = .ok ((v.len + 8 - 1 + 1) / 8) := by
        have hv1 : v.len ≤ n := hv.1
        have hf : n + 8 < 2 ^ 64 := hf
        unfold bitlistByteLength
        rw [Env.add_eq_ok (show v.len + 8 < usizeMod by unfold usizeMod; omega), Res.ok_bind,
          Env.sub_eq_ok (by omega), Res.ok_bind,
          Env.add_eq_ok (show v.len + 8 - 1 + 1 < usizeMod by unfold usizeMod; omega)]
        rfl
      rw [hlen, Res.lift_ok, Res.ok_bind, h3]
    · show (hexDecode _ >>= fun data => (Bitlist.tryFromBytes E n data).mapErr _) = _
      rw [hexDecode_encode, Res.ok_bind]
      exact mapErr_eq_ok.2 (mapErr_eq_ok.2 h2)
  | .bitvector n, _, v, hl, hf, hv => by
    have h1 := serialize_enc E (.bitvector n) v hl hf hv trivial
    have h2 := de_enc E (.bitvector n) v hl hf hv trivial
    obtain ⟨k, h3⟩ := serialize_eq_ok.1 h1
    have h3 : Bitvector.serialize n v [] = (enc (.bitvector n) v, .ok k) := h3
    refine ⟨.str (hexEncode (enc (.bitvector n) v)), norm (.bitvector n) v, ?_, ?_, norm_norm _ v⟩
    · show (match Bitvector.serialize n v [] with
        | (buf, .ok _) => .ok (.str (hexEncode buf))
        | (_, .err e) => .err (.customSer e)
        | (_, .panic) => .panic : Res SerdeError Text) = _
      rw [h3]
    · show (hexDecode _ >>= fun data => (Bitvector.tryFromBytes n data).mapErr _) = _
      rw [hexDecode_encode, Res.ok_bind]
      exact mapErr_eq_ok.2 (mapErr_eq_ok.2 h2)
  | .uint u, hleaf, v, _, _, hv => hleaf (.uint u) rfl v hv
  | .u256, hleaf, v, _, _, hv => hleaf (.u256) rfl v hv
  | .bool, hleaf, v, _, _, hv => hleaf (.bool) rfl v hv
  | .node, hleaf, v, _, _, hv => hleaf (.node) rfl v hv
  | .array t n, hleaf, v, _, _, hv => hleaf (.array t n) rfl v hv
  | .option t, hleaf, v, _, _, hv => hleaf (.option t) rfl v hv
  | .newtype t, hleaf, v, _, _, hv => hleaf (.newtype t) rfl v hv
  | .container fs, hleaf, v, _, _, hv => hleaf (.container fs) rfl v hv
  | .union vs, hleaf, v, _, _, hv => hleaf (.union vs) rfl v hv

/-! ## Examples -/

/-- An element type: numbers below 256. -/
def sampleByte : Impl (BitVec 8) where
  ser v := .ok (.other v.toNat)
  de
    | .other n => if n < 256 then .ok (BitVec.ofNat 8 n) else .err .format
    | _ => .err .format

example : (Serde.list sampleByte 2).de (.seq [.other 7, .other 8]) = .ok [7, 8] := rfl

example : (Serde.list sampleByte 2).de (.seq [.other 7, .other 8, .other 9]) =
    .err (.custom (.instance (.bounded 2 3))) := rfl

example : (Serde.vector sampleByte 2).de (.seq [.other 7]) =
    .err (.custom (.instance (.exact 2 1))) := rfl

/-- The text from the test in bitlist.rs:390-398. -/
example : Denotes "ff1e".toList [0xff, 0x1e] :=
  (hexPairs_iff _ _).1 (by decide)

example (E : Env) : (Serde.bitlist E 256).de (.str "0xff1e".toList) =
    .ok ⟨[true, true, true, true, true, true, true, true, false, true, true, true],
      [false, false, false, false]⟩ := by
  obtain ⟨d, H⟩ := E
  cases d <;> with_unfolding_all rfl

/-- Implementations where `u8` is written as a number. -/
def sampleLeaf : (t : Ty) → Impl t.Val
  | .uint .u8 => sampleByte
  | _ => ⟨fun _ => .err .format, fun _ => .err .format⟩

example : ∀ u, leafOf (.list (.vector (.uint .u8) 2) 3) = some u →
    (∀ x v, (sampleLeaf u).de x = .ok v → Valid u v) ∧
      ∀ v, Valid u v → TextRoundTrip u (sampleLeaf u) v := by
  intro u hu
  obtain rfl : Ty.uint .u8 = u := Option.some.inj hu
  refine ⟨fun _ _ _ => trivial, fun v _ => ?_⟩
  refine ⟨.other (BitVec.toNat (w := 8) v), v, rfl, ?_, rfl⟩
  have hlt : BitVec.toNat (w := 8) v < 256 := BitVec.isLt (w := 8) v
  show (if BitVec.toNat (w := 8) v < 256 then Res.ok (BitVec.ofNat 8 (BitVec.toNat (w := 8) v))
    else .err SerdeError.format) = .ok v
  rw [if_pos hlt]
  exact congrArg Res.ok (BitVec.ofNat_toNat 8 (v : BitVec 8) |>.trans (BitVec.setWidth_eq _))

end Ssz
