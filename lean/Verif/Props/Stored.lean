import Verif.Proofs.Stored
import Verif.Proofs.Overflow
import Verif.Proofs.DecodeSound
import Verif.Props.Merkle

/-!
# C30 for values whose `Bitlist`s have any unused bits

`==` does not look at the bits that `pop` leaves behind in the storage of a `Bitlist`, but they are
written and hashed. For values of every type, these theorems say what is written and hashed, and
when equal values have the same encoding and the same root.
-/

namespace Ssz

open Spec

/-- C30: exactly what `serialize` writes for a value whose `Bitlist`s have any unused bits. -/
theorem C30_encoding_exact_partial (E : Env) (t : Ty) (v : t.Val) (hl : Legal t) (hf : Fits t)
    (hv : Proper t v) (hs : Small t v) :
    serialize (t.impl E).toSerializable v = .ok (rawEnc t v) := by
  unfold serialize
  rw [raw_serialize E t v hl hf hv hs]
  rfl

/-- C30: equal values have the same encoding exactly if they agree in all unused bits of their
`Bitlist`s but the first ones, which the bits that mark the end overwrite. -/
theorem C30_encoding_iff_partial (E : Env) (t : Ty) (v w : t.Val) (hl : Legal t) (hf : Fits t)
    (hv : Proper t v) (hw : Proper t w) (hsv : Small t v) (hsw : Small t w)
    (h : norm t v = norm t w) :
    serialize (t.impl E).toSerializable v = serialize (t.impl E).toSerializable w ↔
      trim t v = trim t w := by
  rw [C30_encoding_exact_partial E t v hl hf hv hsv, C30_encoding_exact_partial E t w hl hf hw hsw,
    Res.ok.injEq, rawEnc_iff t v w (stored_of_proper t v hv) (stored_of_proper t w hw) h]

/-- C30: the encoding is the specified one exactly if all unused bits but the first ones are
clear. -/
theorem C30_encoding_std_iff_partial (E : Env) (t : Ty) (v : t.Val) (hl : Legal t) (hf : Fits t)
    (hv : Proper t v) (hs : Small t v) :
    serialize (t.impl E).toSerializable v = .ok (enc t v) ↔ trim t v = norm t v := by
  rw [C30_encoding_exact_partial E t v hl hf hv hs, Res.ok.injEq,
    rawEnc_enc_iff (stored_of_proper t v hv) (stored_of_valid t _ (valid_norm t v hv))]

/-- C30: a value comes back equal from its encoding exactly then. (Values with empty lists of
variable-size elements are left out, see C02.) -/
theorem C30_round_trip_iff_partial (E : Env) (t : Ty) (v : t.Val) (hl : Legal t) (hf : Fits t)
    (hv : Proper t v) (hs : (enc t v).length < 2 ^ 32) (hn : NoEmptyVarList t v) :
    (∃ b w, serialize (t.impl E).toSerializable v = .ok b ∧
      deserialize (t.impl E).toSerializable b = .ok w ∧ norm t w = norm t v) ↔
      trim t v = norm t v := by
  have hsm := small_of_length t v hs
  rw [← C30_encoding_std_iff_partial E t v hl hf hv hsm]
  constructor
  · rintro ⟨b, w, h1, h2, h3⟩
    have h4 := C30_encoding_exact_partial E t v hl hf hv hsm
    rw [h4] at h1
    have h1 : rawEnc t v = b := Res.ok.inj h1
    have hb : b.length < 2 ^ 63 := by
      rw [← h1, rawEnc_length t v (stored_of_proper t v hv)]; omega
    obtain ⟨_, s2, s3⟩ := de_sound E t b w hl hf hb h2
    have hw : w = norm t v := by rw [← s2, h3]
    have s3 := s3 (by rw [hw]; exact noEmptyVarList_norm t v hn)
    rw [h4, h1, ← s3, hw, enc_norm]
  · intro h
    have hd := de_enc E t (norm t v) hl hf (valid_norm t v hv)
      (small_of_length t _ (by rw [enc_norm]; exact hs))
    rw [enc_norm] at hd
    exact ⟨_, _, h, hd, by rw [norm_norm, norm_norm]⟩

/-- C30: exactly what `hash_tree_root` hashes for a value whose `Bitlist`s have any unused bits. -/
theorem C30_root_exact_partial (E : Env) (t : Ty) (v : t.Val) (hl : Legal t) (hb : Bounded t)
    (hv : Proper t v) (hm : InMemory t v) :
    (t.impl E).hashTreeRoot v = .ok ((rawTree t v).root E.sha256) :=
  raw_htr E t v hl hb hv hm

/-- C30 and C28: two values have the same root exactly if they are equal and their `Bitlist`s have
the same unused bits, unless the computation of the two roots exhibits a collision. -/
theorem C30_root_iff_partial (E : Env) (t : Ty) (v w : t.Val) (hl : Legal t) (hb : Bounded t)
    (hv : Proper t v) (hw : Proper t w) (hmv : InMemory t v) (hmw : InMemory t w) :
    ((t.impl E).hashTreeRoot v = (t.impl E).hashTreeRoot w ↔ tidy t v = tidy t w) ∨
      Collide E.sha256 (rawTree t v) (rawTree t w) := by
  rw [raw_htr E t v hl hb hv hmv, raw_htr E t w hl hb hw hmw, Res.ok.injEq]
  by_cases h : (rawTree t v).root E.sha256 = (rawTree t w).root E.sha256
  · rcases raw_bind E.sha256 t v w hl (bounded_ranged t hb).1 hv hw hmv hmw h with e | c
    · exact .inl ⟨fun _ => e, fun _ => h⟩
    · exact .inr c
  · refine .inl ⟨fun h' => absurd h' h, fun e => absurd ?_ h⟩
    rw [← rawTree_tidy t v, ← rawTree_tidy t w, e]

/-- A struct with a `Bitvector<11>` and a list of `Bitlist<12>`s. -/
def stale : Ty :=
  .container (.cons "a" (.bitvector 11) (.cons "b" (.list (.bitlist 12) 4) .nil))

/-- Its unused bits are set where they are not looked at in the first list, and where they are
written in the second. -/
def staleVal : stale.Val :=
  ((⟨List.replicate 11 true, List.replicate 5 true⟩ : Bits),
    ([⟨List.replicate 10 true, [true, false, false, false, false, false]⟩,
      ⟨List.replicate 9 true, [true, true, false, false, false, false, false]⟩] : List Bits), ())

/-- The same with clear unused bits. -/
def freshVal : stale.Val :=
  ((⟨List.replicate 11 true, List.replicate 5 false⟩ : Bits),
    ([⟨List.replicate 10 true, List.replicate 6 false⟩,
      ⟨List.replicate 9 true, List.replicate 7 false⟩] : List Bits), ())

theorem stale_legal : Legal stale :=
  ⟨by decide, by decide, show 0 < 11 by decide, trivial, trivial⟩

theorem stale_proper (v : Bits) (l : List Bits) (h1 : v.live.length = 11) (h2 : l.length ≤ 4)
    (h3 : ∀ b ∈ l, b.live.length ≤ 12 ∧ b.dead.length = (padBits b.live.length).length) :
    Proper stale (v, l, ()) :=
  ⟨h1, ⟨h2, h3⟩, trivial⟩

theorem stale_held (v : Bits) (l : List Bits) (h1 : v.live.length < 2 ^ 64)
    (h2 : l.length < 2 ^ 58) (h3 : ∀ b ∈ l, b.live.length < 2 ^ 64) : InMemory stale (v, l, ()) :=
  ⟨h1, ⟨⟨h2, (nomatch ·)⟩, h3⟩, trivial⟩

/-- The hypotheses of the theorems hold for these values. They are equal, but differ
in unused bits that are written and in unused bits that are hashed. -/
example : Legal stale ∧ Fits stale ∧ Bounded stale ∧ Proper stale staleVal ∧
    Proper stale freshVal ∧ (enc stale staleVal).length < 2 ^ 32 ∧ NoEmptyVarList stale staleVal ∧
    InMemory stale staleVal ∧ InMemory stale freshVal ∧ norm stale staleVal = norm stale freshVal ∧
    trim stale staleVal ≠ trim stale freshVal ∧ tidy stale staleVal ≠ tidy stale freshVal := by
  refine ⟨stale_legal,
    ⟨⟨show (11 : Nat) < 2 ^ 64 by decide, show (12 : Nat) + 8 < 2 ^ 64 by decide, trivial⟩,
      by decide⟩,
    ⟨⟨show (11 : Nat) < 2 ^ 64 by decide, ⟨show (12 : Nat) < 2 ^ 64 by decide, (nomatch ·),
      show (4 : Nat) ≤ 2 ^ 63 by decide⟩, trivial⟩, by decide⟩,
    stale_proper _ _ rfl (by decide) (by decide), stale_proper _ _ rfl (by decide) (by decide),
    by decide +kernel, ⟨trivial, ⟨fun _ => List.cons_ne_nil _ _, fun _ _ => trivial⟩, trivial⟩,
    stale_held _ _ (by decide) (by decide) (by decide),
    stale_held _ _ (by decide) (by decide) (by decide),
    rfl, ?_, ?_⟩
  · intro h
    exact absurd (List.cons.inj (List.cons.inj (Prod.mk.inj (Prod.mk.inj h).2).1).2).1
      (show ¬ ((⟨_, _⟩ : Bits) = ⟨_, _⟩) by decide)
  · intro h
    exact absurd (List.cons.inj (Prod.mk.inj (Prod.mk.inj h).2).1).1
      (show ¬ ((⟨_, _⟩ : Bits) = ⟨_, _⟩) by decide)

end Ssz
