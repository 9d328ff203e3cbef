import Verif.Proofs.Crash
import Verif.Props.Prove
import Verif.Props.Types

/-!
# Property C52: proofs for transparent enums

The payload types `ts` of the enum are given in declaration order.
-/

namespace Ssz

open Spec

/-- The variants of an enum with the given payload types. -/
def variantsOf : List Ty → Variants
  | [] => .nil
  | t :: ts => .data t (variantsOf ts)

/-- Their implementations. -/
def payloadImpls (E : Env) : (ts : List Ty) → PayloadImpls (variantsOf ts).Val
  | [] => .nil
  | t :: ts => .cons (t.impl E) (payloadImpls E ts)

/-- Type, value and position of the payload. -/
def payloadAt : (ts : List Ty) → Nat → (variantsOf ts).Val → (t : Ty) × t.Val × Nat
  | [], _, v => Empty.elim v
  | t :: _, i, .inl v => ⟨t, v, i⟩
  | _ :: ts, i, .inr v => payloadAt ts (i + 1) v

/-- The implementation of a transparent enum. -/
def transparentImpl (E : Env) (ts : List Ty) : SimpleSerialize (variantsOf ts).Val :=
  SimpleSerialize.transparent E (payloadImpls E ts)

theorem payloadImpls_variants (E : Env) : ∀ ts : List Ty,
    (payloadImpls E ts).variants = (variantsOf ts).impls E
  | [] => rfl
  | t :: ts => by
    have h := payloadImpls_variants E ts
    show VariantImpls.data (t.impl E) (payloadImpls E ts).variants = _
    rw [h]
    rfl

/-- The root of a transparent enum is the root of its payload. -/
theorem transparentImpl_root (E : Env) : ∀ (ts : List Ty) (i : Nat) (v : (variantsOf ts).Val),
    (transparentImpl E ts).hashTreeRoot v =
      ((payloadAt ts i v).1.impl E).hashTreeRoot (payloadAt ts i v).2.1
  | [], _, v => Empty.elim v
  | _ :: _, _, .inl _ => rfl
  | _ :: ts, i, .inr v => transparentImpl_root E ts (i + 1) v

/-- The tree the prover builds: the payload next to the position of its variant. -/
theorem treeByV_variantsOf : ∀ (ts : List Ty) (i : Nat) (v : (variantsOf ts).Val),
    treeByV packs (variantsOf ts) i v =
      .node (treeBy packs (payloadAt ts i v).1 (payloadAt ts i v).2.1) (numLeaf (payloadAt ts i v).2.2)
  | [], _, v => Empty.elim v
  | _ :: _, _, .inl _ => rfl
  | _ :: ts, i, .inr v => treeByV_variantsOf ts (i + 1) v

theorem payload_ok : ∀ (ts : List Ty) (i : Nat) (v : (variantsOf ts).Val),
    LegalV (variantsOf ts) → BoundedV (variantsOf ts) → ValidV (variantsOf ts) v →
    InMemoryV (variantsOf ts) v →
    Legal (payloadAt ts i v).1 ∧ Bounded (payloadAt ts i v).1 ∧
      Valid (payloadAt ts i v).1 (payloadAt ts i v).2.1 ∧
      InMemory (payloadAt ts i v).1 (payloadAt ts i v).2.1
  | [], _, v, _, _, _, _ => Empty.elim v
  | _ :: _, _, .inl _, hl, hb, hv, hm => ⟨hl.1, hb.1, hv, hm⟩
  | _ :: ts, i, .inr v, hl, hb, hv, hm => payload_ok ts (i + 1) v hl.2 hb.2 hv hm

/-- Generalized indices and proofs of a transparent enum are those of the same enum without the
attribute. -/
theorem C52_as_union_partial (E : Env) (ts : List Ty) (v : (variantsOf ts).Val)
    (path : List PathElement) :
    generalizedIndex (transparentImpl E ts) path =
      generalizedIndex ((Ty.union (variantsOf ts)).impl E) path ∧
    prove E (transparentImpl E ts) v path = prove E ((Ty.union (variantsOf ts)).impl E) v path := by
  have h := payloadImpls_variants E ts
  constructor
  · show (SimpleSerialize.union E (payloadImpls E ts).variants).computeGeneralizedIndex 1 path = _
    rw [h]
    rfl
  · show prove E (SimpleSerialize.union E (payloadImpls E ts).variants) v path = _
    rw [h]
    rfl

theorem pad32_leBytes (n : Nat) : (pad32 (leBytes 32 n)).1 = leBytes 32 n := by
  simp only [pad32]
  rw [List.take_append_of_le_length (by simp [leBytes_length]), List.take_of_length_le (by simp [leBytes_length])]

/-- C52, what the prover does instead: the witness hashes the root of the value with the position of
its variant. -/
theorem C52_witness_partial (E : Env) (ts : List Ty) (v : (variantsOf ts).Val)
    (path : List PathElement) (p : Proof) (w : Node) (hl : Legal (.union (variantsOf ts)))
    (hb : Bounded (.union (variantsOf ts))) (hs : Shallow (.union (variantsOf ts)))
    (hv : Valid (.union (variantsOf ts)) v)
    (hm : InMemory (.union (variantsOf ts)) v)
    (h : prove E (transparentImpl E ts) v path = .ok (p, w)) :
    ∃ r, (transparentImpl E ts).hashTreeRoot v = .ok r ∧
      w = E.sha256 (r.1 ++ leBytes 32 (payloadAt ts 0 v).2.2) := by
  rw [(C52_as_union_partial E ts v path).2] at h
  have h1 := C36_witness_partial E (.union (variantsOf ts)) v path p w hl hb hs trivial hv hm h
  rw [htr_ok E (.union (variantsOf ts)) v hl hb hv hm, Res.ok.injEq] at h1
  have h2 : (treeByV packs (variantsOf ts) 0 v).root E.sha256 = w := h1
  rw [treeByV_variantsOf] at h2
  obtain ⟨h3, h4, h5, h6⟩ := payload_ok ts 0 v hl.2 hb hv hm
  refine ⟨_, (transparentImpl_root E ts 0 v).trans (htr_ok E _ _ h3 h4 h5 h6), ?_⟩
  rw [← h2]
  show E.sha256 (_ ++ (pad32 (leBytes 32 _)).1) = _
  rw [pad32_leBytes]

/-- C52 fails for every transparent enum and every value of it: a witness that is the root gives a
fixed point of the hash function. -/
theorem C52_witness_never (E : Env) (ts : List Ty) (v : (variantsOf ts).Val)
    (path : List PathElement) (p : Proof) (w : Node) (hl : Legal (.union (variantsOf ts)))
    (hb : Bounded (.union (variantsOf ts))) (hs : Shallow (.union (variantsOf ts)))
    (hv : Valid (.union (variantsOf ts)) v)
    (hm : InMemory (.union (variantsOf ts)) v)
    (h : prove E (transparentImpl E ts) v path = .ok (p, w))
    (hw : (transparentImpl E ts).hashTreeRoot v = .ok w) :
    E.sha256 (w.1 ++ leBytes 32 (payloadAt ts 0 v).2.2) = w := by
  obtain ⟨r, h1, h2⟩ := C52_witness_partial E ts v path p w hl hb hs hv hm h
  rw [hw, Res.ok.injEq] at h1
  subst h1
  exact h2.symm

/-- C52 is false: a transparent enum with the variants `A(u8)` and `B(u16)`, the value `B(7)` and the
empty path, with the real hash function. -/
theorem C52_witness_refuted : ∃ (ts : List Ty) (v : (variantsOf ts).Val) (path : List PathElement),
    Legal (.union (variantsOf ts)) ∧ Bounded (.union (variantsOf ts)) ∧
    Shallow (.union (variantsOf ts)) ∧ Flat (.union (variantsOf ts)) ∧
    Valid (.union (variantsOf ts)) v ∧ InMemory (.union (variantsOf ts)) v ∧
    ∀ E : Env, E.sha256 = Sha256.sha256 → ∃ p w,
      prove E (transparentImpl E ts) v path = .ok (p, w) ∧
      (transparentImpl E ts).hashTreeRoot v ≠ .ok w := by
  have hl : Legal (.union (variantsOf [.uint .u8, .uint .u16])) := by
    simp [Legal, LegalV, variantsOf, unionShape, noUnitV, countV]
  have hb : Bounded (.union (variantsOf [.uint .u8, .uint .u16])) := ⟨trivial, trivial, trivial⟩
  have hs : Shallow (.union (variantsOf [.uint .u8, .uint .u16])) := ⟨trivial, trivial, trivial⟩
  have hf : Flat (.union (variantsOf [.uint .u8, .uint .u16])) := ⟨trivial, trivial, trivial⟩
  refine ⟨[.uint .u8, .uint .u16], .inr (.inl (7 : BitVec 16)), [], hl, hb, hs, hf, trivial, trivial,
    fun E hE => ?_⟩
  have h := prove_node E (t := .union (variantsOf [.uint .u8, .uint .u16]))
    (v := .inr (.inl (7 : BitVec 16))) (path := []) (g := 1) hl hb hs hf trivial trivial rfl (sub_one _)
  rw [← (C52_as_union_partial E [.uint .u8, .uint .u16] (.inr (.inl (7 : BitVec 16))) []).2] at h
  refine ⟨_, _, h, fun hw => ?_⟩
  have h2 := C52_witness_never E [.uint .u8, .uint .u16] (.inr (.inl (7 : BitVec 16))) [] _ _ hl hb hs
    trivial trivial h hw
  rw [hE] at h2
  revert h2
  decide +kernel

/-! ## C21, exactly -/

/-- `b` is not accepted for any value of type `t`, and does not make its decoder panic. -/
def Rejects (debug : Bool) (t : Ty) (b : Bytes) : Prop := (∀ v, ¬ Accepts t b v) ∧ ¬ Crashes debug t b

/-- `b` is accepted for the payload, and rejected by each variant declared later. -/
def AcceptsT (debug : Bool) (b : Bytes) : (ts : List Ty) → TVal ts → Prop
  | [], v => Empty.elim v
  | t :: ts, .inl v => Accepts t b v ∧ ∀ t' ∈ ts, Rejects debug t' b
  | _ :: ts, .inr v => AcceptsT debug b ts v

/-- Some variant panics on `b`, and each variant declared later rejects it. -/
def CrashesT (debug : Bool) (b : Bytes) : List Ty → Prop
  | [] => False
  | t :: ts => CrashesT debug b ts ∨ Crashes debug t b ∧ ∀ t' ∈ ts, Rejects debug t' b

theorem rejects_iff (E : Env) (t : Ty) (b : Bytes) (h : Legal t ∧ Fits t) (hb : b.length < 2 ^ 63) :
    Rejects E.debug t b ↔ ∃ e, (t.impl E).deserialize b = .err e := by
  constructor
  · rintro ⟨h1, h2⟩
    rcases hd : (t.impl E).deserialize b with v | e | _
    · exact absurd ((de_iff E t b v h.1 h.2 hb).1 hd) (h1 v)
    · exact ⟨e, rfl⟩
    · exact absurd ((panic_iff E t b h.1 h.2 hb).1 hd) h2
  · rintro ⟨e, he⟩
    refine ⟨fun v hv => ?_, fun hc => ?_⟩
    · rw [← de_iff E t b v h.1 h.2 hb, he] at hv
      exact nomatch hv
    · rw [← panic_iff E t b h.1 h.2 hb, he] at hc
      exact nomatch hc

theorem deserializeBody_cons {α β : Type} (T : Serializable α) (htr : α → Res MerkError Node)
    (rest : TransparentImpls β) (b : Bytes) :
    ((TransparentImpls.cons T htr rest).deserializeBody b = .panic ↔
      rest.deserializeBody b = .panic ∨
        (∃ e, rest.deserializeBody b = .err e) ∧ T.deserialize b = .panic) ∧
    ((∃ e, (TransparentImpls.cons T htr rest).deserializeBody b = .err e) ↔
      (∃ e, rest.deserializeBody b = .err e) ∧ ∃ e, T.deserialize b = .err e) ∧
    (∀ w, (TransparentImpls.cons T htr rest).deserializeBody b = .ok (.inr w) ↔
      rest.deserializeBody b = .ok w) ∧
    (∀ v, (TransparentImpls.cons T htr rest).deserializeBody b = .ok (.inl v) ↔
      (∃ e, rest.deserializeBody b = .err e) ∧ T.deserialize b = .ok v) := by
  simp only [TransparentImpls.deserializeBody]
  rcases rest.deserializeBody b with w | e | _ <;> rcases T.deserialize b with v | e' | _ <;> simp

theorem body_err_iff (E : Env) (b : Bytes) (hb : b.length < 2 ^ 63) : ∀ (ts : List Ty),
    (∀ t ∈ ts, Legal t ∧ Fits t) →
    ((∃ e, (transparentImpls E ts).deserializeBody b = .err e) ↔ ∀ t ∈ ts, Rejects E.debug t b)
  | [], _ => ⟨fun _ _ h => absurd h (by simp), fun _ => ⟨_, rfl⟩⟩
  | t :: ts, h => by
    have := (deserializeBody_cons (t.impl E).toSerializable (t.impl E).hashTreeRoot
      (transparentImpls E ts) b).2.1
    refine this.trans ?_
    rw [body_err_iff E b hb ts (fun t ht => h t (by simp [ht])),
      ← rejects_iff E t b (h t (by simp)) hb, List.forall_mem_cons, and_comm]

theorem body_ok_iff (E : Env) (b : Bytes) (hb : b.length < 2 ^ 63) : ∀ (ts : List Ty) (v : TVal ts),
    (∀ t ∈ ts, Legal t ∧ Fits t) →
    ((transparentImpls E ts).deserializeBody b = .ok v ↔ AcceptsT E.debug b ts v)
  | [], v, _ => Empty.elim v
  | t :: ts, .inl v, h => by
    refine ((deserializeBody_cons (t.impl E).toSerializable (t.impl E).hashTreeRoot
      (transparentImpls E ts) b).2.2.2 v).trans ?_
    rw [body_err_iff E b hb ts (fun t ht => h t (by simp [ht])), and_comm,
      de_iff E t b v (h t (by simp)).1 (h t (by simp)).2 hb]
    rfl
  | t :: ts, .inr v, h =>
    ((deserializeBody_cons (t.impl E).toSerializable (t.impl E).hashTreeRoot
      (transparentImpls E ts) b).2.2.1 v).trans
      (body_ok_iff E b hb ts v (fun t ht => h t (by simp [ht])))

theorem body_panic_iff (E : Env) (b : Bytes) (hb : b.length < 2 ^ 63) : ∀ (ts : List Ty),
    (∀ t ∈ ts, Legal t ∧ Fits t) →
    ((transparentImpls E ts).deserializeBody b = .panic ↔ CrashesT E.debug b ts)
  | [], _ => by simp [transparentImpls, TransparentImpls.deserializeBody, CrashesT]
  | t :: ts, h => by
    refine (deserializeBody_cons (t.impl E).toSerializable (t.impl E).hashTreeRoot
      (transparentImpls E ts) b).1.trans ?_
    rw [body_panic_iff E b hb ts (fun t ht => h t (by simp [ht])),
      body_err_iff E b hb ts (fun t ht => h t (by simp [ht])), and_comm,
      panic_iff E t b (h t (by simp)).1 (h t (by simp)).2 hb]
    rfl

/-- C21, which inputs decode to which value: those that are not empty, that the payload type accepts,
and that each variant declared later rejects. -/
theorem C21_decode_iff_partial (E : Env) (ts : List Ty) (v : TVal ts) (b : Bytes)
    (h : ∀ t ∈ ts, Legal t ∧ Fits t) (hb : b.length < 2 ^ 63) :
    deserialize (transparentImpls E ts).serializable b = .ok v ↔ b ≠ [] ∧ AcceptsT E.debug b ts v := by
  show (if b.isEmpty then _ else _) = _ ↔ _
  cases b with
  | nil => simp
  | cons x xs => simpa using body_ok_iff E (x :: xs) hb ts v h

/-- C21, which inputs make the decoder of a transparent enum panic: those that are not empty and make
that of a variant panic, while each variant declared later rejects them. -/
theorem C21_panic_iff_partial (E : Env) (ts : List Ty) (b : Bytes)
    (h : ∀ t ∈ ts, Legal t ∧ Fits t) (hb : b.length < 2 ^ 63) :
    deserialize (transparentImpls E ts).serializable b = .panic ↔ b ≠ [] ∧ CrashesT E.debug b ts := by
  show (if b.isEmpty then _ else _) = _ ↔ _
  cases b with
  | nil => simp
  | cons x xs => simpa using body_panic_iff E (x :: xs) hb ts h

/-- The variants declared after that of the value reject `b`. -/
def LaterRejects (debug : Bool) (b : Bytes) : (ts : List Ty) → TVal ts → Prop
  | [], v => Empty.elim v
  | _ :: ts, .inl _ => ∀ t ∈ ts, Rejects debug t b
  | _ :: ts, .inr v => LaterRejects debug b ts v

theorem acceptsT_enc (E : Env) : ∀ (ts : List Ty) (v : TVal ts), (∀ t ∈ ts, Legal t ∧ Fits t) →
    ValidT ts v → (encT ts v).length < 2 ^ 32 →
    (AcceptsT E.debug (encT ts v) ts (normT ts v) ↔ LaterRejects E.debug (encT ts v) ts v)
  | [], v, _, _, _ => Empty.elim v
  | t :: ts, .inl v, h, hv, hs => by
    have : Accepts t (enc t v) (norm t v) :=
      (de_iff E t _ _ (h t (by simp)).1 (h t (by simp)).2 (Nat.lt_trans hs (by decide))).1
        (de_enc E t v (h t (by simp)).1 (h t (by simp)).2 hv (small_of_length t v hs))
    exact ⟨fun hc => hc.2, fun hc => ⟨this, hc⟩⟩
  | t :: ts, .inr v, h, hv, hs => acceptsT_enc E ts v (fun t ht => h t (by simp [ht])) hv hs

/-- C21, round trip: it succeeds if and only if the encoding is not empty and each variant declared
later rejects it. -/
theorem C21_round_trip_iff_partial (E : Env) (ts : List Ty) (v : TVal ts)
    (h : ∀ t ∈ ts, Legal t ∧ Fits t) (hv : ValidT ts v) (hs : (encT ts v).length < 2 ^ 32) :
    (∃ b, serialize (transparentImpls E ts).serializable v = .ok b ∧
      deserialize (transparentImpls E ts).serializable b = .ok (normT ts v)) ↔
    encT ts v ≠ [] ∧ LaterRejects E.debug (encT ts v) ts v := by
  have hser : serialize (transparentImpls E ts).serializable v = .ok (encT ts v) := by
    show (match (transparentImpls E ts).serialize v [] with
      | (result, .ok _) => Res.ok result
      | (_, .err e) => .err e
      | (_, .panic) => .panic) = _
    rw [transparent_serialize E ts v [] h hv hs]
    rfl
  rw [← acceptsT_enc E ts v h hv hs, ← C21_decode_iff_partial E ts _ _ h (by omega), hser]
  constructor
  · rintro ⟨b, hb, hd⟩
    rw [Res.ok.inj hb]
    exact hd
  · exact fun hd => ⟨_, rfl, hd⟩

/-- `enum { A(u8), B(bool) }`: five is a `u8`, one is a `bool` even when it was written as a `u8`. -/
example (E : Env) :
    deserialize (transparentImpls E [.uint .u8, .bool]).serializable [5] =
      .ok (.inl (5 : BitVec 8)) ∧
    LaterRejects E.debug [5] [.uint .u8, .bool] (.inl (5 : BitVec 8)) ∧
    ¬ LaterRejects E.debug [1] [.uint .u8, .bool] (.inl (1 : BitVec 8)) := by
  have h : ∀ t ∈ [Ty.uint .u8, .bool], Legal t ∧ Fits t := by
    simp [Legal, Fits]
  have h5 : deserialize (transparentImpls E [.uint .u8, .bool]).serializable [5] =
      .ok (.inl (5 : BitVec 8)) := rfl
  refine ⟨h5, ((C21_decode_iff_partial E _ _ _ h (by decide)).1 h5).2.2, fun hc => ?_⟩
  exact (hc .bool (by simp)).1 true ((de_iff E .bool [1] true trivial trivial (by decide)).1 rfl)

end Ssz
