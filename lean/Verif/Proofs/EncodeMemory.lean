import Verif.Model.EncodeMemory
import Verif.Spec.EncodeMemory
import Verif.Proofs.EncodeCost

/-!
# What encoding holds in memory: proofs
-/

namespace Ssz

open Spec BufP

namespace BufP

variable {α β : Type}

theorem bind_snd {x : BufP α} {f : α → BufP β} {y : BufM SerError α} {g : α → BufM SerError β}
    (hx : ∀ cap buf, (x cap buf).2 = y buf) (hf : ∀ a cap buf, (f a cap buf).2 = g a buf) (cap : Nat)
    (buf : Bytes) : ((x >>= f) cap buf).2 = (y >>= g) buf := by
  show (BufP.bind x f cap buf).2 = BufM.bind y g buf
  unfold BufP.bind BufM.bind
  rw [← hx cap buf]
  rcases x cap buf with ⟨k, buf', r⟩
  cases r with
  | ok a => exact hf a cap buf'
  | err e => rfl
  | panic => rfl

/-- What holds of both steps holds of them together. -/
theorem bind_le {x : BufP α} {f : α → BufP β} {cap : Nat} {buf : Bytes} {n : Nat}
    (h1 : (x cap buf).1 ≤ n)
    (h2 : ∀ a, (x cap buf).2.2 = .ok a → (f a cap (x cap buf).2.1).1 ≤ n) :
    ((x >>= f) cap buf).1 ≤ n := by
  show (BufP.bind x f cap buf).1 ≤ _
  unfold BufP.bind
  rcases hx : x cap buf with ⟨k, buf', r⟩
  rw [hx] at h1 h2
  cases r with
  | ok a => exact Nat.max_le.2 ⟨h1, h2 a rfl⟩
  | err e => exact h1
  | panic => exact h1

/-- What the first step holds is held by both together. -/
theorem le_bind (x : BufP α) (f : α → BufP β) (cap : Nat) (buf : Bytes) :
    (x cap buf).1 ≤ ((x >>= f) cap buf).1 := by
  show _ ≤ (BufP.bind x f cap buf).1
  unfold BufP.bind
  rcases x cap buf with ⟨k, buf', r⟩
  cases r with
  | ok a => exact Nat.le_max_left _ _
  | err e => exact Nat.le_refl _
  | panic => exact Nat.le_refl _

end BufP

/-! ## The number changes nothing -/

theorem writePartsP_snd (E : Env) : ∀ (parts : List Part) (caps : List Nat) (running cap : Nat)
    (buf : Bytes), (writePartsP E running parts caps cap buf).2 = writeParts E running parts buf
  | [], _, _, _, _ => rfl
  | .fixed data :: rest, caps, running, cap, buf => by
    rw [writePartsP, writeParts]
    refine bind_snd ?_ ?_ cap buf
    · exact fun _ _ => rfl
    · exact fun _ cap buf => writePartsP_snd E rest caps.tail running cap buf
  | .offset n :: rest, caps, running, cap, buf => by
    rw [writePartsP, writeParts]
    refine bind_snd ?_ ?_ cap buf
    · exact fun _ _ => rfl
    intro _ cap buf
    refine bind_snd ?_ ?_ cap buf
    · exact fun _ _ => rfl
    intro _ cap buf
    refine bind_snd ?_ ?_ cap buf
    · exact fun _ _ => rfl
    · exact fun r cap buf => writePartsP_snd E rest caps.tail r cap buf

theorem serializerP_snd (E : Env) (w : Nat) (s : SerializerP) (cap : Nat) (buf : Bytes) :
    (s.serialize E w cap buf).2 = s.plain.serialize E buf := by
  unfold SerializerP.serialize Serializer.serialize
  split
  · rfl
  · refine bind_snd ?_ ?_ cap buf
    · exact fun cap buf => writePartsP_snd E _ _ _ cap buf
    intro _ cap buf
    refine bind_snd ?_ ?_ cap buf
    · exact fun _ _ => rfl
    · exact fun _ _ _ => rfl

theorem withElementP_snd {α : Type} {w : Nat} {T : Serializable α} {ser : α → BufP Nat} {x : α}
    (h : ∀ cap buf, (ser x cap buf).2 = T.serialize x buf) (s : SerializerP) :
    (s.withElement w T ser x).2.map SerializerP.plain = s.plain.withElement T x := by
  unfold SerializerP.withElement Serializer.withElement
  cases hh : (T.sizeHint.lift : Res SerError Nat) with
  | err e => rfl
  | panic => rfl
  | ok c =>
    simp only [Res.ok_bind]
    cases withCapacity (ε := SerError) c with
    | err e => rfl
    | panic => rfl
    | ok u =>
      simp only [Res.ok_bind]
      rw [← h c []]
      rcases ser x c [] with ⟨k, b, r⟩
      cases r with
      | err e => rfl
      | panic => rfl
      | ok n => dsimp only; split <;> rfl

theorem withElementsP_snd {α : Type} {w : Nat} {T : Serializable α} {ser : α → BufP Nat} :
    ∀ (xs : List α) (_ : ∀ x ∈ xs, ∀ cap buf, (ser x cap buf).2 = T.serialize x buf) (s : SerializerP),
    (s.withElements w T ser xs).2.map SerializerP.plain = s.plain.withElements T xs
  | [], _, _ => rfl
  | x :: xs, h, s => by
    have h1 := withElementP_snd (w := w) (h x (by simp)) s
    rw [SerializerP.withElements, Serializer.withElements, ← h1]
    rcases s.withElement w T ser x with ⟨k, r⟩
    cases r with
    | err e => rfl
    | panic => rfl
    | ok s' => exact withElementsP_snd xs (fun y hy => h y (by simp [hy])) s'

theorem selectorP_snd {α : Type} {T : Serializable α} {x : α} {c : BufP Nat}
    (h : ∀ cap buf, (c cap buf).2 = T.serialize x buf) (i cap : Nat) (buf : Bytes) :
    (serializeWithSelectorP i c cap buf).2 = serializeWithSelector T i x buf := by
  unfold serializeWithSelectorP serializeWithSelector
  refine bind_snd ?_ ?_ cap buf
  · exact fun _ _ => rfl
  intro _ cap buf
  refine bind_snd ?_ ?_ cap buf
  · exact h
  · exact fun _ _ _ => rfl

theorem finishP_snd (E : Env) (w : Nat) {x : Nat × Res SerError SerializerP} {y : Res SerError Serializer}
    (h : x.2.map SerializerP.plain = y) (cap : Nat) (buf : Bytes) :
    ((ofPeak x >>= fun s => s.serialize E w) cap buf).2 =
      (BufM.ofRes y >>= fun s => s.serialize E) buf := by
  subst h
  rcases x with ⟨k, r⟩
  cases r with
  | ok s => exact serializerP_snd E w s cap buf
  | err e => rfl
  | panic => rfl

mutual

theorem serP_snd (E : Env) (w : Nat) : ∀ (t : Ty) (v : t.Val) (cap : Nat) (buf : Bytes),
    (t.serP E w v cap buf).2 = (t.impl E).serialize v buf
  | .uint _, _, _, _ => rfl
  | .u256, _, _, _ => rfl
  | .bool, _, _, _ => rfl
  | .node, _, _, _ => rfl
  | .array t n, v, cap, buf => by
    rw [Ty.serP]
    show _ = (Serializable.array E (t.impl E).toSerializable n).serialize v buf
    simp only [Serializable.array]
    split
    · rfl
    · exact finishP_snd E w (withElementsP_snd v.1 (fun x _ => serP_snd E w t x) {}) cap buf
  | .vector t n, v, cap, buf => by
    rw [Ty.serP]
    show _ = (Serializable.vector E (t.impl E).toSerializable n).serialize v buf
    simp only [Serializable.vector]
    split
    · rfl
    · exact finishP_snd E w (withElementsP_snd (show List t.Val from v)
        (fun x _ => serP_snd E w t x) {}) cap buf
  | .list t n, v, cap, buf => by
    rw [Ty.serP]
    show _ = (Serializable.list E (t.impl E).toSerializable n).serialize v buf
    simp only [Serializable.list]
    split
    · rfl
    · exact finishP_snd E w (withElementsP_snd (show List t.Val from v)
        (fun x _ => serP_snd E w t x) {}) cap buf
  | .bitvector _, _, _, _ => rfl
  | .bitlist _, _, _, _ => rfl
  | .option t, v, cap, buf => by
    match v with
    | none => rfl
    | some x => exact selectorP_snd (T := (t.impl E).toSerializable) (serP_snd E w t x) 1 cap buf
  | .newtype t, v, cap, buf => serP_snd E w t v cap buf
  | .container fs, v, cap, buf => finishP_snd E w (fieldsP_snd E w fs v {}) cap buf
  | .union vs, v, cap, buf => serVP_snd E w vs 0 v cap buf

theorem fieldsP_snd (E : Env) (w : Nat) : ∀ (fs : Fields) (v : fs.Val) (s : SerializerP),
    (fs.withElementsP E w v s).2.map SerializerP.plain = (fs.impls E).withElements v s.plain
  | .nil, _, _ => rfl
  | .cons _ t rest, v, s => by
    have h1 := withElementP_snd (w := w) (T := (t.impl E).toSerializable) (ser := fun x => t.serP E w x)
      (x := v.1) (serP_snd E w t v.1) s
    show _ = (s.plain.withElement (t.impl E).toSerializable v.1 >>= fun s' =>
      (rest.impls E).withElements v.2 s')
    rw [Fields.withElementsP, ← h1]
    rcases s.withElement w (t.impl E).toSerializable (fun x => t.serP E w x) v.1 with ⟨k, r⟩
    cases r with
    | err e => rfl
    | panic => rfl
    | ok s' => exact fieldsP_snd E w rest v.2 s'

theorem serVP_snd (E : Env) (w : Nat) : ∀ (vs : Variants) (i : Nat) (v : vs.Val) (cap : Nat)
    (buf : Bytes), (vs.serP E w i v cap buf).2 = (vs.impls E).serialize i v buf
  | .nil, _, v, _, _ => Empty.elim v
  | .unit _, _, .inl _, _, _ => rfl
  | .unit rest, i, .inr v, cap, buf => serVP_snd E w rest (i + 1) v cap buf
  | .data t _, i, .inl v, cap, buf =>
    selectorP_snd (T := (t.impl E).toSerializable) (serP_snd E w t v) i cap buf
  | .data _ rest, i, .inr v, cap, buf => serVP_snd E w rest (i + 1) v cap buf

end

theorem serializeP_snd (E : Env) (w : Nat) (t : Ty) (v : t.Val) :
    (t.serializeP E w v).2 = serialize (t.impl E).toSerializable v := by
  have h := serP_snd E w t v 0 []
  unfold Ty.serializeP serialize
  rw [← h]
  rcases t.serP E w v 0 [] with ⟨k, b, r⟩
  cases r <;> rfl

/-! ## At most -/

/-- The bytes that a part becomes. -/
def Part.size : Part → Nat
  | .fixed data => data.length
  | .offset _ => 4

/-- The bytes that `serialize` will write. -/
def SerializerP.out (s : SerializerP) : Nat :=
  (s.plain.parts.map Part.size).sum + s.plain.variablePart.length

theorem writePartsP_le (E : Env) : ∀ (parts : List Part) (caps : List Nat) (running cap : Nat)
    (buf : Bytes), (writePartsP E running parts caps cap buf).1 ≤
      caps.sum + max cap (buf.length + (parts.map Part.size).sum)
  | [], caps, _, cap, buf => by
    show max cap buf.length ≤ _
    exact Nat.le_add_left _ _
  | .fixed data :: rest, caps, running, cap, buf => by
    have ht : caps.tail.sum ≤ caps.sum := by cases caps <;> simp
    rw [writePartsP, List.map_cons, List.sum_cons, Part.size]
    refine bind_le ?_ fun _ _ => ?_
    · show caps.sum + max cap (buf ++ data).length ≤ _
      rw [List.length_append]
      omega
    · have h := writePartsP_le E rest caps.tail running cap (buf ++ data)
      rw [List.length_append] at h
      show (writePartsP E running rest caps.tail cap (buf ++ data)).1 ≤ _
      omega
  | .offset n :: rest, caps, running, cap, buf => by
    have ht : caps.tail.sum ≤ caps.sum := by cases caps <;> simp
    have hu : (Serializable.uint .u32).serialize (BitVec.ofNat 32 running) buf =
      (buf ++ leBytes 4 (BitVec.ofNat 32 running).toNat, .ok 4) := uint_serialize .u32 _ buf
    have hlen : (buf ++ leBytes 4 (BitVec.ofNat 32 running).toNat).length = buf.length + 4 := by simp
    rw [writePartsP, List.map_cons, List.sum_cons, Part.size]
    refine bind_le ?_ fun w _ => ?_
    · show caps.sum + max cap ((Serializable.uint .u32).serialize (BitVec.ofNat 32 running) buf).1.length ≤ _
      rw [hu, hlen]
      omega
    · show ((free _ >>= fun _ => free _ >>= fun running' => writePartsP E running' rest caps.tail) cap
        ((Serializable.uint .u32).serialize (BitVec.ofNat 32 running) buf).1).1 ≤ _
      rw [hu]
      refine bind_le ?_ fun _ _ => bind_le ?_ fun r _ => ?_
      · show max cap (buf ++ leBytes 4 (BitVec.ofNat 32 running).toNat).length ≤ _
        rw [hlen]
        omega
      · show max cap (buf ++ leBytes 4 (BitVec.ofNat 32 running).toNat).length ≤ _
        rw [hlen]
        omega
      · have h := writePartsP_le E rest caps.tail r cap (buf ++ leBytes 4 (BitVec.ofNat 32 running).toNat)
        rw [hlen] at h
        exact Nat.le_trans h (by omega)

theorem writePartsP_buf (E : Env) (parts : List Part) (running : Nat) (buf : Bytes) (u : Unit)
    (h : (writeParts E running parts buf).2 = .ok u) :
    (writeParts E running parts buf).1.length = buf.length + (parts.map Part.size).sum := by
  induction parts generalizing running buf with
  | nil => rfl
  | cons p rest ih =>
    cases p with
    | fixed data =>
      have e : writeParts E running (.fixed data :: rest) buf = writeParts E running rest (buf ++ data) := rfl
      rw [e] at h ⊢
      rw [ih _ _ h, List.length_append, List.map_cons, List.sum_cons, Part.size]
      omega
    | offset n =>
      have e : writeParts E running (.offset n :: rest) buf =
        (BufM.ofRes (E.debugAssert (4 == 4)).lift >>= fun _ =>
          BufM.ofRes (E.add32 running (n % u32Mod)).lift >>= fun r => writeParts E r rest)
          (buf ++ leBytes 4 (BitVec.ofNat 32 running).toNat) := by
        rw [writeParts]
        show BufM.bind _ _ _ = _
        unfold BufM.bind
        rw [uint_serialize .u32 _ buf]
        rfl
      have e2 : writeParts E running (.offset n :: rest) buf =
        (BufM.ofRes (E.add32 running (n % u32Mod)).lift >>= fun r => writeParts E r rest)
          (buf ++ leBytes 4 (BitVec.ofNat 32 running).toNat) := by
        rw [e]
        cases hd : E.debug <;> simp [Env.debugAssert, hd]
      rw [e2] at h ⊢
      cases hr : E.add32 running (n % u32Mod) with
      | ok r =>
        rw [hr] at h
        show (writeParts E r rest _).1.length = _
        rw [ih r _ h, List.length_append, leBytes_length, List.map_cons, List.sum_cons, Part.size]
        omega
      | err e => exact e.elim
      | panic =>
        rw [hr] at h
        exact absurd h (by intro h; cases h)

theorem serializerP_le (E : Env) (w : Nat) (s : SerializerP) (cap : Nat) (buf : Bytes) :
    (s.serialize E w cap buf).1 ≤ s.held w + max cap (buf.length + s.out) := by
  unfold SerializerP.serialize
  split
  · show s.held w + max cap buf.length ≤ _
    omega
  · refine bind_le ?_ fun u hu => ?_
    · have h := writePartsP_le E s.plain.parts s.caps (s.plain.fixedLengthsSum % u32Mod) cap buf
      show w * s.plain.parts.length + s.plain.variablePart.length + (writePartsP E _ _ _ cap buf).1 ≤ _
      unfold SerializerP.held SerializerP.out
      omega
    · have hb := writePartsP_snd E s.plain.parts s.caps (s.plain.fixedLengthsSum % u32Mod) cap buf
      change (writePartsP E _ _ _ cap buf).2.2 = _ at hu
      show (((holding _ _) >>= fun _ => free _) cap (writePartsP E _ _ _ cap buf).2.1).1 ≤ _
      rw [hb] at hu ⊢
      have hl := writePartsP_buf E s.plain.parts _ buf u hu
      refine bind_le ?_ fun _ _ => ?_
      · show s.plain.variablePart.length + max cap (List.length (_ ++ s.plain.variablePart)) ≤ _
        rw [List.length_append, hl]
        unfold SerializerP.held SerializerP.out
        omega
      · show max cap (List.length (_ ++ s.plain.variablePart)) ≤ _
        rw [List.length_append, hl]
        unfold SerializerP.held SerializerP.out
        omega

/-- What holds of a serializer after `k` parts that take `n` bytes of the encoding, `y` of them behind
offsets. -/
def SerializerP.Within (w : Nat) (s : SerializerP) (n k y : Nat) : Prop :=
  s.held w ≤ (w + 1) * n ∧ s.out = n ∧ s.plain.parts.length = k ∧ s.plain.variablePart.length = y

/-- Not more than `n`, and afterwards the serializer is `Within`. -/
def WithinP (w n m k y : Nat) (x : Nat × Res SerError SerializerP) : Prop :=
  x.1 ≤ n ∧ ∀ s, x.2 = .ok s → s.Within w m k y

theorem withElementP_within {α : Type} {w d n k y : Nat} {T : Serializable α} {ser : α → BufP Nat} {x : α}
    {b : Bytes} {P : Prop} {hint : Nat} (hs : T.sizeHint = .ok hint) (hc : hint < isizeMax1)
    (hh : hint ≤ b.length) (hpos : 1 ≤ pieceSize (T.isVariableSize, b))
    (h : ∀ cap buf, (ser x cap buf).2 = T.serialize x buf) (ht : SerTotal T x b.length P)
    (hx : ∀ cap buf, (ser x cap buf).1 ≤ max cap (buf.length + b.length) + (w + 1 + d) * b.length)
    (s : SerializerP) (hw : s.Within w n k y) :
    WithinP w ((w + 2 + d) * (n + pieceSize (T.isVariableSize, b)))
      (n + pieceSize (T.isVariableSize, b)) (k + 1) (y + offsetBytes (T.isVariableSize, b))
      (s.withElement w T ser x) := by
  have hk := hx hint []
  have h0 := h hint []
  obtain ⟨w1, w2, w3, w4⟩ := hw
  obtain ⟨q, hq⟩ : ∃ q, pieceSize (T.isVariableSize, b) = q := ⟨_, rfl⟩
  have hq1 : b.length ≤ q := by
    rw [← hq]
    unfold pieceSize
    split <;> dsimp only <;> omega
  rw [hq] at hpos ⊢
  have e1 : (w + 2 + d) * (n + q) = (w + 1) * n + ((1 + d) * n + (w + 2 + d) * q) := by ring
  have e2 : (w + 2 + d) * b.length = (w + 1 + d) * b.length + b.length := by ring
  have e3 : (w + 2 + d) * q = w * q + q + q + d * q := by ring
  have e5 : (w + 1) * (n + q) = (w + 1) * n + (w * q + q) := by ring
  have l1 : (w + 2 + d) * b.length ≤ (w + 2 + d) * q := Nat.mul_le_mul_left _ hq1
  have l2 : w ≤ w * q := Nat.le_mul_of_pos_right _ hpos
  have hm : max hint b.length = b.length := by omega
  unfold SerializerP.withElement
  simp only [hs, Res.lift_ok, withCapacity_ok hc]
  rcases hser : ser x hint [] with ⟨j, b', r⟩
  rw [hser] at h0 hk
  dsimp only at h0 hk
  rw [List.length_nil, Nat.zero_add, hm] at hk
  rcases ht with ⟨_, bytes, m, hl, ht⟩ | ⟨_, e, junk, ht⟩
  · rw [ht []] at h0
    simp only [Prod.mk.injEq] at h0
    obtain ⟨rfl, rfl⟩ := h0
    dsimp only
    have hm' : max hint b'.length = b.length := by rw [hl]; exact hm
    cases hv : T.isVariableSize with
    | true =>
      rw [hv] at hq
      have hp : q = 4 + b.length := hq.symm
      rw [if_pos rfl, hm']
      have hheld : SerializerP.held w
          { plain := { parts := s.plain.parts ++ [.offset b'.length]
                       variablePart := s.plain.variablePart ++ b'
                       fixedLengthsSum := s.plain.fixedLengthsSum + 4
                       variableLengthsSum := s.plain.variableLengthsSum + b'.length }
            caps := s.caps ++ [0] } = s.held w + w + b.length := by
        unfold SerializerP.held
        simp only [List.length_append, List.length_cons, List.length_nil, List.sum_append, List.sum_cons,
          List.sum_nil, Nat.mul_add, hl]
        omega
      refine ⟨?_, fun s' hs' => ?_⟩
      · show max (s.held w + j) (SerializerP.held w _ + b.length) ≤ _
        rw [hheld]
        omega
      · cases hs'
        refine ⟨?_, ?_, ?_, ?_⟩
        · rw [hheld]
          omega
        · rw [← w2]
          unfold SerializerP.out
          simp only [List.map_append, List.map_cons, List.map_nil, List.sum_append, List.sum_cons,
            List.sum_nil, List.length_append, Part.size, hl, hp]
          omega
        · rw [List.length_append, w3]
          rfl
        · rw [List.length_append, w4, hl]
          rfl
    | false =>
      rw [hv] at hq
      have hp : q = b.length := hq.symm
      rw [if_neg (by decide), hm']
      have hheld : SerializerP.held w
          { plain := { s.plain with
                       parts := s.plain.parts ++ [.fixed b']
                       fixedLengthsSum := s.plain.fixedLengthsSum + b'.length }
            caps := s.caps ++ [b.length] } = s.held w + w + b.length := by
        unfold SerializerP.held
        simp only [List.length_append, List.length_cons, List.length_nil, List.sum_append, List.sum_cons,
          List.sum_nil, Nat.mul_add]
        omega
      refine ⟨?_, fun s' hs' => ?_⟩
      · show max (s.held w + j) (SerializerP.held w _) ≤ _
        rw [hheld]
        omega
      · cases hs'
        refine ⟨?_, ?_, ?_, ?_⟩
        · rw [hheld]
          omega
        · rw [← w2]
          unfold SerializerP.out
          simp only [List.map_append, List.map_cons, List.map_nil, List.sum_append, List.sum_cons,
            List.sum_nil, Part.size, hl, hp]
          omega
        · rw [List.length_append, w3]
          rfl
        · exact w4
  · rw [ht []] at h0
    simp only [Prod.mk.injEq] at h0
    obtain ⟨rfl, rfl⟩ := h0
    refine ⟨?_, fun s' hs' => by cases hs'⟩
    show s.held w + j ≤ _
    omega

theorem piece_pos {t : Ty} {v : t.Val} (hl : Legal t) (hv : Valid t v) :
    1 ≤ pieceSize (isVar t, enc t v) := by
  cases h : isVar t with
  | true =>
    show 1 ≤ 4 + _
    omega
  | false =>
    show 1 ≤ (enc t v).length
    rw [enc_length t v h hv]
    exact fixedLen_pos t hl h

theorem hint_le {t : Ty} {v : t.Val} (hv : Valid t v) : fixedLen t ≤ (enc t v).length := by
  cases h : isVar t with
  | true =>
    rw [fixedLen_of_isVar t h]
    exact Nat.zero_le _
  | false => exact Nat.le_of_eq (enc_length t v h hv).symm

/-- The bound for a call of `serialize`. -/
def SerWithin (w d : Nat) (c : BufP Nat) (b : Bytes) : Prop :=
  ∀ cap buf, (c cap buf).1 ≤ max cap (buf.length + b.length) + (w + 1 + d) * b.length

theorem SerWithin.mono {w d d' : Nat} {c : BufP Nat} {b : Bytes} (h : SerWithin w d c b) (hd : d ≤ d') :
    SerWithin w d' c b := fun cap buf =>
  Nat.le_trans (h cap buf) (Nat.add_le_add_left (Nat.mul_le_mul_right _ (by omega)) _)

theorem appends_within {w d : Nat} {x : BufM SerError Nat} {b : Bytes}
    (h : ∀ buf, (x buf).1.length ≤ buf.length + b.length) : SerWithin w d (appends x) b := fun cap buf => by
  have := h buf
  show max cap (x buf).1.length ≤ _
  omega

theorem elementP_within (E : Env) {w d n k y : Nat} {t : Ty} {v : t.Val} (hl : Legal t) (hf : Fits t)
    (hv : Valid t v) (hd : SerWithin w d (t.serP E w v) (enc t v)) (s : SerializerP)
    (hw : s.Within w n k y) : WithinP w ((w + 2 + d) * (n + pieceSize (isVar t, enc t v)))
      (n + pieceSize (isVar t, enc t v)) (k + 1) (y + offsetBytes (isVar t, enc t v))
      (s.withElement w (t.impl E).toSerializable (fun x => t.serP E w x) v) := by
  have hp := piece_pos hl hv
  rw [← impl_isVar E t] at hp ⊢
  exact withElementP_within (impl_sizeHint E t hf) (fixedLen_lt t hf) (hint_le hv) hp (serP_snd E w t v)
    (impl_total E t v hl hf (stored_of_valid t v hv)) hd s hw

theorem elementsP_within (E : Env) {w d : Nat} {t : Ty} (hl : Legal t) (hf : Fits t) :
    ∀ (xs : List t.Val) (_ : ∀ x ∈ xs, Valid t x)
    (_ : ∀ x ∈ xs, SerWithin w d (t.serP E w x) (enc t x)) (s : SerializerP) (n k y : Nat)
    (_ : s.Within w n k y),
    WithinP w ((w + 2 + d) * (n + (assemble (xs.map fun x => (isVar t, enc t x))).length))
      (n + (assemble (xs.map fun x => (isVar t, enc t x))).length) (k + xs.length)
      (y + ((xs.map fun x => (isVar t, enc t x)).map offsetBytes).sum)
      (s.withElements w (t.impl E).toSerializable (fun x => t.serP E w x) xs)
  | [], _, _, s, n, k, y, hw => by
    refine ⟨Nat.le_trans hw.1 (Nat.mul_le_mul (by omega) (Nat.le_add_right _ _)), fun s' hs' => ?_⟩
    cases hs'
    exact hw
  | x :: xs, h1, h2, s, n, k, y, hw => by
    have hx := elementP_within E hl hf (h1 x (by simp)) (h2 x (by simp)) s hw
    have hle : (w + 2 + d) * (n + pieceSize (isVar t, enc t x)) ≤ (w + 2 + d) *
        (n + (assemble ((x :: xs).map fun x => (isVar t, enc t x))).length) := by
      refine Nat.mul_le_mul_left _ (Nat.add_le_add_left ?_ _)
      rw [← pieceSize_sum]
      exact Nat.le_add_right _ _
    rw [SerializerP.withElements]
    rcases hr : s.withElement w (t.impl E).toSerializable (fun x => t.serP E w x) x with ⟨j, r⟩
    rw [hr] at hx
    cases r with
    | ok s' =>
      have ih := elementsP_within E hl hf xs (fun y hy => h1 y (by simp [hy]))
        (fun y hy => h2 y (by simp [hy])) s' _ _ _ (hx.2 s' rfl)
      simp only [← pieceSize_sum, List.map_cons, List.sum_cons, List.length_cons] at ih hle ⊢
      rw [Nat.add_assoc n, Nat.add_assoc k, Nat.add_assoc y, Nat.add_comm 1] at ih
      exact ⟨Nat.max_le.2 ⟨Nat.le_trans hx.1 hle, ih.1⟩, ih.2⟩
    | err e => exact ⟨Nat.le_trans hx.1 hle, fun s' hs' => by cases hs'⟩
    | panic => exact ⟨Nat.le_trans hx.1 hle, fun s' hs' => by cases hs'⟩

theorem empty_within (w : Nat) : SerializerP.Within w {} 0 0 0 :=
  ⟨Nat.zero_le _, rfl, rfl, rfl⟩

theorem finishP_within (E : Env) {w d k y : Nat} {b : Bytes} {x : Nat × Res SerError SerializerP}
    (h : WithinP w ((w + 2 + d) * b.length) b.length k y x) :
    SerWithin w (1 + d) (ofPeak x >>= fun s => s.serialize E w) b := by
  intro cap buf
  have e : (w + 1 + (1 + d)) * b.length = (w + 2 + d) * b.length := by
    rw [show w + 1 + (1 + d) = w + 2 + d by omega]
  rw [e]
  refine bind_le ?_ fun s hs => ?_
  · show max cap buf.length + x.1 ≤ _
    have := h.1
    omega
  · obtain ⟨h1, h2, -⟩ := h.2 s hs
    have h3 := serializerP_le E w s cap buf
    have h4 : (w + 1) * b.length ≤ (w + 2 + d) * b.length := Nat.mul_le_mul_right _ (by omega)
    rw [h2] at h3
    show (s.serialize E w cap buf).1 ≤ _
    omega

theorem collectionP_within (E : Env) {w d : Nat} {t : Ty} (hl : Legal t) (hf : Fits t) (xs : List t.Val)
    (h1 : ∀ x ∈ xs, Valid t x) (h2 : ∀ x ∈ xs, SerWithin w d (t.serP E w x) (enc t x)) :
    SerWithin w (1 + d) (ofPeak (SerializerP.withElements w (t.impl E).toSerializable
      (fun x => t.serP E w x) {} xs) >>= fun s => s.serialize E w)
      (assemble (xs.map fun x => (isVar t, enc t x))) := by
  have h := elementsP_within E hl hf xs h1 h2 {} 0 0 0 (empty_within w)
  rw [Nat.zero_add] at h
  exact finishP_within E h

theorem selectorP_within (E : Env) {w d : Nat} {t : Ty} {v : t.Val} (hl : Legal t) (hf : Fits t)
    (hv : Valid t v) (h : SerWithin w d (t.serP E w v) (enc t v)) (i : Nat) {b : Bytes}
    (hb : b.length = (enc t v).length + 1) : SerWithin w d (serializeWithSelectorP i (t.serP E w v)) b := by
  intro cap buf
  have hu : (Serializable.uint .u8).serialize (BitVec.ofNat 8 i) buf =
    (buf ++ leBytes 1 (BitVec.ofNat 8 i).toNat, .ok 1) := uint_serialize .u8 _ buf
  have hlen : (buf ++ leBytes 1 (BitVec.ofNat 8 i).toNat).length = buf.length + 1 := by simp
  have hm : (w + 1 + d) * (enc t v).length ≤ (w + 1 + d) * b.length := Nat.mul_le_mul_left _ (by omega)
  refine bind_le ?_ fun _ _ => ?_
  · show max cap ((Serializable.uint .u8).serialize (BitVec.ofNat 8 i) buf).1.length ≤ _
    rw [hu, hlen]
    omega
  · show ((t.serP E w v >>= fun _ => free _) cap
      ((Serializable.uint .u8).serialize (BitVec.ofNat 8 i) buf).1).1 ≤ _
    rw [hu]
    have h1 := h cap (buf ++ leBytes 1 (BitVec.ofNat 8 i).toNat)
    rw [hlen] at h1
    refine bind_le (Nat.le_trans h1 (by omega)) fun a ha => ?_
    rw [serP_snd] at ha ⊢
    show max cap (List.length _) ≤ _
    rcases impl_total E t v hl hf (stored_of_valid t v hv) with ⟨_, bytes, m, hb2, ht⟩ | ⟨_, e, junk, ht⟩
    · rw [ht, List.length_append, hlen, hb2]
      omega
    · rw [ht] at ha
      cases ha

mutual

theorem serP_within (E : Env) (w : Nat) : ∀ (t : Ty) (v : t.Val), Legal t → Fits t → Valid t v →
    SerWithin w (nesting t) (t.serP E w v) (enc t v)
  | .uint u, v, _, _, _ => appends_within fun buf => by
    show (((Serializable.uint u).serialize v buf).1).length ≤ _
    rw [uint_serialize u v buf, List.length_append]
    exact Nat.le_refl _
  | .u256, v, _, _, _ => appends_within fun buf => by
    show (buf ++ toLeBytes _ _).length ≤ _
    simp [toLeBytes, enc]
  | .bool, v, _, _, _ => appends_within fun buf => Nat.le_of_eq List.length_append
  | .node, v, _, _, _ => appends_within fun buf => Nat.le_of_eq List.length_append
  | .array t n, v, hl, hf, hv => by
    have h := collectionP_within E hl.2 hf.1 v.1 hv
      fun x hx => serP_within E w t x hl.2 hf.1 (hv x hx)
    rw [Ty.serP, if_neg (Nat.pos_iff_ne_zero.1 hl.1)]
    exact h
  | .vector t n, v, hl, hf, hv => by
    have h := collectionP_within E hl.2 hf.1 (show List t.Val from v) hv.2
      fun x hx => serP_within E w t x hl.2 hf.1 (hv.2 x hx)
    rw [Ty.serP, if_neg (Nat.pos_iff_ne_zero.1 hl.1)]
    exact h
  | .list t n, v, hl, hf, hv => by
    have h := collectionP_within (t := t) E hl hf (show List t.Val from v) hv.2
      fun x hx => serP_within E w t x hl hf (hv.2 x hx)
    rw [Ty.serP, if_neg (Nat.not_lt.2 hv.1)]
    exact h
  | .bitvector n, v, hl, hf, hv => by
    refine appends_within fun buf => ?_
    rcases impl_total E (.bitvector n) v hl hf (stored_of_valid _ v hv) with ⟨_, b, k, hb, h⟩ | ⟨hn, _⟩
    · have h2 : Bitvector.serialize n v buf = (buf ++ b, .ok k) := h buf
      rw [h2, List.length_append, hb]
    · exact absurd ⟨trivial, trivial⟩ hn
  | .bitlist n, v, hl, hf, hv => by
    refine appends_within fun buf => ?_
    rcases bitlist_total n v (stored_of_valid (.bitlist n) v hv) with ⟨_, b, k, hb, h⟩ | ⟨_, e, h⟩
    · rw [h, List.length_append, hb]
      exact Nat.le_refl _
    · rw [h]
      exact Nat.le_add_right _ _
  | .option t, v, hl, hf, hv => by
    match v with
    | none =>
      refine appends_within (b := [0]) fun buf => ?_
      have hu := uint_serialize .u8 (0 : BitVec 8) buf
      rw [hu, List.length_append]
      exact Nat.le_refl _
    | some x => exact selectorP_within (t := t) E hl hf (hv x rfl) (serP_within E w t x hl hf (hv x rfl)) 1 rfl
  | .newtype t, v, hl, hf, hv => serP_within E w t v hl hf hv
  | .container fs, v, hl, hf, hv => by
    have h := fieldsP_within E w fs v hl.2.2 hf.1 hv (nestingF fs) (Nat.le_refl _) {} 0 0 0 (empty_within w)
    rw [Nat.zero_add] at h
    exact finishP_within E h
  | .union vs, v, hl, hf, hv => serVP_within E w vs 0 v hl.2 hf hv

theorem fieldsP_within (E : Env) (w : Nat) : ∀ (fs : Fields) (v : fs.Val), LegalF fs → FitsF fs →
    ValidF fs v → ∀ d, nestingF fs ≤ d → ∀ (s : SerializerP) (n k y : Nat), s.Within w n k y →
    WithinP w ((w + 2 + d) * (n + (assemble (piecesF fs v)).length))
      (n + (assemble (piecesF fs v)).length) (k + (piecesF fs v).length)
      (y + ((piecesF fs v).map offsetBytes).sum) (fs.withElementsP E w v s)
  | .nil, _, _, _, _, d, _, s, n, k, y, hw => by
    refine ⟨Nat.le_trans hw.1 (Nat.mul_le_mul (by omega) (Nat.le_add_right _ _)), fun s' hs' => ?_⟩
    cases hs'
    exact hw
  | .cons nm t rest, v, hl, hf, hv, d, hd, s, n, k, y, hw => by
    rw [nestingF] at hd
    have hx := elementP_within E hl.1 hf.1 hv.1
      ((serP_within E w t v.1 hl.1 hf.1 hv.1).mono (d' := d) (by omega)) s hw
    have hle : (w + 2 + d) * (n + pieceSize (isVar t, enc t v.1)) ≤ (w + 2 + d) *
        (n + (assemble (piecesF (.cons nm t rest) v)).length) := by
      refine Nat.mul_le_mul_left _ (Nat.add_le_add_left ?_ _)
      rw [← pieceSize_sum]
      exact Nat.le_add_right _ _
    rw [Fields.withElementsP]
    rcases hr : s.withElement w (t.impl E).toSerializable (fun x => t.serP E w x) v.1 with ⟨j, r⟩
    rw [hr] at hx
    cases r with
    | ok s' =>
      have ih := fieldsP_within E w rest v.2 hl.2 hf.2 hv.2 d (by omega) s' _ _ _ (hx.2 s' rfl)
      simp only [← pieceSize_sum, piecesF, List.map_cons, List.sum_cons, List.length_cons] at ih hle ⊢
      rw [Nat.add_assoc n, Nat.add_assoc k, Nat.add_assoc y, Nat.add_comm 1] at ih
      exact ⟨Nat.max_le.2 ⟨Nat.le_trans hx.1 hle, ih.1⟩, ih.2⟩
    | err e => exact ⟨Nat.le_trans hx.1 hle, fun s' hs' => by cases hs'⟩
    | panic => exact ⟨Nat.le_trans hx.1 hle, fun s' hs' => by cases hs'⟩

theorem serVP_within (E : Env) (w : Nat) : ∀ (vs : Variants) (i : Nat) (v : vs.Val), LegalV vs →
    FitsV vs → ValidV vs v → SerWithin w (nestingV vs) (vs.serP E w i v) (encV vs i v)
  | .nil, _, v, _, _, _ => Empty.elim v
  | .unit rest, i, .inl _, _, _, _ => by
    refine appends_within fun buf => ?_
    have hu := uint_serialize .u8 (0 : BitVec 8) buf
    rw [hu, List.length_append]
    exact Nat.le_refl _
  | .unit rest, i, .inr v, hl, hf, hv => serVP_within E w rest (i + 1) v hl hf hv
  | .data t rest, i, .inl v, hl, hf, hv =>
    (selectorP_within E hl.1 hf.1 hv (serP_within E w t v hl.1 hf.1 hv) i rfl).mono (Nat.le_max_left _ _)
  | .data t rest, i, .inr v, hl, hf, hv =>
    (serVP_within E w rest (i + 1) v hl.2 hf.2 hv).mono (Nat.le_max_right _ _)

end

/-! ## At least -/

theorem BufP.bind_ge {α β : Type} {x : BufP α} {f : α → BufP β} {cap : Nat} {buf : Bytes} {a : α}
    (h : (x cap buf).2.2 = .ok a) : (f a cap (x cap buf).2.1).1 ≤ ((x >>= f) cap buf).1 := by
  show _ ≤ (BufP.bind x f cap buf).1
  unfold BufP.bind
  rcases hx : x cap buf with ⟨k, buf', r⟩
  rw [hx] at h
  cases h
  exact Nat.le_max_right _ _

/-- The buffer at the end is held. -/
theorem writePartsP_ge (E : Env) : ∀ (parts : List Part) (caps : List Nat) (running cap : Nat)
    (buf : Bytes) (u : Unit), (writePartsP E running parts caps cap buf).2.2 = .ok u →
    max cap (writePartsP E running parts caps cap buf).2.1.length ≤
      (writePartsP E running parts caps cap buf).1
  | [], _, _, _, _, _, _ => Nat.le_refl _
  | .fixed data :: rest, caps, running, cap, buf, u, h => by
    rw [writePartsP] at h ⊢
    exact Nat.le_trans (writePartsP_ge E rest caps.tail running cap (buf ++ data) u h)
      (BufP.bind_ge (x := holding caps.sum (write data))
        (f := fun _ => writePartsP E running rest caps.tail) (cap := cap) (buf := buf) (a := ()) rfl)
  | .offset n :: rest, caps, running, cap, buf, u, h => by
    have key : ∀ {α β : Type} (x : BufP α) (f : α → BufP β) (cap : Nat) (buf : Bytes) (b : β),
        ((x >>= f) cap buf).2.2 = .ok b → ∃ a, (x cap buf).2.2 = .ok a ∧
          ((x >>= f) cap buf).2 = (f a cap (x cap buf).2.1).2 := by
      intro α β x f cap buf b hb
      change (BufP.bind x f cap buf).2.2 = _ at hb
      show ∃ a, _ ∧ (BufP.bind x f cap buf).2 = _
      unfold BufP.bind at hb ⊢
      rcases hx : x cap buf with ⟨k, buf', r⟩
      rw [hx] at hb
      cases r with
      | ok a => exact ⟨a, rfl, rfl⟩
      | err e => cases hb
      | panic => cases hb
    rw [writePartsP] at h ⊢
    obtain ⟨a, ha, h1⟩ := key _ _ _ _ _ h
    rw [h1] at h ⊢
    refine Nat.le_trans ?_ (BufP.bind_ge ha)
    obtain ⟨a2, ha2, h2⟩ := key _ _ _ _ _ h
    rw [h2] at h ⊢
    refine Nat.le_trans ?_ (BufP.bind_ge ha2)
    obtain ⟨a3, ha3, h3⟩ := key _ _ _ _ _ h
    rw [h3] at h ⊢
    refine Nat.le_trans ?_ (BufP.bind_ge ha3)
    exact writePartsP_ge E rest caps.tail a3 cap _ u h

theorem serializerP_ge (E : Env) (w : Nat) (s : SerializerP) (cap : Nat) (buf : Bytes) (r : Nat)
    (h : (s.serialize E w cap buf).2.2 = .ok r) :
    w * s.plain.parts.length + (buf.length + s.out) ≤ (s.serialize E w cap buf).1 ∧
    s.plain.variablePart.length + (buf.length + s.out) ≤ (s.serialize E w cap buf).1 := by
  by_cases hm : s.plain.fixedLengthsSum + s.plain.variableLengthsSum ≥ maximumLength
  · unfold SerializerP.serialize at h
    rw [if_pos hm] at h
    cases h
  · have e : s.serialize E w = (holding (w * s.plain.parts.length + s.plain.variablePart.length)
        (writePartsP E (s.plain.fixedLengthsSum % u32Mod) s.plain.parts s.caps) >>= fun _ =>
        holding s.plain.variablePart.length (write s.plain.variablePart) >>= fun _ =>
        free (.ok (s.plain.fixedLengthsSum + s.plain.variableLengthsSum))) := by
      unfold SerializerP.serialize
      rw [if_neg hm]
    rw [e] at h ⊢
    have hb := writePartsP_snd E s.plain.parts s.caps (s.plain.fixedLengthsSum % u32Mod) cap buf
    have hg := writePartsP_ge E s.plain.parts s.caps (s.plain.fixedLengthsSum % u32Mod) cap buf
    have hl := writePartsP_buf E s.plain.parts (s.plain.fixedLengthsSum % u32Mod) buf
    rw [← hb] at hl
    rcases hx : writePartsP E (s.plain.fixedLengthsSum % u32Mod) s.plain.parts s.caps cap buf with
      ⟨k, buf', q⟩
    have hx' : holding (w * s.plain.parts.length + s.plain.variablePart.length)
        (writePartsP E (s.plain.fixedLengthsSum % u32Mod) s.plain.parts s.caps) cap buf =
        (w * s.plain.parts.length + s.plain.variablePart.length + k, buf', q) := by
      unfold holding
      rw [hx]
    cases q with
    | ok u =>
      rw [hx] at hg hl
      have hg := hg u rfl
      have hl := hl u rfl
      dsimp only at hg hl
      have h1 := BufP.le_bind (holding (w * s.plain.parts.length + s.plain.variablePart.length)
        (writePartsP E (s.plain.fixedLengthsSum % u32Mod) s.plain.parts s.caps)) (fun _ =>
        holding s.plain.variablePart.length (write s.plain.variablePart) >>= fun _ =>
        free (.ok (s.plain.fixedLengthsSum + s.plain.variableLengthsSum))) cap buf
      have h2 := BufP.bind_ge (x := holding (w * s.plain.parts.length + s.plain.variablePart.length)
        (writePartsP E (s.plain.fixedLengthsSum % u32Mod) s.plain.parts s.caps)) (f := fun _ =>
        holding s.plain.variablePart.length (write s.plain.variablePart) >>= fun _ =>
        free (.ok (s.plain.fixedLengthsSum + s.plain.variableLengthsSum))) (cap := cap) (buf := buf)
        (a := u) (by rw [hx'])
      have h3 := BufP.le_bind (holding s.plain.variablePart.length (write s.plain.variablePart)) (fun _ =>
        free (.ok (s.plain.fixedLengthsSum + s.plain.variableLengthsSum))) cap buf'
      have h4 : (holding s.plain.variablePart.length (write s.plain.variablePart) cap buf').1 =
        s.plain.variablePart.length + max cap (buf'.length + s.plain.variablePart.length) := by
        show _ + max cap (buf' ++ s.plain.variablePart).length = _
        rw [List.length_append]
      rw [hx'] at h1 h2
      dsimp only at h1 h2
      rw [h4] at h3
      unfold SerializerP.out
      constructor <;> omega
    | err e2 =>
      change (BufP.bind _ _ cap buf).2.2 = _ at h
      unfold BufP.bind at h
      rw [hx'] at h
      cases h
    | panic =>
      change (BufP.bind _ _ cap buf).2.2 = _ at h
      unfold BufP.bind at h
      rw [hx'] at h
      cases h

/-- What a call that succeeds holds at least: an entry for each part or the bytes behind offsets, and the
buffer with what is written. -/
def SerAtLeast (w : Nat) (c : BufP Nat) (ps : List Piece) (b : Bytes) : Prop :=
  ∀ cap buf r, (c cap buf).2.2 = .ok r →
    w * ps.length + (buf.length + b.length) ≤ (c cap buf).1 ∧
    (ps.map offsetBytes).sum + (buf.length + b.length) ≤ (c cap buf).1

theorem appends_ge {w : Nat} {x : BufM SerError Nat} {b : Bytes}
    (h : ∀ buf r, (x buf).2 = .ok r → (x buf).1.length = buf.length + b.length) :
    SerAtLeast w (appends x) [] b := by
  intro cap buf r hr
  have := h buf r hr
  show w * 0 + _ ≤ max cap (x buf).1.length ∧ 0 + _ ≤ max cap (x buf).1.length
  omega

theorem finishP_ge (E : Env) {w n y : Nat} {ps : List Piece} {b : Bytes}
    {x : Nat × Res SerError SerializerP}
    (h : WithinP w n b.length ps.length y x) (hy : y = (ps.map offsetBytes).sum) :
    SerAtLeast w (ofPeak x >>= fun s => s.serialize E w) ps b := by
  intro cap buf r hr
  rcases x with ⟨k, q⟩
  cases q with
  | ok s =>
    obtain ⟨-, h2, h3, h4⟩ := h.2 s rfl
    obtain ⟨g1, g2⟩ := serializerP_ge E w s cap buf r hr
    have h5 := BufP.bind_ge (x := ofPeak (k, .ok s)) (f := fun s => s.serialize E w) (cap := cap) (buf := buf)
      (a := s) rfl
    change (s.serialize E w cap buf).1 ≤ _ at h5
    rw [h2] at g1 g2
    rw [h3] at g1
    rw [h4, hy] at g2
    exact ⟨Nat.le_trans g1 h5, Nat.le_trans g2 h5⟩
  | err e => cases hr
  | panic => cases hr

theorem collectionP_ge (E : Env) {w : Nat} {t : Ty} (hl : Legal t) (hf : Fits t) (xs : List t.Val)
    (h1 : ∀ x ∈ xs, Valid t x) :
    SerAtLeast w (ofPeak (SerializerP.withElements w (t.impl E).toSerializable
      (fun x => t.serP E w x) {} xs) >>= fun s => s.serialize E w)
      (xs.map fun x => (isVar t, enc t x)) (assemble (xs.map fun x => (isVar t, enc t x))) := by
  have h := elementsP_within E hl hf xs h1 (fun x hx => serP_within E w t x hl hf (h1 x hx)) {} 0 0 0
    (empty_within w)
  rw [Nat.zero_add, Nat.zero_add, Nat.zero_add] at h
  rw [← List.length_map (as := xs) (fun x => (isVar t, enc t x))] at h
  exact finishP_ge E h rfl

theorem selectorP_ge {w : Nat} {c : BufP Nat} {ps : List Piece} {b b' : Bytes}
    (h : SerAtLeast w c ps b) (i : Nat) (hb : b'.length = b.length + 1) :
    SerAtLeast w (serializeWithSelectorP i c) ps b' := by
  intro cap buf r hr
  have hu : (Serializable.uint .u8).serialize (BitVec.ofNat 8 i) buf =
    (buf ++ leBytes 1 (BitVec.ofNat 8 i).toNat, .ok 1) := uint_serialize .u8 _ buf
  have hlen : (buf ++ leBytes 1 (BitVec.ofNat 8 i).toNat).length = buf.length + 1 := by simp
  have hx : appends ((Serializable.uint .u8).serialize (BitVec.ofNat 8 i)) cap buf =
      (max cap (buf.length + 1), buf ++ leBytes 1 (BitVec.ofNat 8 i).toNat, .ok 1) := by
    show (max cap ((Serializable.uint .u8).serialize (BitVec.ofNat 8 i) buf).1.length,
      (Serializable.uint .u8).serialize (BitVec.ofNat 8 i) buf) = _
    rw [hu, hlen]
  have e1 := BufP.bind_ge (x := appends ((Serializable.uint .u8).serialize (BitVec.ofNat 8 i)))
    (f := fun n => c >>= fun m => free (.ok (n + m))) (cap := cap) (buf := buf) (a := 1) (by rw [hx])
  rw [hx] at e1
  have e2 := BufP.le_bind c (fun m => free (.ok (1 + m))) cap
    (buf ++ leBytes 1 (BitVec.ofNat 8 i).toNat)
  change (BufP.bind _ _ cap buf).2.2 = _ at hr
  unfold BufP.bind at hr
  rw [hx] at hr
  change (BufP.bind c _ cap (buf ++ leBytes 1 (BitVec.ofNat 8 i).toNat)).2.2 = _ at hr
  have h3 := h cap (buf ++ leBytes 1 (BitVec.ofNat 8 i).toNat)
  rw [hlen] at h3
  have hok : ∃ m, (c cap (buf ++ leBytes 1 (BitVec.ofNat 8 i).toNat)).2.2 = .ok m := by
    unfold BufP.bind at hr
    rcases hc : c cap (buf ++ leBytes 1 (BitVec.ofNat 8 i).toNat) with ⟨k, b2, q⟩
    rw [hc] at hr
    cases q with
    | ok m => exact ⟨m, rfl⟩
    | err e => cases hr
    | panic => cases hr
  obtain ⟨m, hm⟩ := hok
  obtain ⟨g1, g2⟩ := h3 m hm
  change _ ≤ (serializeWithSelectorP i c cap buf).1 at e1
  dsimp only at e1
  constructor <;> omega

mutual

theorem serP_ge (E : Env) (w : Nat) : ∀ (t : Ty) (v : t.Val), Legal t → Fits t → Valid t v →
    SerAtLeast w (t.serP E w v) (pieces t v) (enc t v)
  | .uint u, v, _, _, _ => appends_ge fun buf r _ => by
    show (((Serializable.uint u).serialize v buf).1).length = _
    rw [uint_serialize u v buf, List.length_append]
    rfl
  | .u256, v, _, _, _ => appends_ge fun buf r _ => by
    show (buf ++ toLeBytes _ _).length = _
    simp [toLeBytes, enc]
  | .bool, v, _, _, _ => appends_ge fun buf r _ => List.length_append
  | .node, v, _, _, _ => appends_ge fun buf r _ => List.length_append
  | .array t n, v, hl, hf, hv => by
    have h := collectionP_ge (w := w) E hl.2 hf.1 v.1 hv
    rw [Ty.serP, if_neg (Nat.pos_iff_ne_zero.1 hl.1)]
    exact h
  | .vector t n, v, hl, hf, hv => by
    have h := collectionP_ge (w := w) E hl.2 hf.1 (show List t.Val from v) hv.2
    rw [Ty.serP, if_neg (Nat.pos_iff_ne_zero.1 hl.1)]
    exact h
  | .list t n, v, hl, hf, hv => by
    have h := collectionP_ge (t := t) (w := w) E hl hf (show List t.Val from v) hv.2
    rw [Ty.serP, if_neg (Nat.not_lt.2 hv.1)]
    exact h
  | .bitvector n, v, hl, hf, hv => by
    refine appends_ge fun buf r _ => ?_
    rcases impl_total E (.bitvector n) v hl hf (stored_of_valid _ v hv) with ⟨_, b, k, hb, h⟩ | ⟨hn, _⟩
    · have h2 : Bitvector.serialize n v buf = (buf ++ b, .ok k) := h buf
      rw [h2, List.length_append, hb]
    · exact absurd ⟨trivial, trivial⟩ hn
  | .bitlist n, v, hl, hf, hv => by
    refine appends_ge fun buf r hr => ?_
    rcases bitlist_total n v (stored_of_valid (.bitlist n) v hv) with ⟨_, b, k, hb, h⟩ | ⟨_, e, h⟩
    · rw [h, List.length_append, hb]
      rfl
    · rw [h] at hr
      cases hr
  | .option t, v, hl, hf, hv => by
    match v with
    | none =>
      refine appends_ge (b := [0]) fun buf r _ => ?_
      have hu := uint_serialize .u8 (0 : BitVec 8) buf
      rw [hu, List.length_append]
      rfl
    | some x => exact selectorP_ge (serP_ge E w t x hl hf (hv x rfl)) 1 rfl
  | .newtype t, v, hl, hf, hv => serP_ge E w t v hl hf hv
  | .container fs, v, hl, hf, hv => by
    have h := fieldsP_within E w fs v hl.2.2 hf.1 hv (nestingF fs) (Nat.le_refl _) {} 0 0 0 (empty_within w)
    rw [Nat.zero_add, Nat.zero_add, Nat.zero_add] at h
    exact finishP_ge E h rfl
  | .union vs, v, hl, hf, hv => serVP_ge E w vs 0 v hl.2 hf hv

theorem serVP_ge (E : Env) (w : Nat) : ∀ (vs : Variants) (i : Nat) (v : vs.Val), LegalV vs →
    FitsV vs → ValidV vs v → SerAtLeast w (vs.serP E w i v) (piecesV vs v) (encV vs i v)
  | .nil, _, v, _, _, _ => Empty.elim v
  | .unit rest, i, .inl _, _, _, _ => by
    refine appends_ge fun buf r _ => ?_
    have hu := uint_serialize .u8 (0 : BitVec 8) buf
    rw [hu, List.length_append]
    rfl
  | .unit rest, i, .inr v, hl, hf, hv => serVP_ge E w rest (i + 1) v hl hf hv
  | .data t rest, i, .inl v, hl, hf, hv => selectorP_ge (serP_ge E w t v hl.1 hf.1 hv) i rfl
  | .data t rest, i, .inr v, hl, hf, hv => serVP_ge E w rest (i + 1) v hl.2 hf.2 hv

end

end Ssz
