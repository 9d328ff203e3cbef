import Verif.Model.Memory
import Verif.Spec.Memory
import Verif.Proofs.DecodeCost
import Verif.Proofs.Serialize
import Verif.Proofs.Decode

/-!
# Memory reserved by decoding
-/

namespace Ssz

open Spec Timed

/-! ## The counter changes nothing -/

@[simp] theorem reserve_res (n size : Nat) : (reserve n size).2 = .ok () := rfl

theorem mapListM_res {α β : Type} {f : α → Timed β} {g : α → Res DeError β} (size : Nat)
    (h : ∀ x, (f x).2 = g x) (xs : List α) : (mapListM size f xs).2 = Res.mapList g xs := by
  induction xs with
  | nil => rfl
  | cons x xs ih =>
    simp only [mapListM, Res.mapList, bind_res, reserve_res, Res.ok_bind, free_res, h, ih]
    cases g x with
    | ok b => rw [Res.ok_bind]; cases Res.mapList g xs <;> rfl
    | err e => rfl
    | panic => rfl

theorem fixedM_res {α : Type} (E : Env) (T : Serializable α) (size : Nat) {f : Bytes → Timed α}
    (h : ∀ b, (f b).2 = T.deserialize b) (b : Bytes) :
    (deserializeFixedHomogeneousCompositeM E T size f b).2 =
      deserializeFixedHomogeneousComposite E T b := by
  unfold deserializeFixedHomogeneousCompositeM deserializeFixedHomogeneousComposite
  rw [bind_res, free_res]
  congr 1; funext hint
  split
  · rfl
  · simp only [bind_res, free_res, mapListM_res size h]

theorem spansM_res {α : Type} (T : Serializable α) {f : Bytes → Timed α}
    (h : ∀ b, (f b).2 = T.deserialize b) (b : Bytes) : ∀ offsets : List Nat,
    (deserializeSpansM f b offsets).2 = deserializeSpans T b offsets
  | [] => rfl
  | [_] => rfl
  | start :: stop :: rest => by
    rw [deserializeSpansM, deserializeSpans]
    split
    · rfl
    · simp only [bind_res, free_res, h, spansM_res T h b (stop :: rest)]

theorem variableM_res {α : Type} (T : Serializable α) (size : Nat) {f : Bytes → Timed α}
    (h : ∀ b, (f b).2 = T.deserialize b) (b : Bytes) :
    (deserializeVariableHomogeneousCompositeM size f b).2 =
      deserializeVariableHomogeneousComposite T b := by
  unfold deserializeVariableHomogeneousCompositeM deserializeVariableHomogeneousComposite
  split
  · rfl
  · cases getRange b 0 4 with
    | none => rfl
    | some word =>
      dsimp only
      rw [bind_res, free_res]
      congr 1; funext n
      split
      · rfl
      · split
        · rfl
        · simp only [bind_res, free_res, spansM_res T h b, reserve_res, Res.ok_bind,
            mapListM_res (f := fun b => free (deserializeU32 b)) (g := deserializeU32) 8 fun _ => rfl]

theorem homogeneousM_res {α : Type} (E : Env) (T : Serializable α) (size : Nat) {f : Bytes → Timed α}
    (h : ∀ b, (f b).2 = T.deserialize b) (b : Bytes) :
    (deserializeHomogeneousCompositeM E T size f b).2 = deserializeHomogeneousComposite E T b := by
  unfold deserializeHomogeneousCompositeM deserializeHomogeneousComposite
  split
  · exact variableM_res T size h b
  · exact fixedM_res E T size h b

mutual

theorem deM_res (E : Env) (mem : Ty → Nat) : ∀ (t : Ty) (b : Bytes),
    (t.deM E mem b).2 = (t.impl E).deserialize b
  | .uint _, _ => rfl
  | .u256, _ => rfl
  | .bool, _ => rfl
  | .node, _ => rfl
  | .array t n, b => by
    show _ = (Serializable.array E (t.impl E).toSerializable n).deserialize b
    simp only [Ty.deM, Serializable.array]
    split
    · rfl
    · simp only [bind_res, free_res, homogeneousM_res E _ _ (deM_res E mem t)]
      congr 1; funext _
      congr 1; funext xs
      split <;> rfl
  | .vector t n, b => by
    show _ = (Serializable.vector E (t.impl E).toSerializable n).deserialize b
    simp only [Ty.deM, Serializable.vector]
    split
    · rfl
    · simp only [bind_res, free_res, homogeneousM_res E _ _ (deM_res E mem t)]
      congr 1; funext _
      congr 1; funext xs
      rcases SszVector.tryFromVec n xs with v | ⟨_, _ | _ | _⟩ | _ <;> rfl
  | .list t n, b => by
    show _ = (Serializable.list E (t.impl E).toSerializable n).deserialize b
    simp only [Ty.deM, Serializable.list, bind_res, free_res,
      homogeneousM_res E _ _ (deM_res E mem t)]
    congr 1; funext _
    congr 1; funext xs
    split
    · rfl
    · rcases SszList.tryFromVec n xs with v | ⟨_, _ | _ | _⟩ | _ <;> rfl
  | .bitvector n, b => rfl
  | .bitlist n, b => rfl
  | .option t, b => by
    show _ = (Serializable.option (t.impl E).toSerializable).deserialize b
    simp only [Serializable.option]
    cases b with
    | nil => rfl
    | cons x rest =>
      simp only [Ty.deM]
      split
      · split <;> rfl
      · split
        · simp only [bind_res, free_res, deM_res E mem t rest]
          rfl
        · rfl
  | .newtype t, b => by
    show _ = (SimpleSerialize.newtype E (t.impl E)).deserialize b
    simp only [Ty.deM, SimpleSerialize.newtype, bind_res, free_res, deM_res E mem t b]
    rfl
  | .container fs, b => by
    show _ = (SimpleSerialize.container E (fs.impls E)).deserialize b
    simp only [Ty.deM, SimpleSerialize.container, bind_res, free_res, initM_res E mem fs b]
  | .union vs, b => by
    show _ = (SimpleSerialize.union E (vs.impls E)).deserialize b
    simp only [SimpleSerialize.union]
    cases b with
    | nil => rfl
    | cons x rest => exact deMV_res E mem vs x rest _ 0

theorem initM_res (E : Env) (mem : Ty → Nat) : ∀ (fs : Fields) (b : Bytes) (spans : List Nat) (i : Nat),
    (fs.initM E mem b spans i).2 = (fs.impls E).initFields b spans i
  | .nil, _, _, _ => rfl
  | .cons _ t rest, b, spans, i => by
    simp only [Fields.initM, Fields.impls, FieldImpls.initFields, bind_res, free_res,
      deM_res E mem t, initM_res E mem rest b spans]
    rfl

theorem deMV_res (E : Env) (mem : Ty → Nat) : ∀ (vs : Variants) (x : Byte) (rest b : Bytes) (i : Nat),
    (vs.deM E mem x rest b i).2 = (vs.impls E).deserialize x rest b i
  | .nil, _, _, _, _ => rfl
  | .unit vs, x, rest, b, i => by
    simp only [Variants.deM, Variants.impls, VariantImpls.deserialize]
    split
    · split <;> rfl
    · simp only [bind_res, free_res, deMV_res E mem vs x rest b (i + 1)]
      cases (vs.impls E).deserialize x rest b (i + 1) <;> rfl
  | .data t vs, x, rest, b, i => by
    simp only [Variants.deM, Variants.impls, VariantImpls.deserialize]
    split
    · simp only [bind_res, free_res, deM_res E mem t rest]
      cases (t.impl E).deserialize rest <;> rfl
    · simp only [bind_res, free_res, deMV_res E mem vs x rest b (i + 1)]
      cases (vs.impls E).deserialize x rest b (i + 1) <;> rfl

end

/-! ## Bounds -/

theorem mapListM_takes {α β : Type} (size : Nat) {f : α → Timed β} {n : Nat} (xs : List α)
    (h : ∀ x ∈ xs, 4 * (f x).1 ≤ n) : 4 * (mapListM size f xs).1 ≤ xs.length * (n + 4 * size) := by
  have key : Takes (mapListM size f xs) (xs.length * (n / 4 + size)) := by
    induction xs with
    | nil => exact takes_free _ _
    | cons x xs ih =>
      rw [mapListM, List.length_cons]
      have hx := h x (by simp)
      refine takes_mono (takes_bind (n := n / 4) (show (f x).1 ≤ n / 4 by omega) fun _ _ =>
        takes_step_bind (takes_bind (ih fun y hy => h y (by simp [hy])) fun _ _ => takes_free _ 0)) ?_
      rw [Nat.add_mul]
      omega
  have h1 : (mapListM size f xs).1 ≤ xs.length * (n / 4 + size) := key
  have h2 : xs.length * (4 * (n / 4 + size)) ≤ xs.length * (n + 4 * size) :=
    Nat.mul_le_mul_left _ (by omega)
  rw [Nat.mul_left_comm] at h2
  omega

theorem fixedM_takes {α : Type} (E : Env) (T : Serializable α) {size r m : Nat} {f : Bytes → Timed α}
    (hs : T.sizeHint = .ok m) (h : ∀ b, 4 * (f b).1 ≤ r * b.length) (b : Bytes) :
    4 * (deserializeFixedHomogeneousCompositeM E T size f b).1 ≤
      (4 * ((size + m - 1) / m) + r) * b.length := by
  suffices hk : Takes (deserializeFixedHomogeneousCompositeM E T size f b)
      ((4 * ((size + m - 1) / m) + r) * b.length / 4) by
    have hk : (deserializeFixedHomogeneousCompositeM E T size f b).1 ≤ _ := hk
    omega
  refine takes_free_bind fun n hn => ?_
  rw [hs] at hn
  cases hn
  split
  · exact takes_free _ _
  rename_i hm
  refine takes_free_bind fun _ _ => ?_
  obtain ⟨h1, h2⟩ := chunksExact_pieces (n := m) b
  have h3 := mapListM_takes size (f := f) (n := r * m) (chunksExact m b) fun c hc => by
    rw [← h2 c hc]; exact h c
  have h4 : size ≤ (size + m - 1) / m * m := by
    have := Nat.lt_div_mul_add (a := size + m - 1) (b := m) (by omega)
    omega
  have h5 : (chunksExact m b).length * (r * m + 4 * size) ≤
      (4 * ((size + m - 1) / m) + r) * b.length := by
    calc (chunksExact m b).length * (r * m + 4 * size)
        ≤ (chunksExact m b).length * (r * m + 4 * ((size + m - 1) / m * m)) :=
          Nat.mul_le_mul_left _ (by omega)
      _ = (4 * ((size + m - 1) / m) + r) * ((chunksExact m b).length * m) := by ring
      _ ≤ _ := Nat.mul_le_mul_left _ h1
  show (mapListM size f (chunksExact m b)).1 ≤ _
  omega

theorem spansM_takes {α : Type} {f : Bytes → Timed α} {r : Nat} (h : ∀ b, 4 * (f b).1 ≤ r * b.length)
    (b : Bytes) : ∀ (rest : List Nat) (start : Nat),
    4 * (deserializeSpansM f b (start :: rest)).1 ≤ r * (b.length - start)
  | [], _ => Nat.zero_le _
  | stop :: rest, start => by
    rw [deserializeSpansM]
    by_cases h1 : start > stop
    · rw [if_pos h1]
      exact Nat.zero_le _
    rw [if_neg h1]
    by_cases h2 : stop ≤ b.length
    · have ih := spansM_takes h b rest stop
      suffices hk : Takes (do
          let piece ← free (slice b start stop)
          let element ← f piece
          let elements ← deserializeSpansM f b (stop :: rest)
          free (.ok (element :: elements)))
          (r * (stop - start) / 4 + (r * (b.length - stop) / 4 + 0)) by
        have h4 : r * (b.length - start) = r * (stop - start) + r * (b.length - stop) := by
          rw [← Nat.mul_add]; congr 1; omega
        have hk := Nat.mul_le_mul_left 4 hk
        rw [h4]
        omega
      refine takes_free_bind fun piece hp => takes_bind (show (f piece).1 ≤ _ from ?_) fun _ _ =>
        takes_bind (show (deserializeSpansM f b (stop :: rest)).1 ≤ _ by omega) fun _ _ =>
        takes_free _ 0
      have hl : piece.length = stop - start := by
        unfold slice at hp
        rw [if_pos ⟨by omega, h2⟩] at hp
        cases hp
        rw [List.length_take, List.length_drop]
        omega
      have := h piece
      rw [hl] at this
      omega
    · suffices hk : Takes (do
          let piece ← free (slice b start stop)
          let element ← f piece
          let elements ← deserializeSpansM f b (stop :: rest)
          free (.ok (element :: elements))) 0 by
        have hk := Nat.mul_le_mul_left 4 hk
        omega
      refine takes_free_bind fun piece hp => ?_
      unfold slice at hp
      rw [if_neg (by omega)] at hp
      nomatch hp

theorem spansM_takes' {α : Type} {f : Bytes → Timed α} {r : Nat} (h : ∀ b, 4 * (f b).1 ≤ r * b.length)
    (b : Bytes) : ∀ offsets : List Nat, 4 * (deserializeSpansM f b offsets).1 ≤ r * b.length
  | [] => Nat.zero_le _
  | start :: rest => Nat.le_trans (spansM_takes h b rest start) (Nat.mul_le_mul_left _ (by omega))

theorem variableM_takes {α : Type} {f : Bytes → Timed α} {size r : Nat}
    (h : ∀ b, 4 * (f b).1 ≤ r * b.length) (b : Bytes) :
    4 * (deserializeVariableHomogeneousCompositeM size f b).1 ≤ (size + 16 + r) * b.length := by
  suffices hk : Takes (deserializeVariableHomogeneousCompositeM size f b)
      ((size + 16 + r) * b.length / 4) by
    have hk : (deserializeVariableHomogeneousCompositeM size f b).1 ≤ _ := hk
    omega
  unfold deserializeVariableHomogeneousCompositeM
  split
  · exact takes_free _ _
  cases hw : getRange b 0 4 with
  | none => exact takes_free _ _
  | some word =>
    have h4 : 4 ≤ b.length := by
      unfold getRange at hw
      split at hw
      · omega
      · nomatch hw
    dsimp only
    refine takes_free_bind fun n hn => ?_
    by_cases h2 : n > b.length
    · rw [if_pos h2]
      exact takes_free _ _
    rw [if_neg h2]
    split
    · exact takes_free _ _
    refine takes_free_bind fun head hh => ?_
    unfold slice at hh
    rw [if_pos ⟨by omega, by omega⟩] at hh
    cases hh
    obtain ⟨h3, -⟩ := chunksExact_pieces (n := 4) (((b.drop 0).take (n - 0)))
    simp only [Nat.sub_zero, List.drop_zero] at h3 ⊢
    rw [List.length_take] at h3
    have h5 := mapListM_takes 8 (f := fun b => free (deserializeU32 b)) (n := 0)
      (chunksExact 4 (b.take n)) fun _ _ => Nat.le_refl 0
    refine takes_mono (takes_bind (n := 2 * n) (show (mapListM 8 _ _).1 ≤ _ by omega) fun offsets _ =>
      takes_step_bind (takes_step_bind (n := r * b.length / 4)
        (show (deserializeSpansM f b _).1 ≤ _ from ?_))) ?_
    · have := spansM_takes' h b (offsets ++ [b.length])
      omega
    · have h6 : n / 4 * size * 4 ≤ size * b.length := by
        calc n / 4 * size * 4 = size * (n / 4 * 4) := by ring
          _ ≤ _ := Nat.mul_le_mul_left _ (by omega)
      rw [Nat.add_mul, Nat.add_mul]
      omega

theorem collectionM_takes (E : Env) (mem : Ty → Nat) (t : Ty) (hf : Fits t)
    (h : ∀ b, 4 * (t.deM E mem b).1 ≤ memRoom mem t * b.length) (b : Bytes) :
    4 * (deserializeHomogeneousCompositeM E (t.impl E).toSerializable (mem t)
      (fun b => t.deM E mem b) b).1 ≤ (memElement mem t + memRoom mem t) * b.length := by
  unfold deserializeHomogeneousCompositeM memElement
  rw [impl_isVar]
  cases isVar t with
  | true => exact variableM_takes h b
  | false => exact fixedM_takes E _ (impl_sizeHint E t hf) h b

theorem takesM_rest {α β : Type} {x : Timed α} {f : α → Timed β} {n : Nat} (hx : 4 * x.1 ≤ n)
    (hf : ∀ a, (f a).1 = 0) : 4 * (x >>= f).1 ≤ n := by
  have h := takes_bind (x := x) (f := f) (n := x.1) (m := 0) (Nat.le_refl _) fun a _ => by
    show (f a).1 ≤ 0
    rw [hf]
  have h : (x >>= f).1 ≤ x.1 + 0 := h
  omega

theorem takesM_first {α β : Type} {x : Res DeError α} {f : α → Timed β} {n : Nat}
    (hf : ∀ a, x = .ok a → 4 * (f a).1 ≤ n) : 4 * (free x >>= f).1 ≤ n := by
  have h : Takes (free x >>= f) (n / 4) := takes_free_bind fun a ha => by
    have := hf a ha
    show (f a).1 ≤ _
    omega
  have h : (free x >>= f).1 ≤ n / 4 := h
  omega

theorem sliceM_length_le {b piece : Bytes} {start stop : Nat}
    (hp : (slice b start stop : Res DeError Bytes) = .ok piece) : piece.length ≤ b.length := by
  unfold slice at hp
  split at hp
  · cases hp
    rw [List.length_take, List.length_drop]
    omega
  · nomatch hp

mutual

theorem deM_takes (E : Env) (mem : Ty → Nat) : ∀ (t : Ty), Fits t → ∀ b : Bytes,
    4 * (t.deM E mem b).1 ≤ memRoom mem t * b.length
  | .uint _, _, _ => Nat.zero_le _
  | .u256, _, _ => Nat.zero_le _
  | .bool, _, _ => Nat.zero_le _
  | .node, _, _ => Nat.zero_le _
  | .array t n, hf, b => by
    have h := collectionM_takes E mem t hf.1 (deM_takes E mem t hf.1) b
    rw [Ty.deM, memRoom]
    split
    · exact Nat.zero_le _
    · refine takesM_first fun _ _ => takesM_rest h fun xs => ?_
      split <;> rfl
  | .vector t n, hf, b => by
    have h := collectionM_takes E mem t hf.1 (deM_takes E mem t hf.1) b
    rw [Ty.deM, memRoom]
    split
    · exact Nat.zero_le _
    · refine takesM_first fun _ _ => takesM_rest h fun xs => ?_
      split <;> rfl
  | .list t n, hf, b => by
    have h := collectionM_takes E mem t hf (deM_takes E mem t hf) b
    rw [Ty.deM, memRoom]
    refine takesM_first fun _ _ => takesM_rest h fun xs => ?_
    split
    · rfl
    · split <;> rfl
  | .bitvector n, _, b => takesM_rest (by show 4 * (b.length * 1) ≤ 4 * b.length; omega) fun _ => rfl
  | .bitlist n, _, b => takesM_rest (by show 4 * (b.length * 1) ≤ 4 * b.length; omega) fun _ => rfl
  | .option t, hf, b => by
    rw [memRoom]
    cases b with
    | nil => exact Nat.zero_le _
    | cons x rest =>
      simp only [Ty.deM]
      split
      · split <;> exact Nat.zero_le _
      split
      · refine takesM_rest (Nat.le_trans (deM_takes E mem t hf rest) ?_) fun _ => rfl
        exact Nat.mul_le_mul_left _ (by rw [List.length_cons]; omega)
      · exact Nat.zero_le _
  | .newtype t, hf, b => by
    rw [Ty.deM, memRoom]
    exact takesM_rest (deM_takes E mem t hf b) fun _ => rfl
  | .container fs, hf, b => by
    rw [Ty.deM, memRoom]
    exact takesM_first fun _ _ => takesM_first fun spans _ => initM_takes E mem fs hf.1 b spans 0
  | .union vs, hf, b => by
    rw [memRoom]
    cases b with
    | nil => exact Nat.zero_le _
    | cons x rest =>
      refine Nat.le_trans (deMV_takes E mem vs hf x rest _ 0) ?_
      exact Nat.mul_le_mul_left _ (by rw [List.length_cons]; omega)

theorem initM_takes (E : Env) (mem : Ty → Nat) : ∀ (fs : Fields), FitsF fs →
    ∀ (b : Bytes) (spans : List Nat) (i : Nat), 4 * (fs.initM E mem b spans i).1 ≤
      memRoomF mem fs * b.length
  | .nil, _, _, _, _ => Nat.zero_le _
  | .cons _ t rest, hf, b, spans, i => by
    rw [Fields.initM, memRoomF]
    refine takesM_first fun start _ => takesM_first fun stop _ => takesM_first fun piece hp => ?_
    have h1 := deM_takes E mem t hf.1 piece
    have h2 := initM_takes E mem rest hf.2 b spans (i + 1)
    have h3 : memRoom mem t * piece.length ≤ memRoom mem t * b.length :=
      Nat.mul_le_mul_left _ (sliceM_length_le hp)
    rw [Nat.add_mul]
    refine Nat.le_trans (Nat.mul_le_mul_left 4 (m := (t.deM E mem piece).1 +
      ((rest.initM E mem b spans (i + 1)).1 + 0)) ?_) (by omega)
    exact takes_bind (Nat.le_refl _) fun _ _ => takes_bind (Nat.le_refl _) fun _ _ => takes_free _ 0

theorem deMV_takes (E : Env) (mem : Ty → Nat) : ∀ (vs : Variants), FitsV vs →
    ∀ (x : Byte) (rest b : Bytes) (i : Nat), 4 * (vs.deM E mem x rest b i).1 ≤
      memRoomV mem vs * rest.length
  | .nil, _, _, _, _, _ => Nat.zero_le _
  | .unit vs, hf, x, rest, b, i => by
    rw [Variants.deM, memRoomV]
    split
    · split <;> exact Nat.zero_le _
    · exact takesM_rest (deMV_takes E mem vs hf x rest b (i + 1)) fun _ => rfl
  | .data t vs, hf, x, rest, b, i => by
    rw [Variants.deM, memRoomV]
    split
    · exact takesM_rest (Nat.le_trans (deM_takes E mem t hf.1 rest)
        (Nat.mul_le_mul_right _ (Nat.le_max_left _ _))) fun _ => rfl
    · exact takesM_rest (Nat.le_trans (deMV_takes E mem vs hf.2 x rest b (i + 1))
        (Nat.mul_le_mul_right _ (Nat.le_max_right _ _))) fun _ => rfl

end

/-! ## What offsets make it reserve -/

theorem le_bindM {α β : Type} (x : Timed α) (f : α → Timed β) : x.1 ≤ (x >>= f).1 := by
  show x.1 ≤ (Timed.bind x f).1
  unfold Timed.bind
  split
  · exact Nat.le_add_right _ _
  · exact Nat.le_refl _
  · exact Nat.le_refl _

theorem bindM_of_ok {α β : Type} {x : Timed α} {a : α} (h : x.2 = .ok a) (f : α → Timed β) :
    (x >>= f) = (x.1 + (f a).1, (f a).2) := by
  show Timed.bind x f = _
  unfold Timed.bind
  rw [h]

theorem mapListM_free {α β : Type} (size : Nat) (f : α → Res DeError β) (g : α → β) (xs : List α)
    (h : ∀ x ∈ xs, f x = .ok (g x)) :
    mapListM size (fun x => free (f x)) xs = (xs.length * size, .ok (xs.map g)) := by
  induction xs with
  | nil => rw [List.length_nil, Nat.zero_mul]; rfl
  | cons x xs ih =>
    rw [mapListM, bindM_of_ok (h x (by simp)), bindM_of_ok (reserve_res 1 size),
      ih fun y hy => h y (by simp [hy])]
    refine Prod.ext ?_ rfl
    show 0 + (1 * size + (xs.length * size + 0)) = (xs.length + 1) * size
    rw [Nat.add_mul]
    omega

/-- The offsets, and the vector for as many elements: before the first element is looked at. -/
theorem variableM_reserve {α : Type} {f : Bytes → Timed α} {size : Nat} (b : Bytes) (o : Nat)
    (h4 : 4 ≤ b.length) (ho : fromLeBytes (b.take 4) = o) (hle : o ≤ b.length) (hm : o % 4 = 0) :
    deserializeVariableHomogeneousCompositeM size f b =
      (8 * (o / 4 + 1) + o / 4 * size + (deserializeSpansM f b
        ((chunksExact 4 (b.take o)).map fromLeBytes ++ [b.length])).1,
       (deserializeSpansM f b ((chunksExact 4 (b.take o)).map fromLeBytes ++ [b.length])).2) := by
  have hlen : (b.take o).length = o := by rw [List.length_take]; omega
  obtain ⟨-, hc⟩ := chunksExact_spec (s := 4) (by decide) (b.take o) (by omega)
  have hl := chunksExact_length (s := 4) (by decide) (b.take o) (by omega)
  have hg : getRange b 0 4 = some (b.take 4) := by
    unfold getRange
    rw [if_pos ⟨by omega, h4⟩]
    rfl
  have hs : (slice b 0 o : Res DeError Bytes) = .ok (b.take o) := by
    unfold slice
    rw [if_pos ⟨by omega, hle⟩]
    rfl
  have hu : deserializeU32 (b.take 4) = .ok o := by
    rw [deserializeU32_ok (by rw [List.length_take]; omega), ho]
  have hw := mapListM_free 8 deserializeU32 fromLeBytes (chunksExact 4 (b.take o)) fun c h =>
    deserializeU32_ok (hc c h)
  unfold deserializeVariableHomogeneousCompositeM
  rw [if_neg (by cases b <;> simp_all), hg]
  dsimp only
  rw [bindM_of_ok hu, if_neg (by omega), if_neg (by omega), bindM_of_ok hs,
    bindM_of_ok (congrArg Prod.snd hw), bindM_of_ok (reserve_res 1 8), bindM_of_ok (reserve_res _ size)]
  refine Prod.ext ?_ rfl
  show 0 + (0 + ((mapListM 8 (fun b => free (deserializeU32 b)) (chunksExact 4 (b.take o))).1 +
    (1 * 8 + (o / 4 * size + _)))) = _
  rw [hw]
  dsimp only
  omega

theorem listM_eq (E : Env) (mem : Ty → Nat) (t : Ty) (n : Nat) (b : Bytes) (hv : isVar t = true) :
    ∃ f : List t.Val → Timed (Ty.list t n).Val, (∀ xs, (f xs).1 = 0) ∧ (Ty.list t n).deM E mem b =
      deserializeVariableHomogeneousCompositeM (mem t) (fun b => t.deM E mem b) b >>= f := by
  have h1 : (t.impl E).isVariableSize = true := by rw [impl_isVar, hv]
  refine ⟨fun result => if result.length > n then free (.err (.invalidInstance (.bounded n result.length)))
    else
      match SszList.tryFromVec n result with
      | .ok v => free (.ok v)
      | .err (_, .instance e) => free (.err (.invalidInstance e))
      | .err _ => free .panic
      | .panic => free .panic, fun xs => ?_, ?_⟩
  · dsimp only
    split
    · rfl
    · split <;> rfl
  · have h2 : (free (checkListLength E (t.impl E).toSerializable b)).2 = .ok () := by
      rw [free_res, checkListLength, if_pos h1]
    rw [Ty.deM, bindM_of_ok h2]
    show (0 + _, _) = _
    rw [Nat.zero_add]
    unfold deserializeHomogeneousCompositeM
    rw [if_pos h1]
    rfl

/-- `k` offsets of which the first is right and the others are zero. -/
def backOffsets (k : Nat) : Bytes := leBytes 4 (4 * k) ++ List.replicate (4 * (k - 1)) 0

theorem listM_backOffsets (E : Env) (mem : Ty → Nat) (t : Ty) (n k : Nat) (hv : isVar t = true)
    (hk : 2 ≤ k) (hlt : 4 * k < 2 ^ 32) :
    (Ty.list t n).deM E mem (backOffsets k) =
      (8 * (k + 1) + k * mem t, .err (.offsetNotIncreasing (4 * k) 0)) := by
  obtain ⟨f, -, hf⟩ := listM_eq E mem t n (backOffsets k) hv
  have hw : (leBytes 4 (4 * k)).length = 4 := by simp
  have hlen : (backOffsets k).length = 4 * k := by
    rw [backOffsets, List.length_append, hw, List.length_replicate]
    omega
  have h0 : fromLeBytes (leBytes 4 (4 * k)) = 4 * k := by
    rw [fromLeBytes_leBytes]
    exact Nat.mod_eq_of_lt (by omega)
  have hc : chunksExact 4 (backOffsets k) = leBytes 4 (4 * k) :: [0, 0, 0, 0] ::
      List.replicate (k - 2) [0, 0, 0, 0] := by
    have he : backOffsets k = (leBytes 4 (4 * k) :: [0, 0, 0, 0] ::
        List.replicate (k - 2) ([0, 0, 0, 0] : Bytes)).flatten := by
      rw [backOffsets, List.flatten_cons]
      congr 1
      obtain ⟨j, rfl⟩ : ∃ j, k = j + 2 := ⟨k - 2, by omega⟩
      show _ = (List.replicate (j + 1) ([0, 0, 0, 0] : Bytes)).flatten
      rw [show ([0, 0, 0, 0] : Bytes) = List.replicate 4 0 from rfl,
        List.flatten_replicate_replicate]
      congr 1
      omega
    rw [he]
    refine chunksExact_flatten (by decide) _ fun p hp => ?_
    rcases List.mem_cons.mp hp with rfl | hp
    · exact hw
    rcases List.mem_cons.mp hp with rfl | hp
    · rfl
    · rw [List.eq_of_mem_replicate hp]
      rfl
  have h1 := variableM_reserve (f := fun b => t.deM E mem b) (size := mem t) (backOffsets k) (4 * k)
    (by omega) (by rw [backOffsets, List.take_left' hw, h0]) (by omega) (by omega)
  rw [List.take_of_length_le (by omega), hc, List.map_cons, List.map_cons, h0,
    show fromLeBytes [0, 0, 0, 0] = 0 from rfl, List.cons_append, List.cons_append,
    deserializeSpansM, if_pos (by omega), Nat.mul_div_cancel_left _ (by decide)] at h1
  rw [hf, h1]
  rfl

/-! ## What a value takes is counted -/

theorem bindM_ok {α β : Type} {x : Timed α} {f : α → Timed β} {b : β} (h : (x >>= f).2 = .ok b) :
    ∃ a, x.2 = .ok a ∧ (f a).2 = .ok b ∧ (x >>= f).1 = x.1 + (f a).1 := by
  rw [bind_res] at h
  obtain ⟨a, h1, h2⟩ := Res.bind_eq_ok.mp h
  exact ⟨a, h1, h2, by rw [bindM_of_ok h1]⟩

section

variable {α : Type} {f : Bytes → Timed α} {g : α → Nat} (h : ∀ b v, (f b).2 = .ok v → g v ≤ (f b).1)
include h

theorem mapListM_heap (size : Nat) : ∀ (bs : List Bytes) (vs : List α), (mapListM size f bs).2 = .ok vs →
    vs.length * size + (vs.map g).sum ≤ (mapListM size f bs).1
  | [], vs, hv => by
    cases hv
    simp
  | b :: bs, vs, hv => by
    rw [mapListM] at hv ⊢
    obtain ⟨a, h1, hv, h2⟩ := bindM_ok hv
    rw [h2]
    obtain ⟨-, -, hv, h3⟩ := bindM_ok hv
    rw [h3]
    obtain ⟨as, h4, hv, h5⟩ := bindM_ok hv
    rw [h5]
    cases hv
    have ih := mapListM_heap size bs as h4
    have h6 := h b a h1
    show _ ≤ _ + (1 * size + (_ + 0))
    rw [List.length_cons, List.map_cons, List.sum_cons, Nat.add_mul]
    omega

theorem spansM_heap (b : Bytes) : ∀ (offsets : List Nat) (vs : List α),
    (deserializeSpansM f b offsets).2 = .ok vs →
    vs.length = offsets.length - 1 ∧ (vs.map g).sum ≤ (deserializeSpansM f b offsets).1
  | [], vs, hv => by
    cases hv
    exact ⟨rfl, Nat.zero_le _⟩
  | [_], vs, hv => by
    cases hv
    exact ⟨rfl, Nat.zero_le _⟩
  | start :: stop :: rest, vs, hv => by
    rw [deserializeSpansM] at hv ⊢
    split at hv
    · nomatch hv
    rename_i hs
    rw [if_neg hs]
    obtain ⟨piece, -, hv, h2⟩ := bindM_ok hv
    rw [h2]
    obtain ⟨a, h3, hv, h4⟩ := bindM_ok hv
    rw [h4]
    obtain ⟨as, h5, hv, h6⟩ := bindM_ok hv
    rw [h6]
    cases hv
    obtain ⟨ih1, ih2⟩ := spansM_heap b (stop :: rest) as h5
    have h7 := h piece a h3
    constructor
    · simp only [List.length_cons] at ih1 ⊢
      omega
    · show _ ≤ 0 + (_ + (_ + 0))
      rw [List.map_cons, List.sum_cons]
      omega

theorem variableM_heap (size : Nat) (b : Bytes) (vs : List α)
    (hv : (deserializeVariableHomogeneousCompositeM size f b).2 = .ok vs) :
    vs.length * size + (vs.map g).sum ≤ (deserializeVariableHomogeneousCompositeM size f b).1 := by
  by_cases h0 : b.isEmpty
  · have h1 : deserializeVariableHomogeneousCompositeM size f b = free (.ok []) := by
      unfold deserializeVariableHomogeneousCompositeM
      rw [if_pos h0]
    rw [h1] at hv
    cases hv
    simp
  by_cases h4 : 4 ≤ b.length
  · have hg : getRange b 0 4 = some (b.take 4) := by
      unfold getRange
      rw [if_pos ⟨by omega, h4⟩]
      rfl
    have hu : deserializeU32 (b.take 4) = .ok (fromLeBytes (b.take 4)) :=
      deserializeU32_ok (by rw [List.length_take]; omega)
    by_cases h1 : fromLeBytes (b.take 4) ≤ b.length ∧ fromLeBytes (b.take 4) % 4 = 0
    · have hr := variableM_reserve (f := f) (size := size) b _ h4 rfl h1.1 h1.2
      generalize ho : fromLeBytes (b.take 4) = o at h1 hr
      rw [hr] at hv ⊢
      obtain ⟨h2, h3⟩ := spansM_heap h b _ vs hv
      have hlen : (b.take o).length = o := by rw [List.length_take]; omega
      have hl := chunksExact_length (s := 4) (by decide) (b.take o) (by omega)
      have h5 : vs.length = o / 4 := by
        rw [h2, List.length_append, List.length_map]
        show _ + 1 - 1 = _
        omega
      rw [h5]
      dsimp only
      omega
    · exfalso
      unfold deserializeVariableHomogeneousCompositeM at hv
      rw [if_neg h0, hg] at hv
      dsimp only at hv
      rw [bindM_of_ok hu] at hv
      dsimp only at hv
      split at hv
      · nomatch hv
      · rw [if_pos (by omega)] at hv
        nomatch hv
  · exfalso
    have hg : getRange b 0 4 = none := by
      unfold getRange
      rw [if_neg (by omega)]
    unfold deserializeVariableHomogeneousCompositeM at hv
    rw [if_neg h0, hg] at hv
    nomatch hv

theorem homogeneousM_heap (E : Env) (T : Serializable α) (size : Nat) (b : Bytes) (vs : List α)
    (hv : (deserializeHomogeneousCompositeM E T size f b).2 = .ok vs) :
    vs.length * size + (vs.map g).sum ≤ (deserializeHomogeneousCompositeM E T size f b).1 := by
  unfold deserializeHomogeneousCompositeM at hv ⊢
  split at hv
  · rename_i hs
    rw [if_pos hs]
    exact variableM_heap h size b vs hv
  · rename_i hs
    rw [if_neg hs]
    unfold deserializeFixedHomogeneousCompositeM at hv ⊢
    obtain ⟨hint, -, hv, h2⟩ := bindM_ok hv
    rw [h2]
    split at hv
    · nomatch hv
    · rename_i h0
      rw [if_neg h0]
      obtain ⟨-, -, hv, h3⟩ := bindM_ok hv
      rw [h3]
      have := mapListM_heap h size _ vs hv
      show _ ≤ 0 + (0 + _)
      omega

end

theorem tryFromVec_vector_ok {α : Type} {n : Nat} {xs : List α} {v : List α}
    (h : SszVector.tryFromVec n xs = .ok v) : v = xs := by
  unfold SszVector.tryFromVec at h
  split at h
  · nomatch h
  · split at h
    · nomatch h
    · cases h; rfl

theorem tryFromVec_list_ok {α : Type} {n : Nat} {xs : List α} {v : List α}
    (h : SszList.tryFromVec n xs = .ok v) : v = xs := by
  unfold SszList.tryFromVec at h
  split at h
  · nomatch h
  · cases h; rfl

mutual

theorem deM_heap (E : Env) (mem : Ty → Nat) : ∀ (t : Ty), Fits t → ∀ (b : Bytes) (v : t.Val),
    (t.deM E mem b).2 = .ok v → heap mem t v ≤ (t.deM E mem b).1
  | .uint _, _, _, _, _ => Nat.le_refl _
  | .u256, _, _, _, _ => Nat.le_refl _
  | .bool, _, _, _, _ => Nat.le_refl _
  | .node, _, _, _, _ => Nat.le_refl _
  | .array t n, hf, b, v, hv => by
    rw [Ty.deM] at hv ⊢
    split at hv
    · nomatch hv
    rename_i hn
    rw [if_neg hn]
    obtain ⟨-, -, hv, h1⟩ := bindM_ok hv
    rw [h1]
    obtain ⟨xs, h2, hv, h3⟩ := bindM_ok hv
    rw [h3]
    have h4 := homogeneousM_heap (f := fun b => t.deM E mem b) (deM_heap E mem t hf.1) E _ (mem t) b xs h2
    split at hv
    · cases hv
      show (List.map _ xs).sum ≤ 0 + (_ + _)
      omega
    · nomatch hv
  | .vector t n, hf, b, v, hv => by
    rw [Ty.deM] at hv ⊢
    split at hv
    · nomatch hv
    rename_i hn
    rw [if_neg hn]
    obtain ⟨-, -, hv, h1⟩ := bindM_ok hv
    rw [h1]
    obtain ⟨xs, h2, hv, h3⟩ := bindM_ok hv
    rw [h3]
    have h4 := homogeneousM_heap (f := fun b => t.deM E mem b) (deM_heap E mem t hf.1) E _ (mem t) b xs h2
    split at hv
    · rename_i w h5
      cases hv
      obtain rfl := tryFromVec_vector_ok h5
      show List.length v * mem t + (List.map _ v).sum ≤ 0 + (_ + _)
      omega
    all_goals nomatch hv
  | .list t n, hf, b, v, hv => by
    rw [Ty.deM] at hv ⊢
    obtain ⟨-, -, hv, h1⟩ := bindM_ok hv
    rw [h1]
    obtain ⟨xs, h2, hv, h3⟩ := bindM_ok hv
    rw [h3]
    have h4 := homogeneousM_heap (f := fun b => t.deM E mem b) (deM_heap E mem t hf) E _ (mem t) b xs h2
    split at hv
    · nomatch hv
    split at hv
    · rename_i w h5
      cases hv
      obtain rfl := tryFromVec_list_ok h5
      show List.length v * mem t + (List.map _ v).sum ≤ 0 + (_ + _)
      omega
    all_goals nomatch hv
  | .bitvector n, _, b, v, hv => by
    rw [Ty.deM] at hv ⊢
    obtain ⟨-, -, hv, h1⟩ := bindM_ok hv
    rw [h1]
    obtain ⟨-, -, -, h2⟩ := Bitvector.deserialize_sound hv
    have h3 := congrArg List.length h2
    rw [packBits_length] at h3
    show (v.live.length + 7) / 8 ≤ b.length * 1 + 0
    omega
  | .bitlist n, hf, b, v, hv => by
    rw [Ty.deM] at hv ⊢
    obtain ⟨-, -, hv, h1⟩ := bindM_ok hv
    rw [h1]
    obtain ⟨-, -, h2⟩ := Bitlist.deserialize_sound hf hv
    have h3 := congrArg List.length h2
    rw [packBits_length, List.length_append, List.length_singleton] at h3
    show (v.live.length + 7) / 8 ≤ b.length * 1 + 0
    omega
  | .option t, hf, b, v, hv => by
    cases b with
    | nil => nomatch hv
    | cons x rest =>
      simp only [Ty.deM] at hv ⊢
      split at hv
      · rename_i hx
        rw [if_pos hx]
        split at hv
        · nomatch hv
        · cases hv
          exact Nat.zero_le _
      rename_i hx
      rw [if_neg hx]
      split at hv
      · rename_i hx
        rw [if_pos hx]
        obtain ⟨a, h1, hv, h2⟩ := bindM_ok hv
        rw [h2]
        cases hv
        exact deM_heap E mem t hf rest a h1
      · nomatch hv
  | .newtype t, hf, b, v, hv => by
    rw [Ty.deM] at hv ⊢
    obtain ⟨a, h1, hv, h2⟩ := bindM_ok hv
    rw [h2]
    cases hv
    exact deM_heap E mem t hf b v h1
  | .container fs, hf, b, v, hv => by
    rw [Ty.deM] at hv ⊢
    obtain ⟨d, -, hv, h1⟩ := bindM_ok hv
    rw [h1]
    obtain ⟨spans, -, hv, h2⟩ := bindM_ok hv
    rw [h2]
    have := initM_heap E mem fs hf.1 b spans 0 v hv
    show heapF mem fs v ≤ 0 + (0 + _)
    omega
  | .union vs, hf, b, v, hv => by
    cases b with
    | nil => nomatch hv
    | cons x rest => exact deMV_heap E mem vs hf x rest _ 0 v hv

theorem initM_heap (E : Env) (mem : Ty → Nat) : ∀ (fs : Fields), FitsF fs →
    ∀ (b : Bytes) (spans : List Nat) (i : Nat) (v : fs.Val), (fs.initM E mem b spans i).2 = .ok v →
    heapF mem fs v ≤ (fs.initM E mem b spans i).1
  | .nil, _, _, _, _, _, _ => Nat.le_refl _
  | .cons _ t rest, hf, b, spans, i, v, hv => by
    rw [Fields.initM] at hv ⊢
    obtain ⟨start, -, hv, h1⟩ := bindM_ok hv
    rw [h1]
    obtain ⟨stop, -, hv, h2⟩ := bindM_ok hv
    rw [h2]
    obtain ⟨piece, -, hv, h3⟩ := bindM_ok hv
    rw [h3]
    obtain ⟨x, h4, hv, h5⟩ := bindM_ok hv
    rw [h5]
    obtain ⟨xs, h6, hv, h7⟩ := bindM_ok hv
    rw [h7]
    cases hv
    have h8 := deM_heap E mem t hf.1 piece x h4
    have h9 := initM_heap E mem rest hf.2 b spans (i + 1) xs h6
    show heap mem t x + heapF mem rest xs ≤ 0 + (0 + (0 + (_ + (_ + 0))))
    omega

theorem deMV_heap (E : Env) (mem : Ty → Nat) : ∀ (vs : Variants), FitsV vs →
    ∀ (x : Byte) (rest b : Bytes) (i : Nat) (v : vs.Val), (vs.deM E mem x rest b i).2 = .ok v →
    heapV mem vs v ≤ (vs.deM E mem x rest b i).1
  | .nil, _, _, _, _, _, _, hv => nomatch hv
  | .unit vs, hf, x, rest, b, i, v, hv => by
    rw [Variants.deM] at hv ⊢
    split at hv
    · split at hv
      · nomatch hv
      · cases hv
        exact Nat.zero_le _
    · rename_i hx
      rw [if_neg hx]
      obtain ⟨a, h1, hv, h2⟩ := bindM_ok hv
      rw [h2]
      cases hv
      exact deMV_heap E mem vs hf x rest b (i + 1) a h1
  | .data t vs, hf, x, rest, b, i, v, hv => by
    rw [Variants.deM] at hv ⊢
    split at hv
    · rename_i hx
      rw [if_pos hx]
      obtain ⟨a, h1, hv, h2⟩ := bindM_ok hv
      rw [h2]
      cases hv
      exact deM_heap E mem t hf.1 rest a h1
    · rename_i hx
      rw [if_neg hx]
      obtain ⟨a, h1, hv, h2⟩ := bindM_ok hv
      rw [h2]
      cases hv
      exact deMV_heap E mem vs hf.2 x rest b (i + 1) a h1

end

end Ssz
