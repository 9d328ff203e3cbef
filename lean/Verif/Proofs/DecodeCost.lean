import Verif.Model.DecodeCost
import Verif.Spec.Cost
import Verif.Proofs.Basics
import Mathlib.Tactic.Ring

/-!
# Costs of decoding
-/

namespace Ssz

open Spec Timed

namespace Timed

variable {α β : Type}

@[simp] theorem bind_res (x : Timed α) (f : α → Timed β) :
    (x >>= f).2 = x.2 >>= fun a => (f a).2 := by
  show (Timed.bind x f).2 = _
  unfold Timed.bind
  cases x.2 <;> rfl

@[simp] theorem free_res (r : Res DeError α) : (free r).2 = r := rfl
@[simp] theorem step_res (n : Nat) : (step n).2 = .ok () := rfl

/-- At most `n` steps. -/
def Takes (x : Timed α) (n : Nat) : Prop := x.1 ≤ n

theorem takes_bind {x : Timed α} {f : α → Timed β} {n m : Nat} (h1 : Takes x n)
    (h2 : ∀ a, x.2 = .ok a → Takes (f a) m) : Takes (x >>= f) (n + m) := by
  show Takes (Timed.bind x f) _
  unfold Timed.bind Takes at *
  split
  · rename_i a e
    exact Nat.add_le_add h1 (h2 a e)
  · exact Nat.le_trans h1 (Nat.le_add_right _ _)
  · exact Nat.le_trans h1 (Nat.le_add_right _ _)

theorem takes_mono {x : Timed α} {n m : Nat} (h : Takes x n) (hm : n ≤ m) : Takes x m :=
  Nat.le_trans h hm

theorem takes_free (r : Res DeError α) (n : Nat) : Takes (free r) n := Nat.zero_le _

theorem takes_free_bind {r : Res DeError α} {f : α → Timed β} {n : Nat}
    (h : ∀ a, r = .ok a → Takes (f a) n) : Takes (free r >>= f) n := by
  have := takes_bind (takes_free r 0) h
  rwa [Nat.zero_add] at this

theorem takes_step_bind {f : Unit → Timed β} {k n : Nat} (h : Takes (f ()) n) :
    Takes (step k >>= f) (n + k) := by
  have := takes_bind (x := step k) (f := f) (n := k) (Nat.le_refl _) fun _ _ => h
  rwa [Nat.add_comm k n] at this

end Timed

/-! ## The counter changes nothing -/

theorem mapListC_res {α β : Type} {f : α → Timed β} {g : α → Res DeError β} (h : ∀ x, (f x).2 = g x)
    (xs : List α) : (mapListC f xs).2 = Res.mapList g xs := by
  induction xs with
  | nil => rfl
  | cons x xs ih =>
    simp only [mapListC, Res.mapList, bind_res, step_res, Res.ok_bind, free_res, h, ih]
    cases g x with
    | ok b => rw [Res.ok_bind]; cases Res.mapList g xs <;> rfl
    | err e => rfl
    | panic => rfl

theorem fixedC_res {α : Type} (E : Env) (T : Serializable α) {f : Bytes → Timed α}
    (h : ∀ b, (f b).2 = T.deserialize b) (b : Bytes) :
    (deserializeFixedHomogeneousCompositeC E T f b).2 = deserializeFixedHomogeneousComposite E T b := by
  unfold deserializeFixedHomogeneousCompositeC deserializeFixedHomogeneousComposite
  rw [bind_res, free_res]
  congr 1; funext size
  split
  · rfl
  · simp only [bind_res, free_res, mapListC_res h]

theorem spansC_res {α : Type} (T : Serializable α) {f : Bytes → Timed α}
    (h : ∀ b, (f b).2 = T.deserialize b) (b : Bytes) : ∀ offsets : List Nat,
    (deserializeSpansC f b offsets).2 = deserializeSpans T b offsets
  | [] => rfl
  | [_] => rfl
  | start :: stop :: rest => by
    rw [deserializeSpansC, deserializeSpans, bind_res, step_res, Res.ok_bind]
    split
    · rfl
    · simp only [bind_res, free_res, h, spansC_res T h b (stop :: rest)]

theorem variableC_res {α : Type} (T : Serializable α) {f : Bytes → Timed α}
    (h : ∀ b, (f b).2 = T.deserialize b) (b : Bytes) :
    (deserializeVariableHomogeneousCompositeC f b).2 = deserializeVariableHomogeneousComposite T b := by
  unfold deserializeVariableHomogeneousCompositeC deserializeVariableHomogeneousComposite
  split
  · rfl
  · cases getRange b 0 4 with
    | none => rfl
    | some word =>
      dsimp only
      rw [bind_res, free_res]
      congr 1; funext n
      split
      · rfl
      · split
        · rfl
        · simp only [bind_res, free_res, spansC_res T h b,
            mapListC_res (f := fun b => free (deserializeU32 b)) (g := deserializeU32) fun _ => rfl]

theorem homogeneousC_res {α : Type} (E : Env) (T : Serializable α) {f : Bytes → Timed α}
    (h : ∀ b, (f b).2 = T.deserialize b) (b : Bytes) :
    (deserializeHomogeneousCompositeC E T f b).2 = deserializeHomogeneousComposite E T b := by
  unfold deserializeHomogeneousCompositeC deserializeHomogeneousComposite
  split
  · exact variableC_res T h b
  · exact fixedC_res E T h b

theorem finalizeSegmentsC_res (E : Env) (n : Nat) (segs : List Segment) (offsets : List Nat)
    (total : Nat) : (finalizeSegmentsC E n segs offsets total).2 =
      finalizeSegments E n segs offsets total := by
  induction segs generalizing offsets total with
  | nil => rfl
  | cons s rest ih =>
    cases s with
    | fixed start stop =>
      simp only [finalizeSegmentsC, finalizeSegments, bind_res, step_res, Res.ok_bind, free_res, ih]
    | offset =>
      simp only [finalizeSegmentsC, finalizeSegments, bind_res, step_res, Res.ok_bind]
      cases offsets[0]? with
      | none => rfl
      | some start =>
        cases offsets[1]? with
        | none => rfl
        | some stop =>
          dsimp only
          split
          · rfl
          · split
            · rfl
            · simp only [bind_res, free_res, ih]

theorem finalizeC_res (E : Env) (d : ContainerDeserializer) (b : Bytes) :
    (d.finalizeC E b).2 = d.finalize E b := by
  unfold ContainerDeserializer.finalizeC ContainerDeserializer.finalize
  rw [bind_res, finalizeSegmentsC_res]
  congr 1; funext x
  dsimp only
  split
  · rfl
  · split <;> rfl

theorem parseAllC_res (E : Env) (b : Bytes) : ∀ {α : Type} (fs : FieldImpls α)
    (d : ContainerDeserializer), (fs.parseAllC E b d).2 = fs.parseAll E b d
  | _, .nil, _ => rfl
  | _, .cons _ T rest, d => by
    simp only [FieldImpls.parseAllC, FieldImpls.parseAll, bind_res, step_res, Res.ok_bind, free_res,
      parseAllC_res E b rest]

mutual

theorem deC_res (E : Env) : ∀ (t : Ty) (b : Bytes), (t.deC E b).2 = (t.impl E).deserialize b
  | .uint _, _ => rfl
  | .u256, _ => rfl
  | .bool, _ => rfl
  | .node, _ => rfl
  | .array t n, b => by
    show _ = (Serializable.array E (t.impl E).toSerializable n).deserialize b
    simp only [Ty.deC, Serializable.array, bind_res, step_res, Res.ok_bind]
    split
    · rfl
    · simp only [bind_res, free_res, homogeneousC_res E _ (deC_res E t)]
      congr 1; funext _
      congr 1; funext xs
      split <;> rfl
  | .vector t n, b => by
    show _ = (Serializable.vector E (t.impl E).toSerializable n).deserialize b
    simp only [Ty.deC, Serializable.vector, bind_res, step_res, Res.ok_bind]
    split
    · rfl
    · simp only [bind_res, free_res, homogeneousC_res E _ (deC_res E t)]
      congr 1; funext _
      congr 1; funext xs
      rcases SszVector.tryFromVec n xs with v | ⟨_, _ | _ | _⟩ | _ <;> rfl
  | .list t n, b => by
    show _ = (Serializable.list E (t.impl E).toSerializable n).deserialize b
    simp only [Ty.deC, Serializable.list, bind_res, step_res, Res.ok_bind, free_res,
      homogeneousC_res E _ (deC_res E t)]
    congr 1; funext _
    congr 1; funext xs
    split
    · rfl
    · rcases SszList.tryFromVec n xs with v | ⟨_, _ | _ | _⟩ | _ <;> rfl
  | .bitvector n, b => rfl
  | .bitlist n, b => rfl
  | .option t, b => by
    show _ = (Serializable.option (t.impl E).toSerializable).deserialize b
    simp only [Ty.deC, Serializable.option, bind_res, step_res, Res.ok_bind]
    cases b with
    | nil => rfl
    | cons x rest =>
      dsimp only
      split
      · split <;> rfl
      · split
        · simp only [bind_res, free_res, deC_res E t rest]
          rfl
        · rfl
  | .newtype t, b => by
    show _ = (SimpleSerialize.newtype E (t.impl E)).deserialize b
    simp only [Ty.deC, SimpleSerialize.newtype, bind_res, step_res, Res.ok_bind, free_res,
      deC_res E t b]
    rfl
  | .container fs, b => by
    show _ = (SimpleSerialize.container E (fs.impls E)).deserialize b
    simp only [Ty.deC, SimpleSerialize.container, bind_res, step_res, Res.ok_bind, parseAllC_res,
      finalizeC_res, initC_res E fs b]
  | .union vs, b => by
    show _ = (SimpleSerialize.union E (vs.impls E)).deserialize b
    simp only [Ty.deC, SimpleSerialize.union, bind_res, step_res, Res.ok_bind]
    cases b with
    | nil => rfl
    | cons x rest => exact deCV_res E vs x rest _ 0

theorem initC_res (E : Env) : ∀ (fs : Fields) (b : Bytes) (spans : List Nat) (i : Nat),
    (fs.initC E b spans i).2 = (fs.impls E).initFields b spans i
  | .nil, _, _, _ => rfl
  | .cons _ t rest, b, spans, i => by
    simp only [Fields.initC, Fields.impls, FieldImpls.initFields, bind_res, step_res, Res.ok_bind,
      free_res, deC_res E t, initC_res E rest b spans]
    rfl

theorem deCV_res (E : Env) : ∀ (vs : Variants) (x : Byte) (rest b : Bytes) (i : Nat),
    (vs.deC E x rest b i).2 = (vs.impls E).deserialize x rest b i
  | .nil, _, _, _, _ => rfl
  | .unit vs, x, rest, b, i => by
    simp only [Variants.deC, Variants.impls, VariantImpls.deserialize, bind_res, step_res, Res.ok_bind]
    split
    · split <;> rfl
    · simp only [bind_res, free_res, deCV_res E vs x rest b (i + 1)]
      cases (vs.impls E).deserialize x rest b (i + 1) <;> rfl
  | .data t vs, x, rest, b, i => by
    simp only [Variants.deC, Variants.impls, VariantImpls.deserialize, bind_res, step_res, Res.ok_bind]
    split
    · simp only [bind_res, free_res, deC_res E t rest]
      cases (t.impl E).deserialize rest <;> rfl
    · simp only [bind_res, free_res, deCV_res E vs x rest b (i + 1)]
      cases (vs.impls E).deserialize x rest b (i + 1) <;> rfl

end

/-! ## Bounds -/

theorem mapListC_takes {α β : Type} {f : α → Timed β} {n : Nat} (xs : List α)
    (h : ∀ x ∈ xs, Takes (f x) n) : Takes (mapListC f xs) (xs.length * (n + 1)) := by
  induction xs with
  | nil => exact takes_free _ _
  | cons x xs ih =>
    rw [mapListC, List.length_cons]
    refine takes_mono (takes_step_bind (takes_bind (h x (by simp)) fun _ _ =>
      takes_bind (ih fun y hy => h y (by simp [hy])) fun _ _ => takes_free _ 0)) ?_
    rw [Nat.add_mul]
    omega

theorem chunksExact_pieces {α : Type} {n : Nat} (xs : List α) :
    (chunksExact n xs).length * n ≤ xs.length ∧ ∀ c ∈ chunksExact n xs, c.length = n := by
  induction hm : xs.length using Nat.strongRecOn generalizing xs with
  | _ m ih =>
    rw [chunksExact]
    split
    · rename_i h
      obtain ⟨h1, h2⟩ := ih (xs.drop n).length (by rw [List.length_drop]; omega) (xs.drop n) rfl
      rw [List.length_drop] at h1
      refine ⟨by rw [List.length_cons, Nat.add_mul]; omega, ?_⟩
      intro c hc
      rcases List.mem_cons.1 hc with rfl | hc
      · rw [List.length_take]; omega
      · exact h2 c hc
    · exact ⟨by simp, nofun⟩

theorem fixedC_takes {α : Type} (E : Env) (T : Serializable α) {f : Bytes → Timed α} {s : Nat}
    (hs : 1 ≤ s)
    (h : ∀ b, Takes (f b) (4 * (s * max 1 b.length) - 3)) (b : Bytes) :
    Takes (deserializeFixedHomogeneousCompositeC E T f b) (4 * (s * b.length)) := by
  refine takes_free_bind fun n _ => ?_
  split
  · exact takes_free _ _
  · refine takes_free_bind fun _ _ => ?_
    obtain ⟨h1, h2⟩ := chunksExact_pieces (n := n) b
    have h3 : ∀ c ∈ chunksExact n b, Takes (f c) (4 * (s * n) - 3) := fun c hc => by
      have := h c
      rw [h2 c hc, Nat.max_eq_right (by omega)] at this
      exact this
    refine takes_mono (mapListC_takes _ h3) ?_
    have h4 : 1 ≤ s * n := Nat.mul_pos hs (by omega)
    have h6 : (chunksExact n b).length * (4 * (s * n) - 3 + 1) ≤
        (chunksExact n b).length * (4 * (s * n)) := Nat.mul_le_mul_left _ (by omega)
    have h5 : (chunksExact n b).length * (4 * (s * n)) ≤ 4 * (s * b.length) := by
      calc (chunksExact n b).length * (4 * (s * n)) = 4 * (s * ((chunksExact n b).length * n)) := by ring
        _ ≤ _ := Nat.mul_le_mul_left _ (Nat.mul_le_mul_left _ h1)
    omega

theorem spansC_takes {α : Type} {f : Bytes → Timed α} {c d : Nat}
    (h : ∀ b, Takes (f b) (c * b.length + d)) (b : Bytes) :
    ∀ (rest : List Nat) (start : Nat), Takes (deserializeSpansC f b (start :: rest))
      ((d + 1) * rest.length + c * (b.length - start))
  | [], _ => takes_free _ _
  | stop :: rest, start => by
    rw [deserializeSpansC, List.length_cons, Nat.mul_add, Nat.mul_one]
    by_cases h1 : start > stop
    · rw [if_pos h1]
      exact takes_mono (takes_step_bind (takes_free _ 0)) (by omega)
    rw [if_neg h1]
    by_cases h2 : stop ≤ b.length
    · have ih := spansC_takes h b rest stop
      refine takes_mono (takes_step_bind (takes_free_bind fun piece hp => takes_bind
        (n := c * (stop - start) + d) ?_ fun _ _ =>
        takes_bind ih fun _ _ => takes_free _ 0)) ?_
      · have hl : piece.length = stop - start := by
          unfold slice at hp
          rw [if_pos ⟨by omega, h2⟩] at hp
          cases hp
          rw [List.length_take, List.length_drop]
          omega
        have := h piece
        rwa [hl] at this
      · have h4 : c * (b.length - start) = c * (stop - start) + c * (b.length - stop) := by
          rw [← Nat.mul_add]; congr 1; omega
        rw [h4]
        omega
    · refine takes_mono (takes_step_bind (takes_free_bind (n := 0) fun piece hp => ?_)) (by omega)
      unfold slice at hp
      rw [if_neg (by omega)] at hp
      nomatch hp

theorem mapList_length {α β ε : Type} {f : α → Res ε β} {xs : List α} {ys : List β}
    (h : Res.mapList f xs = .ok ys) : ys.length = xs.length := by
  induction xs generalizing ys with
  | nil => cases h; rfl
  | cons x xs ih =>
    rw [Res.mapList] at h
    split at h
    · split at h
      · rename_i h1
        cases h
        rw [List.length_cons, List.length_cons, ih h1]
      · nomatch h
      · nomatch h
    · nomatch h
    · nomatch h

/-- With `k` offsets, the elements share the bytes behind them. -/
theorem variableC_share {α : Type} {f : Bytes → Timed α} {c d : Nat}
    (h : ∀ b, Takes (f b) (c * b.length + d)) (b : Bytes) :
    ∃ k, 4 * k ≤ b.length ∧
      Takes (deserializeVariableHomogeneousCompositeC f b) (c * (b.length - 4 * k) + (d + 2) * k) := by
  unfold deserializeVariableHomogeneousCompositeC
  split
  · exact ⟨0, by omega, takes_free _ _⟩
  cases hw : getRange b 0 4 with
  | none => exact ⟨0, by omega, takes_free _ _⟩
  | some word =>
    dsimp only
    cases hn : deserializeU32 word with
    | err e => exact ⟨0, by omega, takes_free_bind fun _ h => nomatch h⟩
    | panic => exact ⟨0, by omega, takes_free_bind fun _ h => nomatch h⟩
    | ok n =>
    by_cases h2 : n > b.length
    · refine ⟨0, by omega, takes_free_bind fun n' hn' => ?_⟩
      cases hn'
      rw [if_pos h2]
      exact takes_free _ _
    obtain ⟨h3, -⟩ := chunksExact_pieces (n := 4) (b.take n)
    rw [List.length_take] at h3
    refine ⟨(chunksExact 4 (b.take n)).length, by omega, takes_free_bind fun n' hn' => ?_⟩
    cases hn'
    rw [if_neg h2]
    split
    · exact takes_free _ _
    refine takes_free_bind fun head hh => ?_
    unfold slice at hh
    rw [if_pos ⟨by omega, by omega⟩] at hh
    cases hh
    simp only [Nat.sub_zero, List.drop_zero]
    have h4 := mapListC_takes (f := fun b => free (deserializeU32 b)) (n := 0)
      (chunksExact 4 (b.take n)) fun _ _ => takes_free _ _
    refine takes_mono (takes_bind
      (m := (d + 1) * (chunksExact 4 (b.take n)).length +
        c * (b.length - 4 * (chunksExact 4 (b.take n)).length)) h4
      fun offsets ho => ?_) (by simp only [Nat.add_mul]; omega)
    rw [mapListC_res (g := deserializeU32) fun _ => rfl] at ho
    have hlen := mapList_length ho
    cases offsets with
    | nil => exact takes_free _ _
    | cons o rest =>
      have hn4 : 4 ≤ n := by
        cases hc : chunksExact 4 (b.take n) with
        | nil => rw [hc] at hlen; simp at hlen
        | cons c cs => rw [hc, List.length_cons] at h3; omega
      have ho' : o = n := by
        rw [chunksExact, dif_pos ⟨by decide, by rw [List.length_take]; omega⟩, Res.mapList,
          List.take_take, Nat.min_eq_left hn4] at ho
        have hword : word = b.take 4 := by
          unfold getRange at hw
          split at hw
          · cases hw; rfl
          · nomatch hw
        rw [← hword, hn] at ho
        dsimp only at ho
        split at ho
        · cases ho; rfl
        · nomatch ho
        · nomatch ho
      subst ho'
      rw [List.cons_append]
      refine takes_mono (spansC_takes h b (rest ++ [b.length]) o) ?_
      rw [List.length_append, List.length_singleton, ← hlen, List.length_cons]
      rw [← hlen, List.length_cons] at h3
      exact Nat.add_le_add_left (Nat.mul_le_mul_left _ (by omega)) _

theorem variableC_takes {α : Type} {f : Bytes → Timed α} {s : Nat}
    (hs : 1 ≤ s)
    (h : ∀ b, Takes (f b) (4 * (s * max 1 b.length) - 3)) (b : Bytes) :
    Takes (deserializeVariableHomogeneousCompositeC f b) (4 * (s * b.length)) := by
  obtain ⟨k, hk, h1⟩ := variableC_share (c := 4 * s) (d := 4 * s) (fun b => takes_mono (h b) (by
    have : s * max 1 b.length ≤ s * (b.length + 1) := Nat.mul_le_mul_left _ (by omega)
    rw [Nat.mul_add] at this
    rw [Nat.mul_assoc]
    omega)) b
  refine takes_mono h1 ?_
  have h2 : s * b.length = s * (b.length - 4 * k) + s * (4 * k) := by
    rw [← Nat.mul_add]; congr 1; omega
  have h3 : 1 * k ≤ s * k := Nat.mul_le_mul_right _ hs
  rw [Nat.add_mul, Nat.mul_assoc, Nat.mul_assoc]
  rw [Nat.mul_left_comm s 4 k] at h2
  omega

theorem homogeneousC_takes {α : Type} (E : Env) (T : Serializable α) {f : Bytes → Timed α} {s : Nat}
    (hs : 1 ≤ s)
    (h : ∀ b, Takes (f b) (4 * (s * max 1 b.length) - 3)) (b : Bytes) :
    Takes (deserializeHomogeneousCompositeC E T f b) (4 * (s * b.length)) := by
  unfold deserializeHomogeneousCompositeC
  split
  · exact variableC_takes hs h b
  · exact fixedC_takes E T hs h b

theorem finalizeSegmentsC_takes (E : Env) (n : Nat) (segs : List Segment) (offsets : List Nat)
    (total : Nat) : Takes (finalizeSegmentsC E n segs offsets total) segs.length := by
  induction segs generalizing offsets total with
  | nil => exact takes_free _ _
  | cons s rest ih =>
    rw [List.length_cons]
    cases s with
    | fixed start stop =>
      rw [finalizeSegmentsC]
      exact takes_step_bind (takes_bind (ih _ _) fun _ _ => takes_free _ 0)
    | offset =>
      rw [finalizeSegmentsC]
      refine takes_step_bind ?_
      cases offsets[0]? with
      | none => exact takes_free _ _
      | some start =>
        cases offsets[1]? with
        | none => exact takes_free _ _
        | some stop =>
          dsimp only
          split
          · exact takes_free _ _
          split
          · exact takes_free _ _
          exact takes_free_bind fun _ _ => takes_free_bind fun _ _ =>
            takes_bind (ih _ _) fun _ _ => takes_free _ 0

theorem parse_segments {α : Type} {E : Env} {T : Serializable α} {d d' : ContainerDeserializer}
    {b : Bytes} (h : d.parse E T b = .ok d') : d'.segments.length = d.segments.length + 1 := by
  unfold ContainerDeserializer.parse at h
  dsimp only at h
  split at h
  · obtain ⟨_, -, h⟩ := Res.bind_eq_ok.1 h
    split at h
    · nomatch h
    · obtain ⟨_, -, h⟩ := Res.bind_eq_ok.1 h
      obtain ⟨_, -, h⟩ := Res.bind_eq_ok.1 h
      cases h
      rw [List.length_append, List.length_singleton]
  · obtain ⟨_, -, h⟩ := Res.bind_eq_ok.1 h
    obtain ⟨_, -, h⟩ := Res.bind_eq_ok.1 h
    split at h
    · nomatch h
    · split at h
      · obtain ⟨_, -, h⟩ := Res.bind_eq_ok.1 h
        nomatch h
      · obtain ⟨_, -, h⟩ := Res.bind_eq_ok.1 h
        cases h
        rw [List.length_append, List.length_singleton]

theorem parseAllC_takes (E : Env) (b : Bytes) : ∀ (fs : Fields) (d : ContainerDeserializer),
    Takes ((fs.impls E).parseAllC E b d) (countF fs) ∧
    ∀ d', ((fs.impls E).parseAllC E b d).2 = .ok d' →
      d'.segments.length = d.segments.length + countF fs
  | .nil, d => ⟨takes_free _ _, fun d' h => by cases h; rfl⟩
  | .cons _ t rest, d => by
    constructor
    · exact takes_mono (takes_step_bind (takes_free_bind fun d' _ =>
        (parseAllC_takes E b rest d').1)) (by simp only [countF]; omega)
    · intro d' h
      simp only [Fields.impls, FieldImpls.parseAllC, bind_res, step_res, Res.ok_bind, free_res] at h
      obtain ⟨d1, h1, h2⟩ := Res.bind_eq_ok.1 h
      rw [(parseAllC_takes E b rest d1).2 d' h2, parse_segments h1, countF]
      omega

theorem typeSize_pos : ∀ t : Ty, 1 ≤ typeSize t
  | .uint _ | .u256 | .bool | .node => Nat.le_refl _
  | .array _ _ | .vector _ _ | .list _ _ | .option _ | .newtype _ | .container _ | .union _ =>
    Nat.le_add_right _ _
  | .bitvector _ | .bitlist _ => by simp [typeSize]

theorem countF_typeSize : ∀ fs : Fields, countF fs ≤ typeSizeF fs
  | .nil => Nat.le_refl _
  | .cons _ t rest => by
    have h1 := typeSize_pos t
    have h2 := countF_typeSize rest
    simp only [countF, typeSizeF]
    omega

theorem collectionC_takes {α : Type} {x : Timed α} {s n : Nat} (h : Takes x (4 * (s * n))) :
    Takes x (4 * ((1 + s) * max 1 n) - 4) := by
  have h1 : s * n ≤ s * max 1 n := Nat.mul_le_mul_left _ (by omega)
  refine takes_mono h ?_
  rw [Nat.add_mul, Nat.one_mul]
  omega

mutual

theorem deC_takes (E : Env) : ∀ (t : Ty) (b : Bytes),
    Takes (t.deC E b) (4 * (typeSize t * max 1 b.length) - 3)
  | .uint _, b => takes_mono (takes_step_bind (takes_free _ 0)) (by rw [typeSize]; omega)
  | .u256, b => takes_mono (takes_step_bind (takes_free _ 0)) (by rw [typeSize]; omega)
  | .bool, b => takes_mono (takes_step_bind (takes_free _ 0)) (by rw [typeSize]; omega)
  | .node, b => takes_mono (takes_step_bind (takes_free _ 0)) (by rw [typeSize]; omega)
  | .array t n, b => by
    have h := collectionC_takes (homogeneousC_takes E (t.impl E).toSerializable (typeSize_pos t)
      (deC_takes E t) b)
    rw [Ty.deC, typeSize]
    refine takes_mono (takes_step_bind (n := 4 * ((1 + typeSize t) * max 1 b.length) - 4) ?_)
      (by rw [Nat.add_mul]; omega)
    split
    · exact takes_free _ _
    · refine takes_free_bind fun _ _ => takes_mono (takes_bind h (m := 0) fun xs _ => ?_) (by omega)
      split <;> exact takes_free _ _
  | .vector t n, b => by
    have h := collectionC_takes (homogeneousC_takes E (t.impl E).toSerializable (typeSize_pos t)
      (deC_takes E t) b)
    rw [Ty.deC, typeSize]
    refine takes_mono (takes_step_bind (n := 4 * ((1 + typeSize t) * max 1 b.length) - 4) ?_)
      (by rw [Nat.add_mul]; omega)
    split
    · exact takes_free _ _
    · refine takes_free_bind fun _ _ => takes_mono (takes_bind h (m := 0) fun xs _ => ?_) (by omega)
      split <;> exact takes_free _ _
  | .list t n, b => by
    have h := collectionC_takes (homogeneousC_takes E (t.impl E).toSerializable (typeSize_pos t)
      (deC_takes E t) b)
    rw [Ty.deC, typeSize]
    refine takes_mono (takes_step_bind (n := 4 * ((1 + typeSize t) * max 1 b.length) - 4) ?_)
      (by rw [Nat.add_mul]; omega)
    refine takes_free_bind fun _ _ => takes_mono (takes_bind h (m := 0) fun xs _ => ?_) (by omega)
    split
    · exact takes_free _ _
    · split <;> exact takes_free _ _
  | .bitvector n, b => takes_mono (takes_step_bind (takes_step_bind (takes_free _ 0)))
      (by rw [typeSize]; omega)
  | .bitlist n, b => takes_mono (takes_step_bind (takes_step_bind (takes_free _ 0)))
      (by rw [typeSize]; omega)
  | .option t, b => by
    rw [typeSize]
    refine takes_mono (takes_step_bind (n := 4 * ((1 + typeSize t) * max 1 b.length) - 4) ?_)
      (by rw [Nat.add_mul]; omega)
    cases b with
    | nil => exact takes_free _ _
    | cons x rest =>
      dsimp only
      split
      · split <;> exact takes_free _ _
      split
      · have h1 : typeSize t * max 1 rest.length ≤ typeSize t * max 1 (x :: rest).length :=
          Nat.mul_le_mul_left _ (by rw [List.length_cons]; omega)
        refine takes_mono (takes_bind (deC_takes E t rest) fun _ _ => takes_free _ 0) ?_
        rw [Nat.add_mul]
        omega
      · exact takes_free _ _
  | .newtype t, b => by
    rw [Ty.deC, typeSize]
    refine takes_mono (takes_step_bind (takes_bind (deC_takes E t b) fun _ _ => takes_free _ 0)) ?_
    rw [Nat.add_mul]
    omega
  | .container fs, b => by
    rw [Ty.deC, typeSize]
    have h0 := initC_takes E fs b
    have h2 : countF fs * 3 ≤ 4 * (typeSizeF fs * max 1 b.length) := by
      have := countF_typeSize fs
      have : typeSizeF fs ≤ typeSizeF fs * max 1 b.length :=
        Nat.le_mul_of_pos_right _ (by omega)
      omega
    refine takes_mono (takes_step_bind (takes_bind (parseAllC_takes E b fs {}).1 fun d hd =>
      takes_bind (n := countF fs) ?_ fun spans _ => h0 spans 0)) ?_
    · have h1 := (parseAllC_takes E b fs {}).2 d hd
      refine takes_mono (takes_bind (finalizeSegmentsC_takes E _ d.segments _ _) (m := 0)
        fun x _ => ?_) (by rw [h1]; simp)
      dsimp only
      split
      · exact takes_free _ _
      · split <;> exact takes_free _ _
    · rw [Nat.add_mul]
      omega
  | .union vs, b => by
    rw [typeSize]
    refine takes_mono (takes_step_bind (n := 4 * ((1 + typeSizeV vs) * max 1 b.length) - 4) ?_)
      (by rw [Nat.add_mul]; omega)
    cases b with
    | nil => exact takes_free _ _
    | cons x rest =>
      refine takes_mono (deCV_takes E vs x rest _ 0) ?_
      have : (1 + typeSizeV vs) * max 1 rest.length ≤ (1 + typeSizeV vs) * max 1 (x :: rest).length :=
        Nat.mul_le_mul_left _ (by rw [List.length_cons]; omega)
      omega

theorem initC_takes (E : Env) : ∀ (fs : Fields) (b : Bytes) (spans : List Nat) (i : Nat),
    Takes (fs.initC E b spans i) (4 * (typeSizeF fs * max 1 b.length) - 2 * countF fs)
  | .nil, _, _, _ => takes_free _ _
  | .cons _ t rest, b, spans, i => by
    have h2 : countF rest * 3 ≤ 4 * (typeSizeF rest * max 1 b.length) := by
      have := countF_typeSize rest
      have : typeSizeF rest ≤ typeSizeF rest * max 1 b.length :=
        Nat.le_mul_of_pos_right _ (by omega)
      omega
    have h3 : 1 ≤ typeSize t * max 1 b.length :=
      Nat.mul_pos (typeSize_pos t) (by omega)
    rw [Fields.initC, typeSizeF, countF]
    refine takes_mono (takes_step_bind (takes_free_bind fun start _ => takes_free_bind fun stop _ =>
      takes_free_bind fun piece hp => takes_bind (n := 4 * (typeSize t * max 1 b.length) - 3) ?_
      fun _ _ => takes_bind (initC_takes E rest b spans (i + 1)) fun _ _ => takes_free _ 0)) ?_
    · refine takes_mono (deC_takes E t piece) ?_
      have h1 : piece.length ≤ b.length := by
        unfold slice at hp
        split at hp
        · cases hp
          rw [List.length_take, List.length_drop]
          omega
        · nomatch hp
      have : typeSize t * max 1 piece.length ≤ typeSize t * max 1 b.length :=
        Nat.mul_le_mul_left _ (by omega)
      omega
    · rw [Nat.add_mul]
      omega

theorem deCV_takes (E : Env) : ∀ (vs : Variants) (x : Byte) (rest b : Bytes) (i : Nat),
    Takes (vs.deC E x rest b i) (4 * ((1 + typeSizeV vs) * max 1 rest.length) - 4)
  | .nil, _, _, _, _ => takes_free _ _
  | .unit vs, x, rest, b, i => by
    rw [Variants.deC, typeSizeV]
    refine takes_mono (takes_step_bind
      (n := 4 * ((1 + typeSizeV vs) * max 1 rest.length) - 4) ?_) ?_
    · split
      · split <;> exact takes_free _ _
      · exact takes_mono (takes_bind (deCV_takes E vs x rest b (i + 1)) fun _ _ => takes_free _ 0)
          (Nat.le_refl _)
    · have h1 : 1 ≤ (1 + typeSizeV vs) * max 1 rest.length := Nat.mul_pos (by omega) (by omega)
      rw [Nat.add_mul 1 (1 + typeSizeV vs), Nat.one_mul]
      generalize (1 + typeSizeV vs) * max 1 rest.length = x at h1 ⊢
      omega
  | .data t vs, x, rest, b, i => by
    have h3 : 1 ≤ typeSize t * max 1 rest.length :=
      Nat.mul_pos (typeSize_pos t) (by omega)
    rw [Variants.deC, typeSizeV]
    refine takes_mono (takes_step_bind
      (n := 4 * ((1 + (typeSize t + typeSizeV vs)) * max 1 rest.length) - 5) ?_) ?_
    · split
      · refine takes_mono (takes_bind (deC_takes E t rest) fun _ _ => takes_free _ 0) ?_
        rw [Nat.add_mul, Nat.add_mul]
        omega
      · refine takes_mono (takes_bind (deCV_takes E vs x rest b (i + 1)) fun _ _ => takes_free _ 0) ?_
        rw [Nat.add_mul, Nat.add_mul, Nat.add_mul]
        omega
    · rw [Nat.add_mul, Nat.add_mul]
      omega

end

end Ssz
